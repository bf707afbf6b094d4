import Verif.Lemmas.Conv

/-
Properties C66-C68: type conversions (/repo/src/collection/util.go:766-850).
-/

namespace Poodle.Props
open Poodle Poodle.Spec

/-! ### C66 Fixed-width integer conversions -/

/-- C66, 64 bits: the encoding is 8 bytes, whose big endian value is the two's complement representation; decoding the encoding
followed by anything gives back the integer. -/
theorem C66_int64 (x : Int) (h1 : -2 ^ 63 ≤ x) (h2 : x < 2 ^ 63) :
    (int64ToByteArray x).length = 8 ∧ TwosComplement 64 (bigEndian (int64ToByteArray x)) x ∧
      ∀ rest, byteArrayToInt64 (int64ToByteArray x ++ rest) = x := by
  have hl : (int64ToByteArray x).length = 8 := beBytes_length _ _
  have hs := toUnsigned_spec64 h1 h2
  have hv : beVal (int64ToByteArray x) = toUnsigned 64 x := by
    rw [int64ToByteArray, beVal_beBytes, Nat.mod_eq_of_lt]; exact hs.1
  refine ⟨hl, by rw [← beVal_eq_bigEndian, hv]; exact hs, fun rest => ?_⟩
  rw [byteArrayToInt64, if_neg (by rw [List.length_append]; omega), ← hl, List.take_left, hv]
  have := toSigned_spec64 hs.1
  simp only [TwosComplement] at this hs
  omega

example := C66_int64 (-300) (by decide) (by decide)

/-- C66, 32 bits signed. -/
theorem C66_int32 (x : Int) (h1 : -2 ^ 31 ≤ x) (h2 : x < 2 ^ 31) :
    (int32ToByteArray x).length = 4 ∧ TwosComplement 32 (bigEndian (int32ToByteArray x)) x ∧
      ∀ rest, byteArrayToInt32 (int32ToByteArray x ++ rest) = x := by
  have hl : (int32ToByteArray x).length = 4 := beBytes_length _ _
  have hs := toUnsigned_spec32 h1 h2
  have hv : beVal (int32ToByteArray x) = toUnsigned 32 x := by
    rw [int32ToByteArray, beVal_beBytes, Nat.mod_eq_of_lt]; exact hs.1
  refine ⟨hl, by rw [← beVal_eq_bigEndian, hv]; exact hs, fun rest => ?_⟩
  rw [byteArrayToInt32, if_neg (by rw [List.length_append]; omega), ← hl, List.take_left, hv]
  have := toSigned_spec32 hs.1
  simp only [TwosComplement] at this hs
  omega

example := C66_int32 (-300) (by decide) (by decide)

/-- C66, 32 bits unsigned. -/
theorem C66_uint32 (x : Nat) (h : x < 2 ^ 32) : (uint32ToByteArray x).length = 4 ∧ bigEndian (uint32ToByteArray x) = x ∧
      ∀ rest, byteArrayToUint32 (uint32ToByteArray x ++ rest) = x := by
  have hl : (uint32ToByteArray x).length = 4 := beBytes_length _ _
  have hv : beVal (uint32ToByteArray x) = x := by
    rw [uint32ToByteArray, beVal_beBytes, Nat.mod_eq_of_lt]; exact h
  refine ⟨hl, by rw [← beVal_eq_bigEndian, hv], fun rest => ?_⟩
  rw [byteArrayToUint32, if_neg (by rw [List.length_append]; omega), ← hl, List.take_left, hv]

example := C66_uint32 70000 (by decide)

/-- C66, decoding of every byte string: too short input gives 0, longer input the value of its first bytes. -/
theorem C66_decode (buf : Bytes) :
    (buf.length < 8 → byteArrayToInt64 buf = 0) ∧
    (8 ≤ buf.length → TwosComplement 64 (bigEndian (buf.take 8)) (byteArrayToInt64 buf)) ∧
    (buf.length < 4 → byteArrayToInt32 buf = 0 ∧ byteArrayToUint32 buf = 0) ∧
    (4 ≤ buf.length → TwosComplement 32 (bigEndian (buf.take 4)) (byteArrayToInt32 buf) ∧
      byteArrayToUint32 buf = bigEndian (buf.take 4)) := by
  refine ⟨fun h => by rw [byteArrayToInt64, if_pos h], fun h => ?_, fun h => ⟨by rw [byteArrayToInt32, if_pos h],
    by rw [byteArrayToUint32, if_pos h]⟩, fun h => ⟨?_, ?_⟩⟩
  · rw [byteArrayToInt64, if_neg (by omega), ← beVal_eq_bigEndian]
    apply toSigned_spec64
    have := beVal_lt (buf.take 8)
    rwa [List.length_take, Nat.min_eq_left h] at this
  · rw [byteArrayToInt32, if_neg (by omega), ← beVal_eq_bigEndian]
    apply toSigned_spec32
    have := beVal_lt (buf.take 4)
    rwa [List.length_take, Nat.min_eq_left h] at this
  · rw [byteArrayToUint32, if_neg (by omega), ← beVal_eq_bigEndian]

example : int64ToByteArray (-2) = [255, 255, 255, 255, 255, 255, 255, 254] ∧ byteArrayToInt64 [255, 255, 255, 255, 255, 255, 255, 254, 7] = -2 ∧
    int32ToByteArray 258 = [0, 0, 1, 2] ∧ uint32ToByteArray (2 ^ 32 - 1) = [255, 255, 255, 255] := by decide +kernel

/-! ### C67 256-bit integer conversions -/

/-- C67: the result has always 32 bytes, the big endian form of the low 256 bits of the absolute value. -/
theorem C67_length_and_value (d : Int) :
    (bigIntToByteArray d).length = 32 ∧ bigEndian (bigIntToByteArray d) = d.natAbs % 2 ^ 256 :=
  ⟨bigIntToByteArray_length d, by
    rw [← beVal_eq_bigEndian, beVal_bigIntToByteArray, show (256 ^ 32 : Nat) = 2 ^ 256 by decide]⟩

/-- C67: the inverse on [0, 2^256). -/
theorem C67_roundtrip (d : Int) (h0 : 0 ≤ d) (h : d < 2 ^ 256) : byteArrayToBigInt (bigIntToByteArray d) = d := by
  rw [byteArrayToBigInt, beVal_bigIntToByteArray, show (256 ^ 32 : Nat) = 2 ^ 256 by decide]
  generalize hF : (2 ^ 256 : Nat) = F
  have hF' : ((2 : Int) ^ 256) = F := by rw [← hF]; norm_num
  rw [hF'] at h
  rw [Nat.mod_eq_of_lt (by omega)]
  omega

example := C67_roundtrip 70000 (by decide) (by decide)

/-- C67, the other direction: 32 bytes are recovered from their value. -/
theorem C67_bytes_roundtrip (b : Bytes) (h : b.length = 32) : bigIntToByteArray (byteArrayToBigInt b) = b := by
  apply beVal_injective (by rw [bigIntToByteArray_length, h])
  rw [beVal_bigIntToByteArray, byteArrayToBigInt, Int.natAbs_natCast, Nat.mod_eq_of_lt]
  exact h ▸ beVal_lt b

example : (bigIntToByteArray 258).drop 29 = [0, 1, 2] ∧ (bigIntToByteArray 258).length = 32 ∧
    bigIntToByteArray (-258) = bigIntToByteArray 258 ∧ byteArrayToBigInt (bigIntToByteArray 258) = 258 := by decide +kernel

/-! ### C68 Timestamp conversions -/

/-- C68: every instant given by int64 nanoseconds survives, with any bytes behind; shorter input is an error. -/
theorem C68_time_roundtrip (t : Int) (h1 : -2 ^ 63 ≤ t) (h2 : t < 2 ^ 63) (rest : Bytes) :
    (timeToBytes t).length = 8 ∧ bytesToTime (timeToBytes t ++ rest) = .ok t ∧
      ∀ n < 8, bytesToTime ((timeToBytes t).take n) = .err := by
  have hl : (timeToBytes t).length = 8 := beBytes_length _ _
  have hs := toUnsigned_spec64 h1 h2
  have hv : beVal (timeToBytes t) = toUnsigned 64 t := by
    rw [timeToBytes, beVal_beBytes, Nat.mod_eq_of_lt]; exact hs.1
  refine ⟨hl, ?_, fun n hn => ?_⟩
  · rw [bytesToTime, if_neg (by rw [List.length_append]; omega), ← hl, List.take_left, hv]
    have := toSigned_spec64 hs.1
    simp only [TwosComplement] at this hs
    rw [Res.ok.injEq]; omega
  · rw [bytesToTime, if_pos]; rw [List.length_take]; omega

example : bytesToTime (timeToBytes (-1) ++ [3]) = .ok (-1) := by decide +kernel

end Poodle.Props
