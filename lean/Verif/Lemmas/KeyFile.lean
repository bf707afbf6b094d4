import Verif.Lemmas.Conv
import Verif.Spec.KeyFile

namespace Poodle
open Poodle.Spec

/-! ### Hexadecimal -/

theorem fromHexChar_iff (c : UInt8) (v : Nat) : fromHexChar c = some v ↔ IsHexDigit c v := by
  have h : ∀ n : Fin 256, ∀ v : Fin 16, fromHexChar (UInt8.ofNat n.val) = some v.val ↔ IsHexDigit (UInt8.ofNat n.val) v.val := by
    unfold IsHexDigit
    decide +kernel
  have hlt : ∀ c v, fromHexChar c = some v → v < 16 := by
    intro c v hc
    rw [fromHexChar] at hc
    split_ifs at hc <;> simp only [Option.some.injEq] at hc <;> omega
  have hlt2 : IsHexDigit c v → v < 16 := by
    rintro (h | h) <;> by_contra hc
    · rw [List.getElem?_eq_none (by simpa using hc)] at h; simp at h
    · rw [List.getElem?_eq_none (by simpa using hc)] at h; simp at h
  by_cases hv : v < 16
  · have := h ⟨c.toNat, c.toNat_lt⟩ ⟨v, hv⟩
    simpa only [UInt8.ofNat_toNat] using this
  · exact ⟨fun h => absurd (hlt c v h) hv, fun h => absurd (hlt2 h) hv⟩

theorem fromHexChar_lt {c : UInt8} {v : Nat} (hc : fromHexChar c = some v) : v < 16 := by
  rw [fromHexChar] at hc
  split_ifs at hc <;> simp only [Option.some.injEq] at hc <;> omega

theorem hexDecode_spec : ∀ (text bytes : Bytes), hexDecode text = some bytes → IsHexOf text bytes
  | [], bytes, h => by simp only [hexDecode, Option.some.injEq] at h; subst h; exact .nil
  | [_], _, h => by simp [hexDecode] at h
  | a :: b :: r, bytes, h => by
    rw [hexDecode] at h
    rcases hx : fromHexChar a with - | x
    · rw [hx] at h; simp at h
    rcases hy : fromHexChar b with - | y
    · rw [hx, hy] at h; simp at h
    rcases ht : hexDecode r with - | t
    · rw [hx, hy, ht] at h; simp at h
    rw [hx, hy, ht] at h
    simp only [Option.some.injEq] at h
    subst h
    have h1 := fromHexChar_lt hx
    have h2 := fromHexChar_lt hy
    refine .cons a b _ r t ?_ ?_ (hexDecode_spec r t ht)
    · rw [UInt8.toNat_ofNat', show (x * 16 + y) % 2 ^ 8 / 16 = x by omega]
      exact (fromHexChar_iff a x).mp hx
    · rw [UInt8.toNat_ofNat', show (x * 16 + y) % 2 ^ 8 % 16 = y by omega]
      exact (fromHexChar_iff b y).mp hy

theorem hexDecode_iff (text bytes : Bytes) : hexDecode text = some bytes ↔ IsHexOf text bytes := by
  refine ⟨hexDecode_spec text bytes, fun h => ?_⟩
  induction h with
  | nil => rfl
  | cons a b x text bytes ha hb _ ih =>
    rw [← fromHexChar_iff] at ha hb
    rw [hexDecode, ha, hb, ih]
    simp only [Option.some.injEq, List.cons.injEq, and_true]
    rw [Nat.div_add_mod']
    simp

theorem hexChar_spec {d : Nat} (hd : d < 16) : fromHexChar (hexChar d) = some d := by
  have h : ∀ n : Fin 16, fromHexChar (hexChar n.val) = some n.val := by decide +kernel
  exact h ⟨d, hd⟩

theorem hexDecode_hexEncode (b : Bytes) : hexDecode (hexEncode b) = some b := by
  induction b with
  | nil => rfl
  | cons x b ih =>
    have h1 := hexChar_spec (d := x.toNat / 16) (by have := x.toNat_lt; omega)
    have h2 := hexChar_spec (d := x.toNat % 16) (by omega)
    rw [hexEncode, hexDecode, h1, h2, ih]
    simp only [Option.some.injEq, List.cons.injEq, and_true]
    rw [Nat.div_add_mod']
    simp

theorem hexDecode_length : ∀ (text bytes : Bytes), hexDecode text = some bytes → text.length = 2 * bytes.length := by
  intro text bytes h
  rw [hexDecode_iff] at h
  induction h with
  | nil => rfl
  | cons => simp only [List.length_cons]; omega

theorem hexDecode_append : ∀ (a b : Bytes), 2 ∣ a.length →
    hexDecode (a ++ b) = match hexDecode a, hexDecode b with
      | some x, some y => some (x ++ y)
      | _, _ => none
  | [], b, _ => by rcases h : hexDecode b <;> simp [hexDecode, h]
  | [_], _, h => by simp at h
  | x :: y :: a, b, h => by
    have ih := hexDecode_append a b (by simp only [List.length_cons] at h; omega)
    rw [List.cons_append, List.cons_append, hexDecode, hexDecode, ih]
    rcases fromHexChar x with - | u
    · simp
    rcases fromHexChar y with - | v
    · simp
    rcases hexDecode a with - | s
    · simp
    rcases hexDecode b with - | t <;> simp

/-! ### CRC-32 -/

theorem crcBit_top (s : BitVec 32) : (crcBit s).getLsbD 31 = s.getLsbD 0 := by
  rw [crcBit]
  split
  · rename_i h
    rw [h, BitVec.getLsbD_xor, BitVec.getLsbD_ushiftRight, BitVec.getLsbD_of_ge _ _ (by omega)]
    decide
  · rename_i h
    rw [BitVec.getLsbD_ushiftRight, BitVec.getLsbD_of_ge _ _ (by omega)]
    simp only [Bool.not_eq_true] at h
    exact h.symm

theorem crcBit_injective {s t : BitVec 32} (h : crcBit s = crcBit t) : s = t := by
  have h0 : s.getLsbD 0 = t.getLsbD 0 := by rw [← crcBit_top, ← crcBit_top, h]
  have h1 : s >>> 1 = t >>> 1 := by
    rw [crcBit, crcBit, h0] at h
    split at h
    · exact BitVec.xor_left_inj (0xEDB88320#32) |>.mp h
    · exact h
  apply BitVec.eq_of_getLsbD_eq
  intro i hi
  rcases i with - | i
  · exact h0
  · have := congrArg (fun v => v.getLsbD i) h1
    simp only [BitVec.getLsbD_ushiftRight] at this
    rwa [Nat.add_comm 1 i] at this

theorem crcByte_injective_state {s t : BitVec 32} {b : UInt8} (h : crcByte s b = crcByte t b) : s = t := by
  have := crcBit_injective <| crcBit_injective <| crcBit_injective <| crcBit_injective <| crcBit_injective <| crcBit_injective <|
    crcBit_injective <| crcBit_injective h
  exact (BitVec.xor_left_inj _).mp this

theorem crcByte_injective_byte {s : BitVec 32} {a b : UInt8} (h : crcByte s a = crcByte s b) : a = b := by
  have := crcBit_injective <| crcBit_injective <| crcBit_injective <| crcBit_injective <| crcBit_injective <| crcBit_injective <|
    crcBit_injective <| crcBit_injective h
  have := (BitVec.xor_right_inj _).mp this
  have h2 := congrArg BitVec.toNat this
  simp only [BitVec.toNat_setWidth, UInt8.toNat_toBitVec] at h2
  have ha := a.toNat_lt
  have hb := b.toNat_lt
  exact UInt8.toNat_inj.mp (by omega)

theorem crc_foldl_injective {s t : BitVec 32} (d : Bytes) (h : d.foldl crcByte s = d.foldl crcByte t) : s = t := by
  induction d generalizing s t with
  | nil => exact h
  | cons b d ih => exact crcByte_injective_state (ih h)

/-- Changing one byte changes the checksum. -/
theorem crc32_one_byte {pre post : Bytes} {a b : UInt8} (h : crc32 (pre ++ a :: post) = crc32 (pre ++ b :: post)) : a = b := by
  rw [crc32, crc32, BitVec.not_inj, List.foldl_append, List.foldl_append, List.foldl_cons, List.foldl_cons] at h
  exact crcByte_injective_byte (crc_foldl_injective post h)

theorem crcBytes_length (d : Bytes) : (crcBytes d).length = 4 := beBytes_length _ _

theorem crcBytes_inj {a b : Bytes} (h : crcBytes a = crcBytes b) : crc32 a = crc32 b := by
  have := congrArg beVal h
  rw [crcBytes, crcBytes, beVal_beBytes, beVal_beBytes, show (256 ^ 4 : Nat) = 2 ^ 32 by decide, Nat.mod_eq_of_lt (crc32 a).isLt,
    Nat.mod_eq_of_lt (crc32 b).isLt] at this
  exact BitVec.eq_of_toNat_eq this

/-! ### Loading -/

theorem loadKeyBytes_eq (input : Bytes) : loadKeyBytes input =
    match hexDecode input with
    | none => .err
    | some o => if o.length < 4 then .panic else
        if crcBytes (o.take (o.length - 4)) = o.drop (o.length - 4) then .ok (o.take (o.length - 4)) else .err := by
  rw [loadKeyBytes]
  rcases hexDecode input with - | o
  · rfl
  · simp only
    by_cases h : o.length < 4
    · rw [if_pos h, goSlice, if_neg (by omega)]
      rfl
    · rw [if_neg h, goSlice, if_pos ⟨by omega, by omega, by omega⟩, Res.bind_ok, goSlice, if_pos ⟨by omega, by omega, by omega⟩,
        Res.bind_ok, show ((o.length : Int) - 4).toNat = o.length - 4 by omega]
      simp

theorem loadKeyBytes_ok_iff (input data : Bytes) : loadKeyBytes input = .ok data ↔ hexDecode input = some (data ++ crcBytes data) := by
  rw [loadKeyBytes_eq]
  rcases hexDecode input with - | o
  · simp
  · simp only [Option.some.injEq]
    split
    · rename_i h
      simp only [reduceCtorEq, false_iff]
      rintro rfl
      rw [List.length_append, crcBytes_length] at h
      omega
    · rename_i h
      split
      · rename_i hc
        rw [Res.ok.injEq]
        constructor
        · rintro rfl
          rw [hc, List.take_append_drop]
        · rintro rfl
          rw [List.length_append, crcBytes_length, Nat.add_sub_cancel, List.take_left]
      · rename_i hc
        simp only [reduceCtorEq, false_iff]
        rintro rfl
        rw [List.length_append, crcBytes_length, Nat.add_sub_cancel, List.take_left, List.drop_left] at hc
        exact hc rfl

theorem FS.set_self (fs : FS) (p : Path) (c : Bytes) : (fs.set p c) p = some c := by simp [FS.set]

theorem FS.set_other (fs : FS) {p q : Path} (c : Bytes) (h : q ≠ p) : (fs.set p c) q = fs q := by simp [FS.set, h]

end Poodle
