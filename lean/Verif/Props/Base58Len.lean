import Verif.Props.Base58
import Mathlib.Tactic.NormNum
import Mathlib.Tactic.NormNum.Pow

/-
Property C208: how long Base58 texts are (/repo/src/util/base58_util.go).
-/

namespace Poodle.Props
open Poodle Poodle.Spec

/-! ### C208 Lengths of Base58 texts -/

theorem base58Encode_length (b : Bytes) : (base58Encode b).length = leading 0 b + (Nat.digits 58 (bigEndian b)).length := by
  rw [base58Encode_eq, ← beVal_eq_bigEndian]
  simp

theorem digits58_le {n k : Nat} (h : n < 58 ^ k) : (Nat.digits 58 n).length ≤ k :=
  (Nat.digits_length_le_iff (by omega) n).mpr h

theorem lt_digits58 {n k : Nat} (h : 58 ^ k ≤ n) : k < (Nat.digits 58 n).length :=
  (Nat.lt_digits_length_iff (by omega) n).mpr h

theorem digits58_mono {m n : Nat} (h : m ≤ n) : (Nat.digits 58 m).length ≤ (Nat.digits 58 n).length :=
  digits58_le (lt_of_le_of_lt h (Nat.lt_base_pow_length_digits (by omega)))

/-- The bytes after the leading zeros, with their value. -/
theorem leading_value (b : Bytes) : ∃ r : Bytes, b.length = leading 0 b + r.length ∧ bigEndian b = beVal r ∧
    (r ≠ [] → 256 ^ (r.length - 1) ≤ beVal r) := by
  obtain ⟨r, hb, hr⟩ := leading_split 0 b
  refine ⟨r, ?_, ?_, fun hne => ?_⟩
  · conv_lhs => rw [hb]
    simp
  · rw [← beVal_eq_bigEndian]
    conv_lhs => rw [hb, beVal_append, beVal_replicate]
    simp
  · rcases r with - | ⟨x, r⟩
    · exact absurd rfl hne
    · have hx : x ≠ 0 := hr x (by simp)
      have : 0 < x.toNat := by
        rcases Nat.eq_zero_or_pos x.toNat with h | h
        · exact absurd (UInt8.toNat_inj.mp (by simpa using h)) hx
        · exact h
      rw [beVal_cons, List.length_cons, Nat.add_sub_cancel]
      calc 256 ^ r.length = 1 * 256 ^ r.length := (Nat.one_mul _).symm
        _ ≤ x.toNat * 256 ^ r.length := Nat.mul_le_mul_right _ this
        _ ≤ _ := Nat.le_add_right _ _

theorem pow_58_256 (n : Nat) : 256 ^ n < 58 ^ (n * 138 / 100 + 1) := by
  have h1 : (256 : Nat) ^ 100 ≤ 58 ^ 138 := by norm_num
  refine lt_of_pow_lt_pow_left₀ 100 (Nat.zero_le _) ?_
  rw [← pow_mul, ← pow_mul, Nat.mul_comm n 100, pow_mul]
  calc (256 ^ 100) ^ n ≤ (58 ^ 138) ^ n := Nat.pow_le_pow_left h1 n
    _ = 58 ^ (n * 138) := by rw [← pow_mul, Nat.mul_comm]
    _ < 58 ^ ((n * 138 / 100 + 1) * 100) := Nat.pow_lt_pow_right (by omega) (by omega)

/-- C208: a text is at least as long as the bytes it stands for, and at most 1.38 times as long and one more. -/
theorem C208_bounds (b : Bytes) : b.length ≤ (base58Encode b).length ∧ (base58Encode b).length ≤ b.length * 138 / 100 + 1 := by
  obtain ⟨r, h1, h2, h3⟩ := leading_value b
  rw [base58Encode_length, h2]
  have hu : (Nat.digits 58 (beVal r)).length ≤ r.length * 138 / 100 + 1 :=
    digits58_le (lt_trans (beVal_lt r) (pow_58_256 _))
  refine ⟨?_, by omega⟩
  rcases r with - | ⟨x, r⟩
  · simp at h1; omega
  · have := h3 (by simp)
    simp only [List.length_cons, Nat.add_sub_cancel] at this h1
    have := lt_digits58 (le_trans (Nat.pow_le_pow_left (show 58 ≤ 256 by omega) _) this)
    omega

/-- C208, the longest texts: no text of `n` bytes is longer than that of `n` bytes 255, and none is shorter than that of `n` zeros. -/
theorem C208_extremes (b : Bytes) :
    (base58Encode (List.replicate b.length 0)).length = b.length ∧ b.length ≤ (base58Encode b).length ∧
      (base58Encode b).length ≤ (base58Encode (List.replicate b.length 255)).length := by
  have hz : ∀ n, leading (0 : UInt8) (List.replicate n 0) = n := by
    intro n
    have := leading_replicate_append (0 : UInt8) n [] (by simp)
    simpa using this
  have hf : ∀ n, leading (0 : UInt8) (List.replicate n 255) = 0 := by
    intro n
    cases n with
    | zero => rfl
    | succ n => simp [leading, List.replicate_succ]
  have hv : ∀ n, beVal (List.replicate n 255) + 1 = 256 ^ n := by
    intro n
    induction n with
    | zero => rfl
    | succ n ih =>
      rw [List.replicate_succ, beVal_cons, List.length_replicate, pow_succ]
      rw [show (255 : UInt8).toNat = 255 from rfl]
      omega
  refine ⟨?_, (C208_bounds b).1, ?_⟩
  · rw [base58Encode_length, hz, ← beVal_eq_bigEndian, beVal_replicate]
    simp
  · obtain ⟨r, h1, h2, -⟩ := leading_value b
    rw [base58Encode_length, base58Encode_length, hf, h2, ← beVal_eq_bigEndian]
    have hr := beVal_lt r
    have step : ∀ m, (Nat.digits 58 (256 ^ m - 1)).length < (Nat.digits 58 (256 ^ (m + 1) - 1)).length := by
      intro m
      apply lt_digits58
      rcases hd : (Nat.digits 58 (256 ^ m - 1)).length with - | d
      · have : 0 < 256 ^ m := Nat.pow_pos (by omega)
        rw [pow_succ]
        omega
      · have : 58 ^ d ≤ 256 ^ m - 1 := (Nat.lt_digits_length_iff (by omega) _).mp (by omega)
        rw [pow_succ, pow_succ]
        omega
    have steps : ∀ z, z + (Nat.digits 58 (256 ^ r.length - 1)).length ≤ (Nat.digits 58 (256 ^ (z + r.length) - 1)).length := by
      intro z
      induction z with
      | zero => simp
      | succ z ih =>
        have := step (z + r.length)
        rw [show z + 1 + r.length = z + r.length + 1 by omega]
        omega
    have h3 := steps (leading 0 b)
    have h4 : (Nat.digits 58 (beVal r)).length ≤ (Nat.digits 58 (256 ^ r.length - 1)).length := digits58_mono (by omega)
    have h5 := hv b.length
    rw [show beVal (List.replicate b.length 255) = 256 ^ b.length - 1 by omega, h1]
    omega

/-- C208, decoding: a text that is accepted gives at most as many bytes as it has characters, and at least as many as the bound on
encoding allows. -/
theorem C208_decode (s b : Bytes) (h : base58Decode s = some b) : b.length ≤ s.length ∧ s.length ≤ b.length * 138 / 100 + 1 := by
  have hs : ∀ c ∈ s, isBase58 c.toNat = true := by
    by_contra hc
    rw [(C65_reject_iff s).mpr (by push Not at hc; simpa using hc)] at h
    simp at h
  obtain ⟨b', h1, h2⟩ := C64_canonical s hs
  rw [h] at h1
  cases h1
  rw [← h2]
  exact C208_bounds b

/-- C208 for 32 bytes, the size of a hash or of half a signature: between 32 and 44 characters. -/
theorem C208_hash (b : Bytes) (h : b.length = 32) : 32 ≤ (base58Encode b).length ∧ (base58Encode b).length ≤ 44 := by
  obtain ⟨h1, h2, h3⟩ := C208_extremes b
  rw [h] at h2 h3
  refine ⟨h2, le_trans h3 ?_⟩
  decide +kernel

example := C208_hash (List.replicate 5 0 ++ List.replicate 27 200) (by decide)

example := C208_decode [49, 122, 50] [0, 12, 235] (by decide +kernel)

/-- Both ends of the range are reached, and one byte may need two characters. -/
example : (base58Encode (List.replicate 32 0)).length = 32 ∧ (base58Encode (List.replicate 32 255)).length = 44 ∧
    (base58Encode [57]).length = 1 ∧ (base58Encode [58]).length = 2 := by decide +kernel

end Poodle.Props
