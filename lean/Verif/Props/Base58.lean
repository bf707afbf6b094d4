import Verif.Lemmas.Base58

/-
Properties C63-C65: Base58 (/repo/src/util/base58_util.go).
-/

namespace Poodle.Props
open Poodle Poodle.Spec

/-- C63: the encoding of any byte string is its Base58 text. -/
theorem C63_encode_spec (b : Bytes) : IsBase58Of (base58Encode b) b := by
  have hlt : ∀ d ∈ List.replicate (leading 0 b) 0 ++ (Nat.digits 58 (beVal b)).reverse, d < 58 := by
    intro d hd
    rcases List.mem_append.mp hd with hd | hd
    · rw [(List.mem_replicate.mp hd).2]; omega
    · exact Nat.digits_lt_base (by omega) (List.mem_reverse.mp hd)
  rw [IsBase58Of, base58Encode_eq, digits58_map _ hlt, ← beVal_eq_bigEndian]
  refine ⟨fun c hc => ?_, rfl⟩
  obtain ⟨d, hd, rfl⟩ := List.mem_map.mp hc
  exact (char58_spec (hlt d hd)).1

/-- C63: decoding the encoding gives back the bytes. -/
theorem C63_roundtrip (b : Bytes) : base58Decode (base58Encode b) = some b := by
  have hs := C63_encode_spec b
  rw [base58Decode_eq, if_pos hs.1, hs.2, ← beVal_eq_bigEndian]
  have hl : leading b58Idx0 (base58Encode b) = leading 0 b := by
    rw [base58Encode_eq, List.map_append, List.map_replicate, b58Idx0_eq]
    apply leading_replicate_append
    intro x hx hx0
    subst hx0
    rcases hd : (Nat.digits 58 (beVal b)).reverse with - | ⟨d, ds⟩
    · rw [hd] at hx; simp at hx
    · rw [hd] at hx
      simp only [List.map_cons, List.head?_cons, Option.mem_def, Option.some.injEq] at hx
      have hmem : d ∈ Nat.digits 58 (beVal b) := by
        rw [← List.mem_reverse, hd]; simp
      have hd0 : d = 0 := by
        rw [← (char58_spec (Nat.digits_lt_base (by omega) hmem)).2, hx, (char58_spec (d := 0) (by omega)).2]
      have hne : Nat.digits 58 (beVal b) ≠ [] := fun h => by rw [h] at hd; simp at hd
      have hn0 : beVal b ≠ 0 := by
        intro h
        rw [h] at hne
        simp at hne
      have hlast := Nat.getLast_digit_ne_zero 58 hn0
      have : (Nat.digits 58 (beVal b)).getLast hne = d := by
        have := List.getLast_eq_head_reverse hne
        rw [this]
        simp [hd]
      rw [this] at hlast
      exact hlast hd0
  rw [hl, List.reverse_append, List.reverse_reverse, List.reverse_replicate, Nat.ofDigits_append, Nat.ofDigits_digits,
    Nat.ofDigits_replicate_zero, Nat.mul_zero, Nat.add_zero]
  obtain ⟨b', h1, h2⟩ := leading_split (0 : UInt8) b
  generalize leading 0 b = n at h1
  subst h1
  rw [beVal_append, beVal_replicate, Nat.zero_mul, Nat.zero_add, natBytes_beVal h2]

example : base58Encode [0, 0, 1, 0] = [0x31, 0x31, 0x35, 0x52] := by decide +kernel

/-- C64: every string over the alphabet decodes, and encoding the result gives back the string. -/
theorem C64_canonical (s : Bytes) (hs : ∀ c ∈ s, isBase58 c.toNat = true) :
    ∃ b, base58Decode s = some b ∧ base58Encode b = s := by
  rw [base58Decode_eq, if_pos hs]
  refine ⟨_, rfl, ?_⟩
  obtain ⟨s', h1, h2⟩ := leading_split b58Idx0 s
  generalize leading b58Idx0 s = n at h1
  have hs' : ∀ c ∈ s', isBase58 c.toNat = true := fun c hc => hs c (by rw [h1]; exact List.mem_append_right _ hc)
  have hz : digit58 b58Idx0.toNat = 0 := by decide +kernel
  have hd : digits58 s = List.replicate n 0 ++ digits58 s' := by
    rw [h1]; simp [digits58, hz]
  have hval : Nat.ofDigits 58 (digits58 s).reverse = Nat.ofDigits 58 (digits58 s').reverse := by
    rw [hd, List.reverse_append, List.reverse_replicate, Nat.ofDigits_append, Nat.ofDigits_replicate_zero, Nat.mul_zero, Nat.add_zero]
  rw [base58Encode_eq, hval, leading_replicate_append _ _ _ (natBytes_head _), beVal_append, beVal_replicate, Nat.zero_mul, Nat.zero_add,
    beVal_natBytes, Nat.digits_ofDigits 58 (by omega)]
  · rw [List.reverse_reverse, List.map_append, List.map_replicate, map_digits58 s' hs', ← b58Idx0_eq]
    exact h1.symm
  · intro d hd
    obtain ⟨c, hc, rfl⟩ := List.mem_map.mp (List.mem_reverse.mp hd)
    exact digit58_lt c (hs' c hc)
  · intro hne
    rcases s' with - | ⟨c, s'⟩
    · simp [digits58] at hne
    · have hc : c ≠ b58Idx0 := h2 c (by simp)
      have : (digits58 (c :: s')).reverse.getLast hne = digit58 c.toNat := by simp [digits58]
      rw [this]
      intro h0
      apply hc
      rw [← char58_digit58 c (hs' c (by simp)), h0, b58Idx0_eq]

example : (∀ c ∈ [0x31, 0x7A, 0x31], isBase58 (UInt8.toNat c) = true) ∧ base58Decode [0x31, 0x7A, 0x31] = some [0, 0x0C, 0xEA] := by
  decide +kernel

/-- C65: decoding gives nil exactly on strings with a character outside the alphabet. -/
theorem C65_reject_iff (s : Bytes) : base58Decode s = none ↔ ∃ c ∈ s, isBase58 c.toNat = false := by
  rw [base58Decode_eq]
  split
  · rename_i h
    simp only [reduceCtorEq, false_iff]
    push Not
    intro c hc
    simp [h c hc]
  · rename_i h
    simpa using h

example : base58Decode [0x31, 0x30] = none := by decide +kernel

end Poodle.Props
