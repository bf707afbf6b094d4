import Verif.Model.Base58
import Verif.Lemmas.Conv
import Verif.Spec.Base58
import Mathlib.Data.Nat.Digits.Lemmas

namespace Poodle
open Poodle.Spec

/-- All 256 entries of the table. -/
theorem b58_eq (c : UInt8) : (b58 c).toNat = if isBase58 c.toNat then digit58 c.toNat else 255 := by
  have h : ∀ n : Fin 256, (b58 (UInt8.ofNat n.val)).toNat = if isBase58 n.val then digit58 n.val else 255 := by decide +kernel
  have := h ⟨c.toNat, c.toNat_lt⟩
  simpa only [UInt8.ofNat_toNat] using this

theorem digit58_lt (c : UInt8) (hc : isBase58 c.toNat = true) : digit58 c.toNat < 58 := by
  have h : ∀ n : Fin 256, isBase58 n.val = true → digit58 n.val < 58 := by decide +kernel
  exact h ⟨c.toNat, c.toNat_lt⟩ hc

/-- The character of a digit. -/
def char58 (d : Nat) : UInt8 := b58Alphabet.getD d 0

theorem char58_spec {d : Nat} (hd : d < 58) : isBase58 (char58 d).toNat = true ∧ digit58 (char58 d).toNat = d := by
  have h : ∀ n : Fin 58, isBase58 (char58 n.val).toNat = true ∧ digit58 (char58 n.val).toNat = n.val := by decide +kernel
  exact h ⟨d, hd⟩

theorem char58_digit58 (c : UInt8) (hc : isBase58 c.toNat = true) : char58 (digit58 c.toNat) = c := by
  have h : ∀ n : Fin 256, isBase58 n.val = true → char58 (digit58 n.val) = UInt8.ofNat n.val := by decide +kernel
  have := h ⟨c.toNat, c.toNat_lt⟩ hc
  simpa only [UInt8.ofNat_toNat] using this

theorem b58Digits_eq (fuel x : Nat) (h : x ≤ fuel) : b58Digits fuel x = (Nat.digits 58 x).map char58 := by
  induction fuel generalizing x with
  | zero => simp [b58Digits, Nat.le_zero.mp h]
  | succ fuel ih =>
    rw [b58Digits]
    split
    · rename_i hx
      rw [Nat.digits_def' (by omega) hx, List.map_cons, ih (x / 58) (by omega)]
      rfl
    · rename_i hx
      rw [show x = 0 by omega]; simp

/-- More fuel does not change the result. -/
theorem b58Digits_fuel (fuel x : Nat) (h : x ≤ fuel) : b58Digits fuel x = b58Digits x x := by
  rw [b58Digits_eq _ _ h, b58Digits_eq _ _ (le_refl x)]

theorem b58Zeros_eq (b : Bytes) : b58Zeros b = List.replicate (leading 0 b) b58Idx0 := by
  induction b with
  | nil => rfl
  | cons i b ih =>
    rw [b58Zeros]
    by_cases hi : i = 0
    · rw [if_neg (by simpa using hi), ih]
      simp [leading, hi, List.replicate_succ]
    · rw [if_pos hi]
      simp [leading, hi]

theorem b58NumZeros_eq (b : Bytes) : b58NumZeros b = leading b58Idx0 b := by
  induction b with
  | nil => rfl
  | cons i b ih =>
    rw [b58NumZeros]
    by_cases hi : i = b58Idx0
    · rw [if_neg (by simpa using hi), ih]
      simp [leading, hi]
    · rw [if_pos hi]
      simp [leading, hi]

theorem b58Idx0_eq : b58Idx0 = char58 0 := by decide +kernel

theorem base58Encode_eq (b : Bytes) : base58Encode b =
    (List.replicate (leading 0 b) 0 ++ (Nat.digits 58 (beVal b)).reverse).map char58 := by
  simp only [base58Encode]
  rw [b58Digits_eq _ _ (le_refl _), b58Zeros_eq, b58Idx0_eq, List.reverse_append, List.map_append, List.map_reverse,
    List.reverse_replicate, List.map_replicate]

theorem b58Sum_eq (s : Bytes) (answer j : Nat) : b58Sum s answer j =
    if ∀ c ∈ s, isBase58 c.toNat = true then some (answer + j * Nat.ofDigits 58 (s.map fun c => digit58 c.toNat)) else none := by
  induction s generalizing answer j with
  | nil => simp [b58Sum]
  | cons c s ih =>
    have hb := b58_eq c
    rw [b58Sum]
    by_cases hc : isBase58 c.toNat = true
    · rw [if_pos hc] at hb
      have hlt := digit58_lt c hc
      rw [if_neg (fun h => by rw [h] at hb; simp at hb; omega), ih, hb]
      by_cases ha : ∀ c ∈ s, isBase58 c.toNat = true
      · rw [if_pos ha, if_pos (by simpa [hc] using ha), List.map_cons, Nat.ofDigits_cons]
        congr 1
        rw [Nat.mul_add, Nat.mul_assoc, Nat.add_assoc]
      · rw [if_neg ha, if_neg (by simpa [hc] using ha)]
    · rw [if_neg hc] at hb
      have : b58 c = 255 := UInt8.toNat_inj.mp hb
      rw [if_pos this, if_neg (fun h => hc (h c (by simp)))]

theorem base58Decode_eq (s : Bytes) : base58Decode s =
    if ∀ c ∈ s, isBase58 c.toNat = true then
      some (List.replicate (leading b58Idx0 s) 0 ++ natBytes (Nat.ofDigits 58 (digits58 s).reverse)) else none := by
  rw [base58Decode, b58Sum_eq, b58NumZeros_eq]
  by_cases h : ∀ c ∈ s, isBase58 c.toNat = true
  · rw [if_pos h, if_pos (by simpa using h)]
    simp [digits58, List.map_reverse]
  · rw [if_neg h, if_neg (by simpa using h)]

theorem leading_replicate_append {α : Type} [DecidableEq α] (a : α) (n : Nat) (l : List α) (h : ∀ x ∈ l.head?, x ≠ a) :
    leading a (List.replicate n a ++ l) = n := by
  induction n with
  | zero =>
    rcases l with - | ⟨x, l⟩
    · rfl
    · simp [leading, h x (by simp)]
  | succ n ih =>
    simp only [leading] at ih ⊢
    rw [List.replicate_succ, List.cons_append, List.takeWhile_cons, if_pos (by simp), List.length_cons, ih]

theorem leading_split {α : Type} [DecidableEq α] (a : α) (l : List α) :
    ∃ l', l = List.replicate (leading a l) a ++ l' ∧ ∀ x ∈ l'.head?, x ≠ a := by
  induction l with
  | nil => exact ⟨[], rfl, by simp⟩
  | cons x l ih =>
    by_cases hx : x = a
    · obtain ⟨l', h1, h2⟩ := ih
      refine ⟨l', ?_, h2⟩
      have : leading a (x :: l) = leading a l + 1 := by simp [leading, hx]
      rw [this, List.replicate_succ, List.cons_append, ← h1, hx]
    · exact ⟨x :: l, by simp [leading, hx], by simpa using hx⟩

theorem natBytes_head (n : Nat) : ∀ x ∈ (natBytes n).head?, x ≠ 0 := by
  intro x hx h0
  subst h0
  rcases hb : natBytes n with - | ⟨y, l⟩
  · rw [hb] at hx; simp at hx
  · rw [hb] at hx
    simp only [List.head?_cons, Option.mem_def, Option.some.injEq] at hx
    subst hx
    have hv := beVal_natBytes n
    rw [hb, beVal_cons] at hv
    simp only [UInt8.toNat_zero, Nat.zero_mul, Nat.zero_add] at hv
    have := natBytes_length_le (n := n) (k := l.length) (by rw [← hv]; exact beVal_lt l)
    rw [hb] at this
    simp at this

theorem natBytes_beVal {b : Bytes} (h : ∀ x ∈ b.head?, x ≠ 0) : natBytes (beVal b) = b := by
  apply beVal_injective _ (beVal_natBytes _)
  have h1 := natBytes_length_le (beVal_lt b)
  have h2 := lt_natBytes (beVal b)
  rcases b with - | ⟨x, b⟩
  · simpa using h1
  · refine le_antisymm h1 ?_
    have hx : x ≠ 0 := h x (by simp)
    have hx1 : 1 ≤ x.toNat := by
      rw [Nat.one_le_iff_ne_zero]
      exact fun h => hx (UInt8.toNat_inj.mp h)
    by_contra hc
    push Not at hc
    have hle : 256 ^ (natBytes (beVal (x :: b))).length ≤ 256 ^ b.length := Nat.pow_le_pow_right (by omega) (by
      simp only [List.length_cons] at hc; omega)
    have h3 : 256 ^ b.length ≤ beVal (x :: b) := by
      rw [beVal_cons]
      calc 256 ^ b.length = 1 * 256 ^ b.length := by rw [Nat.one_mul]
        _ ≤ x.toNat * 256 ^ b.length := Nat.mul_le_mul_right _ hx1
        _ ≤ _ := Nat.le_add_right _ _
    omega

theorem digits58_map (ds : List Nat) (h : ∀ d ∈ ds, d < 58) : digits58 (ds.map char58) = ds := by
  rw [digits58, List.map_map]
  conv_rhs => rw [← List.map_id ds]
  exact List.map_congr_left fun d hd => (char58_spec (h d hd)).2

theorem map_digits58 (s : Bytes) (h : ∀ c ∈ s, isBase58 c.toNat = true) : (digits58 s).map char58 = s := by
  rw [digits58, List.map_map]
  conv_rhs => rw [← List.map_id s]
  exact List.map_congr_left fun d hd => char58_digit58 d (h d hd)

end Poodle
