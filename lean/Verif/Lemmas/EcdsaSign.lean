import Verif.Lemmas.EcGroup
import Mathlib.Data.Set.Card
import Mathlib.GroupTheory.OrderOfElement

/-
Lemmas about signing and verification: the multiples of the base point as images of the integers modulo n.
-/

namespace Poodle
open WeierstrassCurve

namespace EcParams

variable {c : EcParams} [Fact c.p.Prime]

/-- Multiples of the base point. -/
noncomputable def mulHom (hg : c.Good) : ZMod c.n →+ c.curve.Point :=
  ZMod.lift c.n ⟨zmultiplesHom _ c.base, by simp [hg.order]⟩

theorem mulHom_nat (hg : c.Good) (k : Nat) : mulHom hg (k : ZMod c.n) = k • c.base := by
  have := ZMod.lift_coe c.n ⟨zmultiplesHom _ c.base, by simp [hg.order]⟩ (k : Int)
  rw [mulHom, ← Int.cast_natCast (R := ZMod c.n), this]
  simp

theorem val_base (hg : c.Good) (z : ZMod c.n) : z.val • c.base = mulHom hg z := by
  have : NeZero c.n := ⟨hg.prime.ne_zero⟩
  rw [← mulHom_nat hg, ZMod.natCast_val, ZMod.cast_id]

theorem val_mul (hg : c.Good) (z w : ZMod c.n) : z.val • mulHom hg w = mulHom hg (z * w) := by
  have : NeZero c.n := ⟨hg.prime.ne_zero⟩
  rw [← map_nsmul, nsmul_eq_mul, ZMod.natCast_val, ZMod.cast_id]

theorem base_ne (hg : c.Good) : c.base ≠ 0 := by
  obtain ⟨-, h, e⟩ := hg.base
  rw [e]
  exact Affine.Point.some_ne_zero _

theorem mulHom_inj (hg : c.Good) : Function.Injective (mulHom hg) := by
  have : Fact c.n.Prime := ⟨hg.prime⟩
  rw [injective_iff_map_eq_zero]
  intro z hz
  by_contra h0
  have h1 : mulHom hg (z⁻¹ * z) = 0 := by rw [← val_mul, hz, nsmul_zero]
  rw [inv_mul_cancel₀ h0, ← Nat.cast_one, mulHom_nat, one_nsmul] at h1
  exact base_ne hg h1

theorem coords_point (P : c.curve.Point) (h : P ≠ 0) : c.point (c.coords P).1 (c.coords P).2 = some P := by
  rcases P with - | ⟨x, y, hn⟩
  · exact absurd rfl h
  · have e1 : ((x.val : Nat) : ZMod c.p) = x := by rw [ZMod.natCast_val, ZMod.cast_id]
    have e2 : ((y.val : Nat) : ZMod c.p) = y := by rw [ZMod.natCast_val, ZMod.cast_id]
    change c.point x.val y.val = _
    rw [point, dif_pos ⟨⟨ZMod.val_lt _, ZMod.val_lt _⟩, by rw [e1, e2]; exact hn⟩]
    simp only [e1, e2]

/-- The point `P` is accepted for `r`. -/
def Fits (c : EcParams) (r : Nat) (P : c.curve.Point) : Prop := P ≠ 0 ∧ (c.coords P).1 % c.n = r

theorem verify_iff (hg : c.Good) {x y : Nat} {q : c.curve.Point} (hq : c.point x y = some q) (hash : Bytes) (r s : Nat) :
    c.verify x (some y) hash r s = .ok true ↔ (0 < r ∧ r < c.n) ∧ (0 < s ∧ s < c.n) ∧
      c.Fits r (mulHom hg (hashToInt hash * (s : ZMod c.n)⁻¹) + ((r : ZMod c.n) * (s : ZMod c.n)⁻¹).val • q) := by
  simp only [verify, hq, val_base hg, Int.cast_natCast]
  by_cases h : (r : Int) ≤ 0 ∨ (s : Int) ≤ 0 ∨ (c.n : Int) ≤ r ∨ (c.n : Int) ≤ s
  · rw [if_pos h]
    simp only [Res.ok.injEq, Bool.false_eq_true, false_iff, not_and]
    omega
  · rw [if_neg h]
    generalize mulHom hg (hashToInt hash * (s : ZMod c.n)⁻¹) + ((r : ZMod c.n) * (s : ZMod c.n)⁻¹).val • q = P
    have hr : (0 < r ∧ r < c.n) ∧ (0 < s ∧ s < c.n) := by omega
    rcases P with - | ⟨x', y', hn⟩
    · simp only [Res.ok.injEq, Bool.false_eq_true, false_iff, Fits]
      rintro ⟨-, -, h, -⟩
      exact h rfl
    · simp only [Res.ok.injEq, decide_eq_true_eq, Fits, coords]
      constructor
      · intro h
        exact ⟨hr.1, hr.2, Affine.Point.some_ne_zero _, by exact_mod_cast h⟩
      · rintro ⟨-, -, -, h⟩
        exact_mod_cast h

theorem verify_bool (hg : c.Good) {x y : Nat} {q : c.curve.Point} (hq : c.point x y = some q) (hash : Bytes) (r s : Int) :
    c.verify x (some y) hash r s = .ok true ∨ c.verify x (some y) hash r s = .ok false := by
  simp only [verify, hq]
  split
  · exact .inr rfl
  · split
    · exact .inr rfl
    · rename_i x' _ _ _
      rcases Bool.eq_false_or_eq_true (decide (((x'.val % c.n : Nat) : Int) = r)) with h | h <;> rw [h] <;> simp

theorem sign1_iff (d e k r s : Nat) : c.sign1 d e k = some (r, s) ↔ r = (c.coords (k • c.base)).1 % c.n ∧ r ≠ 0 ∧
    ((k : ZMod c.n)⁻¹ * (e + r * d)) ≠ 0 ∧ s = ((k : ZMod c.n)⁻¹ * (e + r * d)).val := by
  simp only [sign1]
  split
  · rename_i h
    simp only [reduceCtorEq, false_iff]
    rintro ⟨h1, h2, -⟩
    exact h2 (by rw [h1, h])
  · rename_i h
    split
    · rename_i h'
      simp only [reduceCtorEq, false_iff]
      rintro ⟨h1, h2, h3, -⟩
      rw [h1] at h3
      exact h3 h'
    · rename_i h'
      simp only [Option.some.injEq, Prod.mk.injEq]
      constructor
      · rintro ⟨rfl, rfl⟩
        exact ⟨rfl, h, h', rfl⟩
      · rintro ⟨h1, h2, h3, h4⟩
        refine ⟨h1.symm, ?_⟩
        rw [h4, h1]

/-- At most four points are accepted for a given `r`. -/
theorem fits_finite (hg : c.Good) (r : Nat) : ∃ S : Set c.curve.Point, {P | c.Fits r P} ⊆ S ∧ S.Finite ∧ S.ncard ≤ 4 := by
  have hx : ∀ x : ZMod c.p, ∃ S : Set c.curve.Point, {P | ∃ y h, P = .some x y h} ⊆ S ∧ S.Finite ∧ S.ncard ≤ 2 := by
    intro x
    by_cases he : ∃ y h, ∃ P : c.curve.Point, P = .some x y h
    · obtain ⟨y, h, P, hP⟩ := he
      refine ⟨{P, -P}, ?_, by simp, (Set.ncard_insert_le _ _).trans (by simp)⟩
      rintro Q ⟨y', h', hQ⟩
      rcases Affine.Y_eq_of_X_eq h'.1 h.1 rfl with e | e
      · left; subst e; rw [hQ, hP]
      · right
        rw [Set.mem_singleton_iff, hQ, hP, Affine.Point.neg_some]
        simp only [e]
    · refine ⟨∅, ?_, by simp, by simp⟩
      rintro Q ⟨y', h', hQ⟩
      exact absurd ⟨y', h', Q, hQ⟩ he
  obtain ⟨S, s1, s2, s3⟩ := hx (r : ZMod c.p)
  obtain ⟨T, t1, t2, t3⟩ := hx ((r + c.n : Nat) : ZMod c.p)
  refine ⟨S ∪ T, ?_, s2.union t2, (Set.ncard_union_le S T).trans (by omega)⟩
  rintro P ⟨h1, h2⟩
  rcases P with - | ⟨x, y, hn⟩
  · exact absurd rfl h1
  · simp only [coords] at h2
    have hv := ZMod.val_lt x
    have e1 : ((x.val : Nat) : ZMod c.p) = x := by rw [ZMod.natCast_val, ZMod.cast_id]
    have hgt := hg.gt
    have hn0 := hg.big
    have : x.val = r ∨ x.val = r + c.n := by
      by_cases hlt : x.val < c.n
      · rw [Nat.mod_eq_of_lt hlt] at h2; exact .inl h2
      · rw [Nat.mod_eq_sub_mod (by omega), Nat.mod_eq_of_lt (by omega)] at h2
        right; omega
    rcases this with h | h
    · left
      apply s1
      refine ⟨y, ?_, ?_⟩
      · rw [← h, e1]; exact hn
      · simp only [← h, e1]
    · right
      apply t1
      refine ⟨y, ?_, ?_⟩
      · rw [← h, e1]; exact hn
      · simp only [← h, e1]

theorem fits_card (hg : c.Good) (r : Nat) {α : Type} (A : Set α) (f : α → c.curve.Point) (hf : Set.InjOn f A)
    (hA : ∀ a ∈ A, c.Fits r (f a)) : A.ncard ≤ 4 := by
  obtain ⟨S, h1, h2, h3⟩ := fits_finite hg r
  exact (Set.ncard_le_ncard_of_injOn f (fun a ha => h1 (hA a ha)) hf h2).trans h3

/-- One of the accepted points left out. -/
theorem fits_card_three (hg : c.Good) (r : Nat) {α : Type} (A : Set α) (f : α → c.curve.Point) (hf : Set.InjOn f A)
    (hA : ∀ a ∈ A, c.Fits r (f a)) (P : c.curve.Point) (hP : c.Fits r P) (hPA : ∀ a ∈ A, f a ≠ P) : A.ncard ≤ 3 := by
  obtain ⟨S, h1, h2, h3⟩ := fits_finite hg r
  have := Set.ncard_sdiff_singleton_of_mem (h1 hP)
  have h4 : (S \ {P}).ncard ≤ 3 := by omega
  have hm : ∀ a ∈ A, f a ∈ S \ {P} := fun a ha => ⟨h1 (hA a ha), hPA a ha⟩
  exact (Set.ncard_le_ncard_of_injOn f hm hf (h2.subset Set.sdiff_subset)).trans h4

omit [Fact c.p.Prime] in
theorem fits_neg (r : Nat) (P : c.curve.Point) : c.Fits r (-P) ↔ c.Fits r P := by
  rcases P with - | ⟨x, y, hn⟩
  · exact Iff.rfl
  · rw [Affine.Point.neg_some]
    simp [Fits, coords, Affine.Point.some_ne_zero]

end EcParams

end Poodle
