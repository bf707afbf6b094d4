import Verif.Lemmas.EcdsaSign
import Mathlib.GroupTheory.Index

/-
The group of the curve P-256 is generated by the base point.  It has at most 2p + 1 elements, so the base point generates it or a
subgroup of index 2; in the second case there is a point with Y = 0, whose X is a root of x³ - 3x + b.  There is none, since x^p - x
is invertible modulo this polynomial.
-/

namespace Poodle
open WeierstrassCurve

/-- Product of polynomials modulo x³ - 3x + b, coefficients modulo p. -/
def cubMul (p b : Nat) (s t : Nat × Nat × Nat) : Nat × Nat × Nat :=
  let r3 := s.2.1 * t.2.2 + s.2.2 * t.2.1
  let r4 := s.2.2 * t.2.2
  ((s.1 * t.1 + (p - b) * r3) % p, (s.1 * t.2.1 + s.2.1 * t.1 + 3 * r3 + (p - b) * r4) % p,
    (s.1 * t.2.2 + s.2.1 * t.2.1 + s.2.2 * t.1 + 3 * r4) % p)

/-- Powers modulo x³ - 3x + b. -/
def cubPow (p b : Nat) : Nat → Nat × Nat × Nat → Nat → Nat × Nat × Nat
  | 0, _, _ => (1, 0, 0)
  | fuel + 1, s, e =>
    let h := cubPow p b fuel (cubMul p b s s) (e / 2)
    if e % 2 = 1 then cubMul p b h s else h

/-- The value of a polynomial. -/
def cubEval {p : Nat} (a : ZMod p) (s : Nat × Nat × Nat) : ZMod p := s.1 + s.2.1 * a + s.2.2 * a ^ 2

theorem cubMul_eval {p b : Nat} (hb : b ≤ p) (a : ZMod p) (ha : a ^ 3 - 3 * a + b = 0) (s t : Nat × Nat × Nat) :
    cubEval a (cubMul p b s t) = cubEval a s * cubEval a t := by
  simp only [cubEval, cubMul, ZMod.natCast_mod]
  push_cast [Nat.cast_sub hb, ZMod.natCast_self]
  linear_combination (-(s.2.1 : ZMod p) * t.2.2 - s.2.2 * t.2.1 - s.2.2 * t.2.2 * a) * ha

theorem cubPow_eval {p b : Nat} (hb : b ≤ p) (a : ZMod p) (ha : a ^ 3 - 3 * a + b = 0) (fuel : Nat) (s : Nat × Nat × Nat) (e : Nat)
    (h : e < 2 ^ fuel) : cubEval a (cubPow p b fuel s e) = cubEval a s ^ e := by
  induction fuel generalizing s e with
  | zero => simp [Nat.lt_one_iff.mp (by simpa using h), cubPow, cubEval]
  | succ f ih =>
    have h2 := ih (cubMul p b s s) (e / 2) (by omega)
    rw [cubMul_eval hb a ha, ← pow_two, ← pow_mul] at h2
    rw [cubPow]
    split
    · rename_i ho
      rw [cubMul_eval hb a ha, h2, ← pow_succ]
      congr 1; omega
    · rename_i ho
      rw [h2]
      congr 1; omega

/-- The inverse of x^p - x modulo x³ - 3x + b. -/
def p256Inv : Nat × Nat × Nat :=
  (76626890310466861426869089647039036757962535851890885406097439786770458211455,
    74462945259064871768191128030512052509059297803194871526163573358218695456204,
    34768139465301476436978405170953382516735956999154666452188405812258086013549)

theorem p256_inv : (let h := cubPow p256Params.p p256Params.b 256 (0, 1, 0) p256Params.p
    cubMul p256Params.p p256Params.b p256Inv (h.1, h.2.1 + (p256Params.p - 1), h.2.2)) = (1, 0, 0) := by decide +kernel

/-- There is no point with Y = 0. -/
theorem p256_no_root (a : ZMod p256Params.p) : a ^ 3 - 3 * a + (p256Params.b : Nat) ≠ 0 := by
  intro ha
  have hb : p256Params.b ≤ p256Params.p := by decide +kernel
  have h1 := cubPow_eval hb a ha 256 (0, 1, 0) p256Params.p (by decide +kernel)
  have h2 := congrArg (cubEval a) p256_inv
  simp only at h2
  rw [cubMul_eval hb a ha] at h2
  generalize cubPow p256Params.p p256Params.b 256 (0, 1, 0) p256Params.p = h at h1 h2
  have e1 : cubEval a (0, 1, 0) = a := by simp [cubEval]
  rw [e1, ZMod.pow_card] at h1
  have e2 : cubEval a (h.1, h.2.1 + (p256Params.p - 1), h.2.2) = 0 := by
    have hp : 1 ≤ p256Params.p := by decide +kernel
    simp only [cubEval] at h1 ⊢
    push_cast [Nat.cast_sub hp, ZMod.natCast_self]
    linear_combination h1
  rw [e2, mul_zero] at h2
  simp [cubEval] at h2

instance : Finite p256Params.curve.Point := by
  let f : p256Params.curve.Point → Option (ZMod p256Params.p × ZMod p256Params.p)
    | .zero => none
    | .some x y _ => some (x, y)
  refine Finite.of_injective f ?_
  rintro (- | ⟨x, y, h⟩) (- | ⟨x', y', h'⟩) e <;> simp_all [f]

theorem p256_card : Nat.card p256Params.curve.Point ≤ 2 * p256Params.p + 1 := by
  classical
  have : Fintype p256Params.curve.Point := Fintype.ofFinite _
  let f : p256Params.curve.Point → Option (ZMod p256Params.p)
    | .zero => none
    | .some x _ _ => some x
  let s : Finset p256Params.curve.Point := Finset.univ.erase 0
  have h1 : s.card ≤ 2 * (s.image f).card := by
    apply Finset.card_le_mul_card_image
    intro a ha
    obtain ⟨P, hP, rfl⟩ := Finset.mem_image.mp ha
    have hP0 : P ≠ 0 := (Finset.mem_erase.mp hP).1
    have : s.filter (fun x => f x = f P) ⊆ {P, -P} := by
      intro Q hQ
      obtain ⟨hQ1, hQ2⟩ := Finset.mem_filter.mp hQ
      have hQ0 : Q ≠ 0 := (Finset.mem_erase.mp hQ1).1
      rcases P with - | ⟨x, y, h⟩
      · exact absurd rfl hP0
      · rcases Q with - | ⟨x', y', h'⟩
        · exact absurd rfl hQ0
        · simp only [f, Option.some.injEq] at hQ2
          subst hQ2
          rcases Affine.Y_eq_of_X_eq h'.1 h.1 rfl with e | e
          · subst e; simp
          · rw [Finset.mem_insert, Finset.mem_singleton, Affine.Point.neg_some]
            right
            simp only [e]
    exact (Finset.card_le_card this).trans ((Finset.card_insert_le _ _).trans (by simp))
  have h2 : s.image f ⊆ Finset.univ.image some := by
    intro a ha
    obtain ⟨P, hP, rfl⟩ := Finset.mem_image.mp ha
    rcases P with - | ⟨x, y, h⟩
    · exact absurd rfl (Finset.mem_erase.mp hP).1
    · simp [f]
  have h3 : (s.image f).card ≤ p256Params.p :=
    (Finset.card_le_card h2).trans (Finset.card_image_le.trans (by rw [Finset.card_univ, ZMod.card]))
  have h4 : s.card = Fintype.card p256Params.curve.Point - 1 := by
    rw [Finset.card_erase_of_mem (Finset.mem_univ _), Finset.card_univ]
  rw [Nat.card_eq_fintype_card]
  omega

/-- Every point is a multiple of the base point. -/
theorem p256_cyclic (Q : p256Params.curve.Point) : ∃ d : ZMod p256Params.n, Q = EcParams.mulHom p256_good d := by
  have hnp := p256_order_prime
  have : NeZero p256Params.n := ⟨hnp.ne_zero⟩
  let H : AddSubgroup p256Params.curve.Point := (EcParams.mulHom p256_good).range
  have hH : Nat.card H = p256Params.n := by
    rw [← Nat.card_zmod p256Params.n]
    exact (Nat.card_congr (AddMonoidHom.ofInjective (EcParams.mulHom_inj p256_good)).toEquiv).symm
  have hc := H.card_mul_index
  have hi0 : H.index ≠ 0 := AddSubgroup.index_ne_zero_of_finite
  have h3 : H.index < 3 := by
    by_contra h
    have h1 := p256_card
    have h2 : 2 * p256Params.p + 1 < p256Params.n * 3 := by decide +kernel
    have : p256Params.n * 3 ≤ p256Params.n * H.index := Nat.mul_le_mul_left _ (by omega)
    rw [← hc, hH] at h1
    omega
  have hd : ∀ P : p256Params.curve.Point, P + P ∈ H → P ∈ H := by
    intro P hP
    obtain ⟨d, hd⟩ := hP
    have hf : Fact p256Params.n.Prime := ⟨hnp⟩
    have h2 : (2 : ZMod p256Params.n) ≠ 0 := by
      intro h
      have : ((2 : Nat) : ZMod p256Params.n) = 0 := by exact_mod_cast h
      exact absurd (Nat.le_of_dvd (by omega) ((ZMod.natCast_eq_zero_iff _ _).mp this)) (by have := p256_good.big; omega)
    let R := P - EcParams.mulHom p256_good (d / 2)
    have hR : R + R = 0 := by
      have : EcParams.mulHom p256_good (d / 2) + EcParams.mulHom p256_good (d / 2) = P + P := by
        rw [← map_add, ← hd]; congr 1; field_simp; norm_num
      calc R + R = P + P - (EcParams.mulHom p256_good (d / 2) + EcParams.mulHom p256_good (d / 2)) := by simp only [R]; abel
        _ = 0 := by rw [this, sub_self]
    have hR0 : R = 0 := by
      have hneg : R = -R := eq_neg_of_add_eq_zero_left hR
      generalize R = R at hneg
      rcases R with - | ⟨x, y, h⟩
      · rfl
      · rw [Affine.Point.neg_some] at hneg
        simp only [Affine.Point.some.injEq, true_and] at hneg
        exfalso
        have hp2 : (2 : ZMod p256Params.p) ≠ 0 := by
          intro h
          have : ((2 : Nat) : ZMod p256Params.p) = 0 := by exact_mod_cast h
          exact absurd (Nat.mod_eq_zero_of_dvd ((ZMod.natCast_eq_zero_iff _ _).mp this)) (by decide +kernel)
        simp only [Affine.negY, EcParams.curve] at hneg
        have hy : y = 0 := by
          have : 2 * y = 0 := by linear_combination hneg
          exact (mul_eq_zero.mp this).resolve_left hp2
        have := (Affine.equation_iff _ _).mp h.1
        simp only [EcParams.curve, hy] at this
        exact p256_no_root x (by linear_combination -this)
    exact ⟨d / 2, by rw [← sub_eq_zero.mp hR0]⟩
  have hQ : Q ∈ H := by
    interval_cases hi : H.index
    · exact absurd rfl hi0
    · rw [AddSubgroup.index_eq_one.mp hi]; trivial
    · exact hd Q (AddSubgroup.add_self_mem_of_index_two hi Q)
  obtain ⟨d, hd⟩ := hQ
  exact ⟨d, hd.symm⟩

end Poodle
