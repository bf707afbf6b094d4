import Verif.Model.EcdsaSign
import Verif.Lemmas.P256

/-
The group of the curve P-256: its base point has the prime order n.  Multiples of the base point are computed with numbers, checked by
the kernel.
-/

namespace Poodle
open WeierstrassCurve

/-- The inverse modulo a prime below 2^256. -/
def invMod (p a : Nat) : Nat := powMod 256 a (p - 2) p

namespace EcParams

variable (c : EcParams)

/-- The end of an addition with slope `l`: coordinates of the sum. -/
def third (l x1 y1 x2 : Nat) : Nat × Nat :=
  let x3 := (l * l + 2 * c.p - x1 - x2) % c.p
  (x3, (l * (x1 + c.p - x3) + c.p - y1) % c.p)

/-- Doubling, with all conditions checked. -/
def dblN (P : Nat × Nat) : Option (Nat × Nat) :=
  let (x, y) := P
  let l := (3 * x * x + (c.p - 3)) * invMod c.p (2 * y % c.p) % c.p
  if x < c.p ∧ y < c.p ∧ 2 * y % c.p ≠ 0 ∧ l * (2 * y) % c.p = (3 * x * x + (c.p - 3)) % c.p then some (c.third l x y x) else none

/-- Addition of points with different X, with all conditions checked. -/
def addN (P Q : Nat × Nat) : Option (Nat × Nat) :=
  let (x1, y1) := P
  let (x2, y2) := Q
  let l := (y1 + c.p - y2) * invMod c.p ((x1 + c.p - x2) % c.p) % c.p
  if x1 < c.p ∧ y1 < c.p ∧ x2 < c.p ∧ y2 < c.p ∧ x1 ≠ x2 ∧ l * (x1 + c.p - x2) % c.p = (y1 + c.p - y2) % c.p then
    some (c.third l x1 y1 x2)
  else none

/-- Multiples of the base point. -/
def mulN : Nat → Nat → Option (Nat × Nat)
  | 0, _ => none
  | fuel + 1, k =>
    if k = 1 then some (c.gx, c.gy)
    else match mulN fuel (k / 2) with
      | none => none
      | some h => match c.dblN h with
        | none => none
        | some d => if k % 2 = 1 then c.addN d (c.gx, c.gy) else some d

variable [Fact c.p.Prime]

/-- `P` is the point with the given coordinates. -/
def At (P : c.curve.Point) (a : Nat × Nat) : Prop := (a.1 < c.p ∧ a.2 < c.p) ∧ ∃ h, P = .some (a.1 : ZMod c.p) (a.2 : ZMod c.p) h

variable {c}

theorem cast_eq {a b : Nat} (h : a % c.p = b % c.p) : (a : ZMod c.p) = (b : ZMod c.p) := (ZMod.natCast_eq_natCast_iff _ _ _).mpr h

theorem cast_lt {a : Nat} (h : a < c.p) (h0 : (a : ZMod c.p) = 0) : a = 0 := by
  have := (ZMod.natCast_eq_zero_iff a c.p).mp h0
  exact Nat.eq_zero_of_dvd_of_lt this h

theorem third_at {P Q : c.curve.Point} {x1 y1 x2 y2 l : Nat} (hx1 : x1 < c.p) (hy1 : y1 < c.p) (hx2 : x2 < c.p)
    (h1 : c.curve.Nonsingular x1 y1) (h2 : c.curve.Nonsingular x2 y2) (hP : P = .some (x1 : ZMod c.p) (y1 : ZMod c.p) h1)
    (hQ : Q = .some (x2 : ZMod c.p) (y2 : ZMod c.p) h2) (hxy : ¬((x1 : ZMod c.p) = x2 ∧ (y1 : ZMod c.p) = c.curve.negY x2 y2))
    (hl : c.curve.slope x1 x2 y1 y2 = (l : ZMod c.p)) : c.At (P + Q) (c.third l x1 y1 x2) := by
  have hp : 0 < c.p := (Fact.out : c.p.Prime).pos
  have e1 : ((c.third l x1 y1 x2).1 : ZMod c.p) = c.curve.addX x1 x2 (l : ZMod c.p) := by
    simp only [third, Affine.addX, curve]
    rw [ZMod.natCast_mod, Nat.cast_sub (by omega), Nat.cast_sub (by omega)]
    push_cast
    rw [ZMod.natCast_self]
    ring
  have hlt : (c.third l x1 y1 x2).1 < c.p := Nat.mod_lt _ hp
  have e2 : ((c.third l x1 y1 x2).2 : ZMod c.p) = c.curve.addY x1 x2 y1 (l : ZMod c.p) := by
    have : ((c.third l x1 y1 x2).2 : ZMod c.p) = l * (x1 - (c.third l x1 y1 x2).1) - y1 := by
      simp only [third] at hlt ⊢
      rw [ZMod.natCast_mod, Nat.cast_sub (by omega), Nat.cast_add, Nat.cast_mul, Nat.cast_sub (by omega)]
      push_cast
      rw [ZMod.natCast_self]
      ring
    rw [this, e1]
    simp only [Affine.addY, Affine.negAddY, Affine.negY, curve]
    ring
  refine ⟨⟨hlt, Nat.mod_lt _ hp⟩, ?_⟩
  rw [hP, hQ, Affine.Point.add_some hxy]
  simp only [hl]
  refine ⟨?_, ?_⟩
  · rw [e1, e2, ← hl]; exact Affine.nonsingular_add h1 h2 hxy
  · simp only [e1, e2]

theorem dbl_at (P : c.curve.Point) (a b : Nat × Nat) (ha : c.At P a) (h : c.dblN a = some b) (h3 : 3 ≤ c.p) : c.At (P + P) b := by
  obtain ⟨x, y⟩ := a
  obtain ⟨⟨hx, hy⟩, hn, hP⟩ := ha
  simp only at hx hy hn hP
  simp only [dblN] at h
  split at h
  · rename_i hc
    obtain ⟨-, -, h0, hl⟩ := hc
    generalize (3 * x * x + (c.p - 3)) * invMod c.p (2 * y % c.p) % c.p = l at h hl
    simp only [Option.some.injEq] at h
    subst h
    have hy0 : (2 * y : ZMod c.p) ≠ 0 := by
      intro e
      apply h0
      have : ((2 * y : Nat) : ZMod c.p) = 0 := by push_cast; exact e
      exact Nat.mod_eq_zero_of_dvd ((ZMod.natCast_eq_zero_iff _ _).mp this)
    have hneg : (y : ZMod c.p) ≠ c.curve.negY x y := by
      intro e
      apply hy0
      simp only [Affine.negY, curve] at e
      linear_combination e
    refine third_at hx hy hx hn hn hP hP (fun e => hneg e.2) ?_
    rw [Affine.slope_of_Y_ne rfl hneg]
    have hl' := cast_eq hl
    push_cast [Nat.cast_sub h3] at hl'
    rw [ZMod.natCast_self] at hl'
    have hd : (y : ZMod c.p) - c.curve.negY x y = 2 * y := by simp only [Affine.negY, curve]; ring
    rw [hd, div_eq_iff hy0]
    simp only [curve]
    linear_combination -hl'
  · simp at h

theorem add_at (P Q : c.curve.Point) (a a' b : Nat × Nat) (ha : c.At P a) (ha' : c.At Q a') (h : c.addN a a' = some b) :
    c.At (P + Q) b := by
  obtain ⟨x1, y1⟩ := a
  obtain ⟨x2, y2⟩ := a'
  obtain ⟨⟨hx, hy⟩, hn, hP⟩ := ha
  obtain ⟨⟨hx', hy'⟩, hn', hQ⟩ := ha'
  simp only at hx hy hn hP hx' hy' hn' hQ
  simp only [addN] at h
  split at h
  · rename_i hc
    obtain ⟨-, -, -, -, h0, hl⟩ := hc
    generalize (y1 + c.p - y2) * invMod c.p ((x1 + c.p - x2) % c.p) % c.p = l at h hl
    simp only [Option.some.injEq] at h
    subst h
    have hx0 : (x1 : ZMod c.p) ≠ x2 := by
      intro e
      have := (ZMod.natCast_eq_natCast_iff _ _ _).mp e
      rw [Nat.ModEq, Nat.mod_eq_of_lt hx, Nat.mod_eq_of_lt hx'] at this
      exact h0 this
    refine third_at hx hy hx' hn hn' hP hQ (fun e => hx0 e.1) ?_
    rw [Affine.slope_of_X_ne hx0, div_eq_iff (sub_ne_zero.mpr hx0)]
    have hl' := cast_eq hl
    rw [Nat.cast_mul, Nat.cast_sub (by omega), Nat.cast_sub (by omega), Nat.cast_add, Nat.cast_add, ZMod.natCast_self] at hl'
    linear_combination -hl'
  · simp at h

theorem mul_at (hG : c.At c.base (c.gx, c.gy)) (h3 : 3 ≤ c.p) (fuel k : Nat) (a : Nat × Nat) (h : c.mulN fuel k = some a) :
    c.At (k • c.base) a := by
  induction fuel generalizing k a with
  | zero => simp [mulN] at h
  | succ fuel ih =>
    simp only [mulN] at h
    split at h
    · rename_i hk
      simp only [Option.some.injEq] at h
      subst h hk
      rw [one_nsmul]
      exact hG
    · rcases h1 : c.mulN fuel (k / 2) with - | b
      · simp [h1] at h
      · simp only [h1] at h
        rcases h2 : c.dblN b with - | d
        · simp [h2] at h
        · simp only [h2] at h
          have hd := dbl_at _ b d (ih _ _ h1) h2 h3
          rw [← two_nsmul, ← mul_nsmul'] at hd
          split at h
          · rename_i ho
            have := add_at _ _ d _ a hd hG h
            rw [← succ_nsmul, show 2 * (k / 2) + 1 = k by omega] at this
            exact this
          · rename_i he
            simp only [Option.some.injEq] at h
            subst h
            rw [show 2 * (k / 2) = k by omega] at hd
            exact hd

/-- The facts about the curve that the proofs use. -/
structure Good (c : EcParams) [Fact c.p.Prime] : Prop where
  odd : 3 < c.p
  prime : c.n.Prime
  big : 3 < c.n
  lt : c.n < c.p
  gt : c.p < 2 * c.n
  base : c.At c.base (c.gx, c.gy)
  order : c.n • c.base = 0

end EcParams

instance : Fact p256Params.p.Prime := ⟨p256_prime⟩
instance : Fact p256.p.Prime := ⟨p256_prime⟩

theorem prime_3407 : Nat.Prime 3407 := by
  refine prime_of_lucas _ 5 1 [2, 13, 131] ?_ (by decide +kernel)
  simp only [List.forall_mem_cons, List.not_mem_nil, false_implies, implies_true, and_true]
  exact ⟨by norm_num, by norm_num, by norm_num⟩

theorem prime_9547 : Nat.Prime 9547 := by
  refine prime_of_lucas _ 2 1 [2, 3, 37, 43] ?_ (by decide +kernel)
  simp only [List.forall_mem_cons, List.not_mem_nil, false_implies, implies_true, and_true]
  exact ⟨by norm_num, by norm_num, by norm_num, by norm_num⟩

theorem prime_38189 : Nat.Prime 38189 := by
  refine prime_of_lucas _ 2 2 [2, 9547] ?_ (by decide +kernel)
  simp only [List.forall_mem_cons, List.not_mem_nil, false_implies, implies_true, and_true]
  exact ⟨by norm_num, prime_9547⟩

theorem prime_9350987 : Nat.Prime 9350987 := by
  refine prime_of_lucas _ 2 1 [2, 17, 229, 1201] ?_ (by decide +kernel)
  simp only [List.forall_mem_cons, List.not_mem_nil, false_implies, implies_true, and_true]
  exact ⟨by norm_num, by norm_num, by norm_num, by norm_num⟩

theorem prime_187019741 : Nat.Prime 187019741 := by
  refine prime_of_lucas _ 2 2 [2, 5, 9350987] ?_ (by decide +kernel)
  simp only [List.forall_mem_cons, List.not_mem_nil, false_implies, implies_true, and_true]
  exact ⟨by norm_num, by norm_num, prime_9350987⟩

theorem prime_311245691 : Nat.Prime 311245691 := by
  refine prime_of_lucas _ 2 2 [2, 5, 7, 17, 29, 311] ?_ (by decide +kernel)
  simp only [List.forall_mem_cons, List.not_mem_nil, false_implies, implies_true, and_true]
  exact ⟨by norm_num, by norm_num, by norm_num, by norm_num, by norm_num, by norm_num⟩

theorem prime_622491383 : Nat.Prime 622491383 := by
  refine prime_of_lucas _ 5 1 [2, 311245691] ?_ (by decide +kernel)
  simp only [List.forall_mem_cons, List.not_mem_nil, false_implies, implies_true, and_true]
  exact ⟨by norm_num, prime_311245691⟩

theorem prime_126241 : Nat.Prime 126241 := by
  refine prime_of_lucas _ 7 5 [2, 3, 5, 263] ?_ (by decide +kernel)
  simp only [List.forall_mem_cons, List.not_mem_nil, false_implies, implies_true, and_true]
  exact ⟨by norm_num, by norm_num, by norm_num, by norm_num⟩

theorem prime_104471 : Nat.Prime 104471 := by
  refine prime_of_lucas _ 11 1 [2, 5, 31, 337] ?_ (by decide +kernel)
  simp only [List.forall_mem_cons, List.not_mem_nil, false_implies, implies_true, and_true]
  exact ⟨by norm_num, by norm_num, by norm_num, by norm_num⟩

theorem prime_3969899 : Nat.Prime 3969899 := by
  refine prime_of_lucas _ 2 1 [2, 19, 104471] ?_ (by decide +kernel)
  simp only [List.forall_mem_cons, List.not_mem_nil, false_implies, implies_true, and_true]
  exact ⟨by norm_num, by norm_num, prime_104471⟩

theorem prime_1002328039319 : Nat.Prime 1002328039319 := by
  refine prime_of_lucas _ 19 1 [2, 126241, 3969899] ?_ (by decide +kernel)
  simp only [List.forall_mem_cons, List.not_mem_nil, false_implies, implies_true, and_true]
  exact ⟨by norm_num, prime_126241, prime_3969899⟩

theorem prime_16879 : Nat.Prime 16879 := by
  refine prime_of_lucas _ 3 1 [2, 3, 29, 97] ?_ (by decide +kernel)
  simp only [List.forall_mem_cons, List.not_mem_nil, false_implies, implies_true, and_true]
  exact ⟨by norm_num, by norm_num, by norm_num, by norm_num⟩

theorem prime_3023 : Nat.Prime 3023 := by
  refine prime_of_lucas _ 5 1 [2, 1511] ?_ (by decide +kernel)
  simp only [List.forall_mem_cons, List.not_mem_nil, false_implies, implies_true, and_true]
  exact ⟨by norm_num, by norm_num⟩

theorem prime_155317 : Nat.Prime 155317 := by
  refine prime_of_lucas _ 5 2 [2, 3, 7, 43] ?_ (by decide +kernel)
  simp only [List.forall_mem_cons, List.not_mem_nil, false_implies, implies_true, and_true]
  exact ⟨by norm_num, by norm_num, by norm_num, by norm_num⟩

theorem prime_191039911 : Nat.Prime 191039911 := by
  refine prime_of_lucas _ 3 1 [2, 3, 5, 41, 155317] ?_ (by decide +kernel)
  simp only [List.forall_mem_cons, List.not_mem_nil, false_implies, implies_true, and_true]
  exact ⟨by norm_num, by norm_num, by norm_num, by norm_num, prime_155317⟩

theorem prime_208150935158385979 : Nat.Prime 208150935158385979 := by
  refine prime_of_lucas _ 2 1 [2, 3, 11, 43, 127, 3023, 191039911] ?_ (by decide +kernel)
  simp only [List.forall_mem_cons, List.not_mem_nil, false_implies, implies_true, and_true]
  exact ⟨by norm_num, by norm_num, by norm_num, by norm_num, by norm_num, prime_3023, prime_191039911⟩

theorem prime_2624747550333869278416773953 : Nat.Prime 2624747550333869278416773953 := by
  refine prime_of_lucas _ 7 6 [2, 3, 1297, 16879, 208150935158385979] ?_ (by decide +kernel)
  simp only [List.forall_mem_cons, List.not_mem_nil, false_implies, implies_true, and_true]
  exact ⟨by norm_num, by norm_num, by norm_num, prime_16879, prime_208150935158385979⟩

theorem p256_order_prime : Nat.Prime p256Params.n := by
  refine prime_of_lucas _ 7 4 [2, 3, 71, 131, 373, 3407, 17449, 38189, 187019741, 622491383, 1002328039319, 2624747550333869278416773953] ?_ (by decide +kernel)
  simp only [List.forall_mem_cons, List.not_mem_nil, false_implies, implies_true, and_true]
  exact ⟨by norm_num, by norm_num, by norm_num, by norm_num, by norm_num, prime_3407, prime_17449, prime_38189, prime_187019741, prime_622491383, prime_1002328039319, prime_2624747550333869278416773953⟩

theorem p256_base : p256Params.At p256Params.base (p256Params.gx, p256Params.gy) := by
  have hlt : p256Params.gx < p256Params.p ∧ p256Params.gy < p256Params.p := by decide +kernel
  have hn : p256Params.curve.Nonsingular (p256Params.gx : ZMod p256Params.p) (p256Params.gy : ZMod p256Params.p) := by
    rw [Affine.nonsingular_iff']
    constructor
    · rw [Affine.equation_iff]
      simp only [EcParams.curve]
      have : ((p256Params.gy ^ 2 + 3 * p256Params.gx : Nat) : ZMod p256Params.p) = ((p256Params.gx ^ 3 + p256Params.b : Nat) : ZMod p256Params.p) :=
        EcParams.cast_eq (by decide +kernel)
      push_cast at this
      linear_combination this
    · right
      simp only [EcParams.curve, zero_mul, add_zero]
      intro e
      have : ((2 * p256Params.gy : Nat) : ZMod p256Params.p) = 0 := by push_cast; exact e
      have := (ZMod.natCast_eq_zero_iff _ _).mp this
      exact absurd (Nat.mod_eq_zero_of_dvd this) (by decide +kernel)
  refine ⟨hlt, hn, ?_⟩
  rw [EcParams.base, EcParams.point, dif_pos ⟨hlt, hn⟩]
  rfl

theorem p256_minus : p256Params.mulN 257 (p256Params.n - 1) = some (p256Params.gx, p256Params.p - p256Params.gy) := by decide +kernel

theorem p256_order : p256Params.n • p256Params.base = 0 := by
  obtain ⟨-, h, e⟩ := EcParams.mul_at p256_base (by decide +kernel) _ _ _ p256_minus
  obtain ⟨-, h', e'⟩ := p256_base
  have hn : p256Params.n = (p256Params.n - 1) + 1 := by decide +kernel
  rw [hn, succ_nsmul, e]
  rw [e']
  apply Affine.Point.add_of_Y_eq rfl
  simp only [Affine.negY, EcParams.curve]
  rw [Nat.cast_sub (by decide +kernel), ZMod.natCast_self]
  ring

theorem p256_good : p256Params.Good where
  odd := by decide +kernel
  prime := p256_order_prime
  big := by decide +kernel
  lt := by decide +kernel
  gt := by decide +kernel
  base := p256_base
  order := p256_order

end Poodle
