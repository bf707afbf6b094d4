import Verif.Model.Ecdsa
import Verif.Lemmas.P256
import Verif.Props.KeyFile
import Mathlib.NumberTheory.LegendreSymbol.Basic

/-
Property C76: recovery of public keys (/repo/src/util/ecdsa_util.go:68-97).
-/

namespace Poodle.Props
open Poodle Poodle.Spec

/-- `(x, y)` is an affine point of the curve y² = x³ - 3x + b over the integers modulo p. -/
def OnCurve (c : Curve) (x y : Nat) : Prop := x < c.p ∧ y < c.p ∧ (y : Int) ^ 2 ≡ (x : Int) ^ 3 - 3 * x + c.b [ZMOD c.p]

/-- `y` is a square modulo `p`. -/
def SquareMod (p y : Nat) : Prop := ∃ z, z * z % p = y % p

/-- For any curve over a prime p = 3 mod 4: the computed Y is the coordinate of the point if that is a square modulo p, and its
negative otherwise. -/
theorem calculateY_eq (c : Curve) (hp : c.p.Prime) (h3 : c.p % 4 = 3) (x y : Nat) (h : OnCurve c x y) :
    (SquareMod c.p y → calculateY c x = some y) ∧ (¬ SquareMod c.p y → calculateY c x = some (c.p - y)) := by
  have : Fact c.p.Prime := ⟨hp⟩
  obtain ⟨hx, hy, hc⟩ := h
  have hpos : 0 < c.p := hp.pos
  have hsq : SquareMod c.p y ↔ IsSquare (y : ZMod c.p) := by
    constructor
    · rintro ⟨z, hz⟩
      refine ⟨z, ?_⟩
      have : ((z * z : Nat) : ZMod c.p) = ((y : Nat) : ZMod c.p) := (ZMod.natCast_eq_natCast_iff _ _ _).mpr hz
      rw [← this, Nat.cast_mul]
    · rintro ⟨z, hz⟩
      refine ⟨z.val, ?_⟩
      have : ((z.val * z.val : Nat) : ZMod c.p) = ((y : Nat) : ZMod c.p) := by
        rw [Nat.cast_mul, ZMod.natCast_val, ZMod.cast_id, hz]
      exact (ZMod.natCast_eq_natCast_iff _ _ _).mp this
  simp only [calculateY]
  have hr : ∃ r : Nat, ((((x : Int) * x * x - (x * 2 + x) + c.b) % c.p).toNat = r) ∧ r < c.p ∧ (r : ZMod c.p) = (y : ZMod c.p) ^ 2 := by
    refine ⟨_, rfl, ?_, ?_⟩
    · have := Int.emod_lt_of_pos ((x : Int) * x * x - (x * 2 + x) + c.b) (by exact_mod_cast hpos : (0 : Int) < c.p)
      have := Int.emod_nonneg ((x : Int) * x * x - (x * 2 + x) + c.b) (by omega : (c.p : Int) ≠ 0)
      omega
    · have hnn := Int.emod_nonneg ((x : Int) * x * x - (x * 2 + x) + c.b) (by omega : (c.p : Int) ≠ 0)
      have h1 : (((((x : Int) * x * x - (x * 2 + x) + c.b) % c.p).toNat : Int) : ZMod c.p) = ((y ^ 2 : Int) : ZMod c.p) := by
        rw [Int.toNat_of_nonneg hnn, ZMod.intCast_eq_intCast_iff]
        refine (Int.mod_modEq _ _).trans ?_
        have he : (x : Int) * x * x - (x * 2 + x) + c.b = (x : Int) ^ 3 - 3 * x + c.b := by ring
        rw [he]
        exact hc.symm
      push_cast at h1
      exact h1
  obtain ⟨r, hr1, hrlt, hr2⟩ := hr
  rw [hr1, modSqrt]
  have hjac : jacobiSym (r : Int) c.p = legendreSym c.p r := (jacobiSym.legendreSym.to_jacobiSym c.p r).symm
  by_cases hy0 : y = 0
  · subst hy0
    have : r = 0 := by
      have : (r : ZMod c.p) = ((0 : Nat) : ZMod c.p) := by rw [hr2]; simp
      rw [ZMod.natCast_eq_natCast_iff, Nat.ModEq, Nat.mod_eq_of_lt hrlt, Nat.zero_mod] at this
      exact this
    subst this
    refine ⟨fun _ => ?_, fun hn => absurd ⟨0, by simp⟩ hn⟩
    have : jacobiSym ((0 : Nat) : Int) c.p = 0 := by
      rw [Nat.cast_zero]
      exact jacobiSym.zero_left hp.one_lt
    rw [this]
    rfl
  · have hyz : (y : ZMod c.p) ≠ 0 := by
      intro h
      have : (y : ZMod c.p) = ((0 : Nat) : ZMod c.p) := by rw [h]; simp
      rw [ZMod.natCast_eq_natCast_iff, Nat.ModEq, Nat.mod_eq_of_lt hy, Nat.zero_mod] at this
      exact hy0 this
    have hj1 : jacobiSym (r : Int) c.p = 1 := by
      rw [hjac]
      rw [legendreSym.eq_one_iff' c.p (by rw [hr2]; exact pow_ne_zero 2 hyz), hr2]
      exact ⟨y, by ring⟩
    rw [hj1, if_neg (by decide), if_neg (by decide)]
    have hpow : ((r ^ ((c.p + 1) / 4) : Nat) : ZMod c.p) = (y : ZMod c.p) * (y : ZMod c.p) ^ (c.p / 2) := by
      rw [Nat.cast_pow, hr2, ← pow_mul, ← pow_succ']
      congr 1
      omega
    have hval : ∀ w : Nat, w < c.p → ((r ^ ((c.p + 1) / 4) : Nat) : ZMod c.p) = (w : ZMod c.p) → some (r ^ ((c.p + 1) / 4) % c.p) = some w := by
      intro w hw h
      rw [ZMod.natCast_eq_natCast_iff, Nat.ModEq, Nat.mod_eq_of_lt hw] at h
      rw [h]
    rw [hsq]
    constructor
    · intro hs
      apply hval y hy
      rw [hpow, (ZMod.euler_criterion c.p hyz).mp hs, mul_one]
    · intro hs
      apply hval _ (by omega)
      rw [hpow]
      rcases ZMod.pow_div_two_eq_neg_one_or_one c.p hyz with h1 | h1
      · exact absurd ((ZMod.euler_criterion c.p hyz).mpr h1) hs
      · rw [h1, Nat.cast_sub hy.le]
        simp

/-- The claim of C76: for every point of P-256 and every file system in which the public key file is the one saved for it, loading
gives the point. -/
def PublicKeyRecovered : Prop := ∀ (fs : FS) (cls : KeyClass) (id : Path) (x y : Nat), OnCurve p256 x y →
  fs (pubKeyPath cls id) = some (pubContent x) → loadPubPoint p256 fs cls id = .ok (x, some y)

/-- C76, exactly: X is recovered; Y is recovered if it is a square modulo p, otherwise the negative of Y is returned (another
public key). -/
theorem C76_recovered_partial (fs : FS) (cls : KeyClass) (id : Path) (x y : Nat) (h : OnCurve p256 x y)
    (hf : fs (pubKeyPath cls id) = some (pubContent x)) :
    (SquareMod p256.p y → loadPubPoint p256 fs cls id = .ok (x, some y)) ∧
    (¬ SquareMod p256.p y → loadPubPoint p256 fs cls id = .ok (x, some (p256.p - y))) := by
  have hx : x < 2 ^ 256 := lt_trans h.1 (by decide +kernel)
  have hl : loadPubPoint p256 fs cls id = .ok (x, calculateY p256 x) := by
    rw [loadPubPoint, loadKeyData, hf]
    simp only
    rw [pubContent, loadKeyBytes_encode, Res.bind_ok, getPublicKey, beVal_bigIntToByteArray, Int.natAbs_natCast, Nat.mod_eq_of_lt]
    rw [show (256 ^ 32 : Nat) = 2 ^ 256 by decide]; exact hx
  obtain ⟨h1, h2⟩ := calculateY_eq p256 p256_prime (by decide +kernel) x y h
  rw [hl]
  exact ⟨fun hs => by rw [h1 hs], fun hs => by rw [h2 hs]⟩

/-- The base point of P-256. -/
def baseX : Nat := 0x6b17d1f2e12c4247f8bce6e563a440f277037d812deb33a0f4a13945d898c296
/-- The base point of P-256. -/
def baseY : Nat := 0x4fe342e2fe1a7f9b8ee7eb4a7c0f9e162bce33576b315ececbb6406837bf51f5

instance (c : Curve) (x y : Nat) : Decidable (OnCurve c x y) := by unfold OnCurve Int.ModEq; infer_instance

/-- C76: the hypotheses of `C76_recovered_partial`. -/
example := C76_recovered_partial (fun _ => some (pubContent baseX)) .node ['a'] baseX baseY (by decide +kernel) rfl

/-- C76 is false: the base point and its negative are stored as the same file. -/
theorem C76_refuted : ¬ PublicKeyRecovered := by
  intro h
  let fs : FS := fun _ => some (pubContent baseX)
  have h1 := h fs .node [] baseX baseY (by decide +kernel) rfl
  have h2 := h fs .node [] baseX (p256.p - baseY) (by decide +kernel) rfl
  rw [h1] at h2
  simp only [Res.ok.injEq, Prod.mk.injEq, Option.some.injEq, true_and] at h2
  exact absurd h2 (by decide +kernel)

example : OnCurve p256 baseX baseY := by decide +kernel

end Poodle.Props
