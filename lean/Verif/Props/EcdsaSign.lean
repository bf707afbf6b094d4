import Verif.Lemmas.EcCyclic
import Verif.Props.Ecdsa

/-
Properties C132 to C138: signatures (/repo/src/util/ecdsa_util.go:40-66).
-/

namespace Poodle.Props
open Poodle Poodle.Spec EcParams

/-- The public key of a generated key pair: X and Y. -/
noncomputable def pubOf (d : Nat) : Nat × Nat := (p256Params.generateKey d).2

theorem inv_pos {d : Nat} (h0 : 0 < d) (h1 : d < p256Params.n) : (d : ZMod p256Params.n) ≠ 0 := by
  intro h
  exact absurd (Nat.le_of_dvd h0 ((ZMod.natCast_eq_zero_iff _ _).mp h)) (by omega)

theorem pubOf_point {d : Nat} (h0 : 0 < d) (h1 : d < p256Params.n) :
    p256Params.point (pubOf d).1 (pubOf d).2 = some (mulHom p256_good d) := by
  rw [pubOf, generateKey, coords_point, mulHom_nat]
  rw [← mulHom_nat p256_good]
  intro h
  exact inv_pos h0 h1 (mulHom_inj p256_good (h.trans (map_zero _).symm))

instance : Fact p256Params.n.Prime := ⟨p256_order_prime⟩

/-- What a signature says: the numbers are in range, and the point of verification is the one of signing. -/
theorem sign1_point {d e k r s : Nat} (h : p256Params.sign1 d e k = some (r, s)) :
    (0 < r ∧ r < p256Params.n) ∧ (0 < s ∧ s < p256Params.n) ∧ (k : ZMod p256Params.n) ≠ 0 ∧
      (s : ZMod p256Params.n) = (k : ZMod p256Params.n)⁻¹ * (e + r * d) ∧ (e : ZMod p256Params.n) + r * d ≠ 0 ∧
      p256Params.Fits r (mulHom p256_good k) := by
  obtain ⟨h1, h2, h3, h4⟩ := (sign1_iff d e k r s).mp h
  have hn := p256_good.prime.pos
  have hs : (s : ZMod p256Params.n) = (k : ZMod p256Params.n)⁻¹ * (e + r * d) := by rw [h4, ZMod.natCast_val, ZMod.cast_id]
  have hk : (k : ZMod p256Params.n) ≠ 0 := by
    intro h; rw [h, inv_zero, zero_mul] at h3; exact h3 rfl
  refine ⟨⟨by omega, by rw [h1]; exact Nat.mod_lt _ hn⟩, ⟨?_, by rw [h4]; exact ZMod.val_lt _⟩, hk, hs, right_ne_zero_of_mul h3, ?_, ?_⟩
  · rw [h4]
    exact Nat.pos_of_ne_zero (fun h => h3 ((ZMod.val_eq_zero _).mp h))
  · intro h
    exact hk (mulHom_inj p256_good (h.trans (map_zero _).symm))
  · rw [mulHom_nat, h1]

/-- C132: a signature made with a private key is accepted with the public key of the same pair, also if the private key was stored and
read back. -/
theorem C132_signatures_verify (d : Nat) (h0 : 0 < d) (h1 : d < p256Params.n) (hash : Bytes) (ks : List Nat) (r s : Nat)
    (h : p256Params.sign (p256Params.getPrivateKey (bigIntToByteArray d)).1 hash ks = some (r, s)) :
    p256Params.getPrivateKey (bigIntToByteArray d) = p256Params.generateKey d ∧
      p256Params.verify (pubOf d).1 (some (pubOf d).2) hash r s = .ok true := by
  have hd : beVal (bigIntToByteArray d) = d := by
    rw [beVal_bigIntToByteArray, Int.natAbs_natCast, Nat.mod_eq_of_lt]
    exact lt_trans h1 (by decide +kernel)
  rw [getPrivateKey, hd] at h ⊢
  refine ⟨rfl, ?_⟩
  simp only [sign] at h
  obtain ⟨k, -, hk⟩ := List.exists_of_findSome?_eq_some h
  obtain ⟨hr, hs, hk0, e, hne, hf⟩ := sign1_point hk
  rw [verify_iff p256_good (pubOf_point h0 h1), val_mul, ← map_add]
  refine ⟨hr, hs, ?_⟩
  have : (hashToInt hash : ZMod p256Params.n) * (s : ZMod p256Params.n)⁻¹ + (r : ZMod p256Params.n) * (s : ZMod p256Params.n)⁻¹ * d = k := by
    rw [e, mul_inv, inv_inv]
    field_simp
  rw [this]
  exact hf

/-- The claim of C133: after a key pair was saved, signatures of the private key are accepted with the loaded public key. -/
def SavedKeyVerifies : Prop := ∀ (d : Nat), 0 < d → d < p256Params.n → ∀ (fs : FS) (cls : KeyClass) (id : Path),
  fs (pubKeyPath cls id) = some (pubContent (pubOf d).1) → ∀ (hash : Bytes) (ks : List Nat) (r s : Nat),
  p256Params.sign d hash ks = some (r, s) → ∃ x y, loadPubPoint p256 fs cls id = .ok (x, y) ∧ p256Params.verify x y hash r s = .ok true

theorem onCurve_of_point {x y : Nat} {q} (h : p256Params.point x y = some q) : OnCurve p256 x y := by
  rw [point] at h
  split at h
  · rename_i hc
    refine ⟨hc.1.1, hc.1.2, ?_⟩
    have := ((WeierstrassCurve.Affine.equation_iff _ _).mp hc.2.1)
    simp only [EcParams.curve] at this
    apply (ZMod.intCast_eq_intCast_iff _ _ _).mp
    push_cast
    have h2 : (y : ZMod p256Params.p) ^ 2 = (x : ZMod p256Params.p) ^ 3 - 3 * x + (p256Params.b : Nat) := by
      linear_combination this
    exact h2
  · simp at h

/-- The negative of a point has the negative Y. -/
theorem point_neg {x y : Nat} {q} (h : p256Params.point x y = some q) (hy : 0 < y) : p256Params.point x (p256Params.p - y) = some (-q) := by
  rw [point] at h
  split at h
  · rename_i hc
    have hcast : ((p256Params.p - y : Nat) : ZMod p256Params.p) = p256Params.curve.negY (x : ZMod p256Params.p) (y : ZMod p256Params.p) := by
      rw [Nat.cast_sub hc.1.2.le, ZMod.natCast_self]
      simp only [WeierstrassCurve.Affine.negY, EcParams.curve]
      ring
    simp only [Option.some.injEq] at h
    subst h
    rw [point, dif_pos ⟨⟨hc.1.1, by omega⟩, by rw [hcast]; exact (WeierstrassCurve.Affine.nonsingular_neg _ _).mpr hc.2⟩,
      WeierstrassCurve.Affine.Point.neg_some]
    simp only [hcast]
  · simp at h

theorem pubOf_loaded {d : Nat} (h0 : 0 < d) (h1 : d < p256Params.n) (fs : FS) (cls : KeyClass) (id : Path)
    (hf : fs (pubKeyPath cls id) = some (pubContent (pubOf d).1)) :
    (SquareMod p256.p (pubOf d).2 → loadPubPoint p256 fs cls id = .ok ((pubOf d).1, some (pubOf d).2)) ∧
    (¬ SquareMod p256.p (pubOf d).2 → ∃ y, loadPubPoint p256 fs cls id = .ok ((pubOf d).1, some y) ∧
      p256Params.point (pubOf d).1 y = some (- mulHom p256_good d)) := by
  have hp := pubOf_point h0 h1
  obtain ⟨l1, l2⟩ := C76_recovered_partial fs cls id _ _ (onCurve_of_point hp) hf
  refine ⟨l1, fun hs => ⟨_, l2 hs, point_neg hp ?_⟩⟩
  rcases Nat.eq_zero_or_pos (pubOf d).2 with h | h
  · exact absurd ⟨0, by rw [h]⟩ hs
  · exact h

/-- C133, exactly for which keys: if Y is a square modulo p, the loaded public key accepts all signatures.  If not, then for each
random number used in signing, signatures of all hashes are refused, up to at most three hashes modulo n. -/
theorem C133_saved_key_partial (d : Nat) (h0 : 0 < d) (h1 : d < p256Params.n) (fs : FS) (cls : KeyClass) (id : Path)
    (hf : fs (pubKeyPath cls id) = some (pubContent (pubOf d).1)) : ∃ x y, loadPubPoint p256 fs cls id = .ok (x, some y) ∧
    (SquareMod p256.p (pubOf d).2 → ∀ hash ks r s, p256Params.sign d hash ks = some (r, s) →
      p256Params.verify x (some y) hash r s = .ok true) ∧
    (¬ SquareMod p256.p (pubOf d).2 → ∀ k, ∃ E : Finset (ZMod p256Params.n), E.card ≤ 3 ∧ ∀ hash r s,
      p256Params.sign d hash [k] = some (r, s) → (hashToInt hash : ZMod p256Params.n) ∉ E →
      p256Params.verify x (some y) hash r s = .ok false) := by
  obtain ⟨l1, l2⟩ := pubOf_loaded h0 h1 fs cls id hf
  by_cases hs : SquareMod p256.p (pubOf d).2
  · refine ⟨_, _, l1 hs, fun _ hash ks r s h => ?_, fun h => absurd hs h⟩
    refine (C132_signatures_verify d h0 h1 hash ks r s ?_).2
    rw [getPrivateKey]
    simp only
    rw [beVal_bigIntToByteArray, Int.natAbs_natCast, Nat.mod_eq_of_lt]
    · exact h
    · exact lt_trans h1 (by decide +kernel)
  · obtain ⟨y, l3, hq⟩ := l2 hs
    refine ⟨_, y, l3, fun h => absurd h hs, fun _ k => ?_⟩
    have hd0 := inv_pos h0 h1
    have h2 : (2 : ZMod p256Params.n) ≠ 0 := by
      intro h
      have : ((2 : Nat) : ZMod p256Params.n) = 0 := by exact_mod_cast h
      exact absurd (Nat.le_of_dvd (by omega) ((ZMod.natCast_eq_zero_iff _ _).mp this)) (by have := p256_good.big; omega)
    -- the point of verification, from the hash
    let r0 : Nat := (p256Params.coords (k • p256Params.base)).1 % p256Params.n
    let f : ZMod p256Params.n → p256Params.curve.Point := fun e => mulHom p256_good (k * (e - r0 * d) * (e + r0 * d)⁻¹)
    let E : Set (ZMod p256Params.n) := {e | e + r0 * d ≠ 0 ∧ (k : ZMod p256Params.n) ≠ 0 ∧ r0 ≠ 0 ∧ p256Params.Fits r0 (f e)}
    have hE : E.ncard ≤ 3 := by
      by_cases hne : E = ∅
      · rw [hne]; simp
      · obtain ⟨e0, he0⟩ := Set.nonempty_iff_ne_empty.mpr hne
        obtain ⟨-, hk, hr0, -⟩ := he0
        have hr : (r0 : ZMod p256Params.n) ≠ 0 := inv_pos (Nat.pos_of_ne_zero hr0) (Nat.mod_lt _ p256_good.prime.pos)
        refine fits_card_three p256_good r0 E f ?_ (fun e he => he.2.2.2) (mulHom p256_good k) ⟨?_, ?_⟩ ?_
        · intro a ha b hb hab
          have := mulHom_inj p256_good hab
          have ha' := ha.1
          have hb' := hb.1
          field_simp at this
          have h3 : (2 * (r0 * d : ZMod p256Params.n)) * (a - b) = 0 := by linear_combination this
          rcases mul_eq_zero.mp h3 with h | h
          · exact absurd h (mul_ne_zero h2 (mul_ne_zero hr hd0))
          · exact sub_eq_zero.mp h
        · intro h
          exact hk (mulHom_inj p256_good (h.trans (map_zero _).symm))
        · rw [mulHom_nat]
        · intro e he h
          have := mulHom_inj p256_good h
          have he' := he.1
          field_simp at this
          have h3 : (2 * (r0 * d : ZMod p256Params.n)) = 0 := by linear_combination -this
          exact absurd h3 (mul_ne_zero h2 (mul_ne_zero hr hd0))
    have hfin : E.Finite := Set.toFinite E
    refine ⟨hfin.toFinset, ?_, ?_⟩
    · rw [← Set.ncard_eq_toFinset_card E hfin]; exact hE
    · intro hash r s h hE
      rcases verify_bool p256_good hq hash r s with hv | hv
      · exfalso
        apply hE
        rw [Set.Finite.mem_toFinset]
        have hk : p256Params.sign1 d (hashToInt hash) k = some (r, s) := by
          simp only [sign, List.findSome?_cons, List.findSome?_nil] at h
          split at h
          · rename_i heq; rw [heq, h]
          · simp at h
        obtain ⟨hr, hs', hk0, e, hne, hfit⟩ := sign1_point hk
        have hr0 : r = r0 := ((sign1_iff _ _ _ _ _).mp hk).1
        rw [verify_iff p256_good hq] at hv
        obtain ⟨-, -, hv⟩ := hv
        rw [hr0] at hv hne e hr
        refine ⟨hne, hk0, by omega, ?_⟩
        have : mulHom p256_good (hashToInt hash * (s : ZMod p256Params.n)⁻¹) +
            ((r0 : ZMod p256Params.n) * (s : ZMod p256Params.n)⁻¹).val • (- mulHom p256_good (d : ZMod p256Params.n)) =
            f (hashToInt hash) := by
          rw [neg_nsmul, val_mul, ← sub_eq_add_neg, ← map_sub]
          congr 1
          rw [e, mul_inv, inv_inv]
          field_simp
        rw [this] at hv
        exact hv
      · exact hv

example := C133_saved_key_partial 2 (by decide) (by decide +kernel) (fun _ => some (pubContent (pubOf 2).1)) .node ['a'] rfl

/-- Signing, computed with numbers: an aid for concrete cases. -/
theorem sign1_eval {d e k r s : Nat} {a : Nat × Nat} (hm : p256Params.mulN 257 k = some a) (hr : a.1 % p256Params.n = r) (hr0 : r ≠ 0)
    (hk : k % p256Params.n ≠ 0) (hs : k * s % p256Params.n = (e + r * d) % p256Params.n) (hs0 : 0 < s) (hsn : s < p256Params.n) :
    p256Params.sign1 d e k = some (r, s) := by
  obtain ⟨hlt, hn, e1⟩ := mul_at p256_base (by decide +kernel) _ _ _ hm
  have hk' : (k : ZMod p256Params.n) ≠ 0 := by
    intro h; exact hk (Nat.mod_eq_zero_of_dvd ((ZMod.natCast_eq_zero_iff _ _).mp h))
  have e2 : (k : ZMod p256Params.n)⁻¹ * (e + r * d) = s := by
    have : ((k * s : Nat) : ZMod p256Params.n) = ((e + r * d : Nat) : ZMod p256Params.n) := (ZMod.natCast_eq_natCast_iff _ _ _).mpr hs
    push_cast at this
    rw [← this]; field_simp
  rw [sign1_iff, e2]
  refine ⟨?_, hr0, inv_pos hs0 hsn, ?_⟩
  · rw [e1]
    simp only [coords, ZMod.val_natCast, Nat.mod_eq_of_lt hlt.1, hr]
  · rw [ZMod.val_natCast, Nat.mod_eq_of_lt hsn]

/-- The public key, computed with numbers: an aid for concrete cases. -/
theorem pubOf_eval {d : Nat} {a : Nat × Nat} (hm : p256Params.mulN 257 d = some a) : pubOf d = a := by
  obtain ⟨hlt, hn, e1⟩ := mul_at p256_base (by decide +kernel) _ _ _ hm
  rw [pubOf, generateKey, e1]
  simp only [coords, ZMod.val_natCast, Nat.mod_eq_of_lt hlt.1, Nat.mod_eq_of_lt hlt.2]

theorem hashToInt_number {e : Nat} (h : e < 256 ^ 32) : hashToInt (bigIntToByteArray e) = e := by
  rw [hashToInt, List.take_of_length_le (by rw [bigIntToByteArray_length]), beVal_bigIntToByteArray, Int.natAbs_natCast, Nat.mod_eq_of_lt h]

/-- An X value of the curve and its order: r of the signatures with the random number 1. -/
def r1 : Nat := p256Params.gx % p256Params.n

/-- C133 is false: the private key n - 1, whose Y is not a square. -/
theorem C133_refuted : ¬ SavedKeyVerifies := by
  intro h
  have hd : pubOf (p256Params.n - 1) = (baseX, p256.p - baseY) := pubOf_eval (by decide +kernel)
  have hs : p256Params.sign (p256Params.n - 1) (bigIntToByteArray (3 * r1 % p256Params.n : Nat)) [1] =
      some (r1, 2 * r1 % p256Params.n) := by
    simp only [sign, List.findSome?_cons, List.findSome?_nil]
    rw [hashToInt_number (by decide +kernel), sign1_eval (a := (p256Params.gx, p256Params.gy)) (r := r1) (s := 2 * r1 % p256Params.n)]
    all_goals decide +kernel
  obtain ⟨x, y, hl, hv⟩ := h (p256Params.n - 1) (by decide +kernel) (by decide +kernel) (fun _ => some (pubContent baseX)) .node []
    (by rw [hd]) _ _ _ _ hs
  -- what is loaded is the base point
  have hsq : SquareMod p256.p baseY := by
    have : Fact p256.p.Prime := ⟨p256_prime⟩
    refine ⟨powMod 256 baseY ((p256.p + 1) / 4) p256.p, by decide +kernel⟩
  rw [(C76_recovered_partial _ .node [] baseX baseY (by decide +kernel) rfl).1 hsq] at hl
  simp only [Res.ok.injEq, Prod.mk.injEq] at hl
  obtain ⟨rfl, rfl⟩ := hl
  have hq : p256Params.point baseX baseY = some (mulHom p256_good (1 : Nat)) := by
    rw [← pubOf_point (by decide) (by decide +kernel), show pubOf 1 = (baseX, baseY) from pubOf_eval (by decide +kernel)]
  rw [verify_iff p256_good hq, val_mul, ← map_add, hashToInt_number (by decide +kernel)] at hv
  obtain ⟨-, -, -, hv⟩ := hv
  have e2 : ((3 * r1 % p256Params.n : Nat) : ZMod p256Params.n) * ((2 * r1 % p256Params.n : Nat) : ZMod p256Params.n)⁻¹ +
      (r1 : ZMod p256Params.n) * ((2 * r1 % p256Params.n : Nat) : ZMod p256Params.n)⁻¹ * ((1 : Nat) : ZMod p256Params.n) = (2 : Nat) := by
    have h2 : (2 : ZMod p256Params.n) ≠ 0 := by exact_mod_cast inv_pos (d := 2) (by decide) (by decide +kernel)
    have h3 : (r1 : ZMod p256Params.n) ≠ 0 := inv_pos (by decide +kernel) (by decide +kernel)
    rw [ZMod.natCast_mod, ZMod.natCast_mod]
    push_cast
    field_simp
    norm_num
  rw [e2, mulHom_nat] at hv
  have h4 : (pubOf 2).1 % p256Params.n = r1 := hv
  rw [pubOf_eval (a := (0x7cf27b188d034f7e8a52380304b51ac3c08969e277f21b35a60b48fc47669978,
    0x07775510db8ed040293d9ac69f7430dbba7dade63ce982299e04b79d227873d1)) (by decide +kernel)] at h4
  exact absurd h4 (by decide +kernel)

theorem point_of_onCurve {x y : Nat} (h : OnCurve p256 x y) : ∃ d : ZMod p256Params.n, p256Params.point x y = some (mulHom p256_good d) := by
  obtain ⟨hx, hy, hc⟩ := h
  have he : (y : ZMod p256Params.p) ^ 2 = (x : ZMod p256Params.p) ^ 3 - 3 * x + (p256Params.b : Nat) := by
    have := (ZMod.intCast_eq_intCast_iff _ _ p256.p).mpr hc
    push_cast at this
    exact this
  have hn : p256Params.curve.Nonsingular (x : ZMod p256Params.p) (y : ZMod p256Params.p) := by
    rw [WeierstrassCurve.Affine.nonsingular_iff']
    constructor
    · rw [WeierstrassCurve.Affine.equation_iff]
      simp only [EcParams.curve]
      linear_combination he
    · right
      simp only [EcParams.curve, zero_mul, add_zero]
      intro e
      have h2 : (2 : ZMod p256Params.p) ≠ 0 := by
        intro h
        have : ((2 : Nat) : ZMod p256Params.p) = 0 := by exact_mod_cast h
        exact absurd (Nat.mod_eq_zero_of_dvd ((ZMod.natCast_eq_zero_iff _ _).mp this)) (by decide +kernel)
      have hy0 := (mul_eq_zero.mp e).resolve_left h2
      rw [hy0] at he
      exact p256_no_root x (by linear_combination -he)
  obtain ⟨d, hd⟩ := p256_cyclic (.some _ _ hn)
  exact ⟨d, by rw [point, dif_pos ⟨⟨hx, hy⟩, hn⟩, hd]⟩

/-- What is accepted with the public key that is `d` times the base point. -/
theorem accepted_iff {x y : Nat} {d : ZMod p256Params.n} (hq : p256Params.point x y = some (mulHom p256_good d)) (hash : Bytes) (r s : Int) :
    p256Params.verify x (some y) hash r s = .ok true ↔ (0 < r ∧ r < p256Params.n) ∧ (0 < s ∧ s < p256Params.n) ∧
      p256Params.Fits r.toNat (mulHom p256_good ((hashToInt hash + r * d) * (s : ZMod p256Params.n)⁻¹)) := by
  by_cases h : 0 < r ∧ 0 < s
  · obtain ⟨r', rfl⟩ := Int.eq_ofNat_of_zero_le h.1.le
    obtain ⟨s', rfl⟩ := Int.eq_ofNat_of_zero_le h.2.le
    rw [verify_iff p256_good hq, val_mul, ← map_add]
    simp only [Int.toNat_natCast, Int.cast_natCast]
    have : (hashToInt hash : ZMod p256Params.n) * (s' : ZMod p256Params.n)⁻¹ + r' * (s' : ZMod p256Params.n)⁻¹ * d =
        (hashToInt hash + r' * d) * (s' : ZMod p256Params.n)⁻¹ := by ring
    rw [this]
    norm_cast
  · have : p256Params.verify x (some y) hash r s = .ok false := by
      rw [verify, if_pos (by omega)]
    rw [this]
    simp only [Res.ok.injEq, Bool.false_eq_true, false_iff]
    rintro ⟨h1, h2, -⟩
    exact h ⟨h1.1, h2.1⟩

theorem verify_eq_of_iff {x y x' y' : Nat} {q q'} (hq : p256Params.point x y = some q) (hq' : p256Params.point x' y' = some q')
    {hash hash' : Bytes} {r s r' s' : Int}
    (h : p256Params.verify x (some y) hash r s = .ok true ↔ p256Params.verify x' (some y') hash' r' s' = .ok true) :
    p256Params.verify x (some y) hash r s = p256Params.verify x' (some y') hash' r' s' := by
  rcases verify_bool p256_good hq hash r s with h1 | h1
  · rw [h1, h.mp h1]
  · rcases verify_bool p256_good hq' hash' r' s' with h2 | h2
    · rw [h.mpr h2, h2]
    · rw [h1, h2]

/-- The claim of C134: with a key, a hash and r, only one s is accepted. -/
def SignatureUnique : Prop := ∀ (x y : Nat), OnCurve p256 x y → ∀ (hash : Bytes) (r s s' : Int),
  p256Params.verify x (some y) hash r s = .ok true → p256Params.verify x (some y) hash r s' = .ok true → s = s'

/-- C134, what holds: for every public key, n - s is accepted if and only if s is; and at most four values of s are accepted. -/
theorem C134_altered_partial (x y : Nat) (h : OnCurve p256 x y) (hash : Bytes) (r : Int) :
    (∀ s : Int, 0 < s → s < p256Params.n →
      p256Params.verify x (some y) hash r (p256Params.n - s) = p256Params.verify x (some y) hash r s) ∧
    ∃ S : Finset Int, S.card ≤ 4 ∧ ∀ s, p256Params.verify x (some y) hash r s = .ok true → s ∈ S := by
  obtain ⟨d, hq⟩ := point_of_onCurve h
  constructor
  · intro s h0 h1
    apply verify_eq_of_iff hq hq
    rw [accepted_iff hq, accepted_iff hq]
    have : (((p256Params.n - s : Int)) : ZMod p256Params.n)⁻¹ = - (s : ZMod p256Params.n)⁻¹ := by
      push_cast [ZMod.natCast_self]
      rw [zero_sub, inv_neg]
    rw [this, mul_neg, map_neg, fits_neg]
    constructor
    · rintro ⟨h1, h2, h3⟩; exact ⟨h1, by omega, h3⟩
    · rintro ⟨h1, h2, h3⟩; exact ⟨h1, by omega, h3⟩
  · let A : Set Int := {s | p256Params.verify x (some y) hash r s = .ok true}
    have hA : ∀ s ∈ A, (0 < s ∧ s < p256Params.n) ∧
        p256Params.Fits r.toNat (mulHom p256_good ((hashToInt hash + r * d) * (s : ZMod p256Params.n)⁻¹)) :=
      fun s hs => ((accepted_iff hq _ _ _).mp hs).2
    have hfin : A.Finite := (Set.finite_Ioo (0 : Int) p256Params.n).subset fun s hs => (hA s hs).1
    refine ⟨hfin.toFinset, ?_, fun s hs => hfin.mem_toFinset.mpr hs⟩
    rw [← Set.ncard_eq_toFinset_card A hfin]
    refine fits_card p256_good r.toNat A _ ?_ (fun s hs => (hA s hs).2)
    intro s hs t ht hst
    have e := mulHom_inj p256_good hst
    have hne : (hashToInt hash + r * d : ZMod p256Params.n) ≠ 0 := by
      intro h
      have := (hA s hs).2.1
      rw [h, zero_mul, map_zero] at this
      exact this rfl
    have e2 := inv_inj.mp (mul_left_cancel₀ hne e)
    obtain ⟨⟨s0, s1⟩, -⟩ := hA s hs
    obtain ⟨⟨t0, t1⟩, -⟩ := hA t ht
    have e3 := (ZMod.intCast_eq_intCast_iff _ _ _).mp e2
    rw [Int.ModEq, Int.emod_eq_of_lt s0.le s1, Int.emod_eq_of_lt t0.le t1] at e3
    exact e3

example := C134_altered_partial baseX baseY (by decide +kernel) [1, 2, 3] 7

/-- A concrete signature: private key 1, random number 1, the number 1 is signed. -/
theorem sign_one : p256Params.sign 1 (bigIntToByteArray (1 : Nat)) [1] = some (r1, 1 + r1) := by
  simp only [sign, List.findSome?_cons, List.findSome?_nil]
  rw [hashToInt_number (by decide +kernel), sign1_eval (a := (p256Params.gx, p256Params.gy)) (r := r1) (s := 1 + r1)]
  all_goals decide +kernel

theorem verify_one : p256Params.verify baseX (some baseY) (bigIntToByteArray (1 : Nat)) r1 ((1 + r1 : Nat) : Int) = .ok true := by
  have h := C132_signatures_verify 1 (by decide) (by decide +kernel) (bigIntToByteArray (1 : Nat)) [1] r1 (1 + r1)
    (by rw [getPrivateKey, show beVal (bigIntToByteArray (1 : Nat)) = 1 by decide +kernel]; exact sign_one)
  rw [show pubOf 1 = (baseX, baseY) from pubOf_eval (by decide +kernel)] at h
  exact h.2

/-- C134 is false. -/
theorem C134_refuted : ¬ SignatureUnique := by
  intro h
  have hc : OnCurve p256 baseX baseY := by decide +kernel
  have h2 := (C134_altered_partial baseX baseY hc (bigIntToByteArray (1 : Nat)) r1).1 ((1 + r1 : Nat) : Int) (by decide +kernel) (by decide +kernel)
  have := h baseX baseY hc _ _ _ _ verify_one (h2.trans verify_one)
  exact absurd this (by decide +kernel)

/-- The claim of C135: a signature is accepted for one byte string only. -/
def CoversAllBytes : Prop := ∀ (x y : Nat), OnCurve p256 x y → ∀ (hash hash' : Bytes) (r s : Int),
  p256Params.verify x (some y) hash r s = .ok true → p256Params.verify x (some y) hash' r s = .ok true → hash = hash'

/-- C135, what holds: the result depends on the first 32 bytes only, as a number modulo n; and with a key and a signature at most four
of these numbers are accepted. -/
theorem C135_covers_partial (x y : Nat) (h : OnCurve p256 x y) (r s : Int) :
    (∀ hash hash', bigEndian (hash.take 32) % p256Params.n = bigEndian (hash'.take 32) % p256Params.n →
      p256Params.verify x (some y) hash r s = p256Params.verify x (some y) hash' r s) ∧
    ∃ E : Finset Nat, E.card ≤ 4 ∧ ∀ hash, p256Params.verify x (some y) hash r s = .ok true →
      bigEndian (hash.take 32) % p256Params.n ∈ E := by
  obtain ⟨d, hq⟩ := point_of_onCurve h
  constructor
  · intro hash hash' he
    apply verify_eq_of_iff hq hq
    rw [accepted_iff hq, accepted_iff hq]
    have : (hashToInt hash : ZMod p256Params.n) = hashToInt hash' := by
      rw [hashToInt, hashToInt, beVal_eq_bigEndian, beVal_eq_bigEndian]
      exact (ZMod.natCast_eq_natCast_iff _ _ _).mpr he
    rw [this]
  · let A : Set Nat := {e | e < p256Params.n ∧ (0 < s ∧ s < p256Params.n) ∧
      p256Params.Fits r.toNat (mulHom p256_good ((e + r * d) * (s : ZMod p256Params.n)⁻¹))}
    have hfin : A.Finite := (Set.finite_Iio p256Params.n).subset fun e he => he.1
    refine ⟨hfin.toFinset, ?_, fun hash hv => hfin.mem_toFinset.mpr ?_⟩
    · rw [← Set.ncard_eq_toFinset_card A hfin]
      refine fits_card p256_good r.toNat A _ ?_ (fun e he => he.2.2)
      intro a ha b hb hab
      have e := mulHom_inj p256_good hab
      have hs0 : (s : ZMod p256Params.n) ≠ 0 := by
        obtain ⟨s', hs'⟩ := Int.eq_ofNat_of_zero_le ha.2.1.1.le
        have h3 := ha.2.1
        rw [hs'] at h3 ⊢
        rw [Int.cast_natCast]
        exact inv_pos (by omega) (by omega)
      have e2 := add_right_cancel (mul_right_cancel₀ (inv_ne_zero hs0) e)
      have e3 := (ZMod.natCast_eq_natCast_iff _ _ _).mp e2
      rw [Nat.ModEq, Nat.mod_eq_of_lt ha.1, Nat.mod_eq_of_lt hb.1] at e3
      exact e3
    · obtain ⟨-, h2, h3⟩ := (accepted_iff hq _ _ _).mp hv
      refine ⟨Nat.mod_lt _ p256_order_prime.pos, h2, ?_⟩
      rw [ZMod.natCast_mod, ← beVal_eq_bigEndian]
      exact h3

example := C135_covers_partial baseX baseY (by decide +kernel) 7 9

/-- C135 is false: a further byte is not covered. -/
theorem C135_refuted : ¬ CoversAllBytes := by
  intro h
  have hc : OnCurve p256 baseX baseY := by decide +kernel
  have h2 := (C135_covers_partial baseX baseY hc r1 ((1 + r1 : Nat) : Int)).1 (bigIntToByteArray (1 : Nat)) (bigIntToByteArray (1 : Nat) ++ [0])
    (by decide +kernel)
  have := h baseX baseY hc _ _ _ _ verify_one (h2.symm.trans verify_one)
  exact absurd this (by decide +kernel)

/-- C136: signing ends after at most nine different random numbers. -/
theorem C136_signing_ends (d : Nat) (h0 : 0 < d) (h1 : d < p256Params.n) (hash : Bytes) (ks : List Nat) (hn : ks.Nodup)
    (hk : ∀ k ∈ ks, 0 < k ∧ k < p256Params.n) (hl : 9 ≤ ks.length) : ∃ r s, p256Params.sign d hash ks = some (r, s) := by
  cases hs : p256Params.sign d hash ks with
  | some v => exact ⟨v.1, v.2, rfl⟩
  | none =>
    exfalso
    simp only [sign, List.findSome?_eq_none_iff] at hs
    have hd0 := inv_pos h0 h1
    let r' : Nat := (-(hashToInt hash : ZMod p256Params.n) * (d : ZMod p256Params.n)⁻¹).val
    let A : Nat → Set Nat := fun r => {k | (0 < k ∧ k < p256Params.n) ∧ p256Params.Fits r (mulHom p256_good k)}
    have hA : ∀ r, (A r).Finite ∧ (A r).ncard ≤ 4 := by
      intro r
      refine ⟨(Set.finite_Iio p256Params.n).subset fun e he => he.1.2, fits_card p256_good r (A r) _ ?_ (fun e he => he.2)⟩
      intro a ha b hb hab
      have e3 := (ZMod.natCast_eq_natCast_iff _ _ _).mp (mulHom_inj p256_good hab)
      rw [Nat.ModEq, Nat.mod_eq_of_lt ha.1.2, Nat.mod_eq_of_lt hb.1.2] at e3
      exact e3
    have hsub : (ks.toFinset : Set Nat) ⊆ A 0 ∪ A r' := by
      intro k hk'
      have hk' : k ∈ ks := by simpa using hk'
      obtain ⟨k0, k1⟩ := hk k hk'
      have hkz := inv_pos k0 k1
      have hne : mulHom p256_good (k : ZMod p256Params.n) ≠ 0 := by
        intro h; exact hkz (mulHom_inj p256_good (h.trans (map_zero _).symm))
      have h2 := hs k hk'
      simp only [sign1] at h2
      split at h2
      · rename_i hz
        exact .inl ⟨⟨k0, k1⟩, hne, by rw [mulHom_nat]; exact hz⟩
      · split at h2
        · rename_i hz
          refine .inr ⟨⟨k0, k1⟩, hne, ?_⟩
          rw [mulHom_nat]
          have hz2 := (mul_eq_zero.mp hz).resolve_left (inv_ne_zero hkz)
          generalize hr : (p256Params.coords (k • p256Params.base)).1 % p256Params.n = r at hz2
          have hrlt : r < p256Params.n := by rw [← hr]; exact Nat.mod_lt _ p256_order_prime.pos
          have : (r : ZMod p256Params.n) = -(hashToInt hash : ZMod p256Params.n) * (d : ZMod p256Params.n)⁻¹ := by
            field_simp
            linear_combination hz2
          simp only [r', ← this, ZMod.val_natCast, Nat.mod_eq_of_lt hrlt]
        · simp at h2
    have hc := Set.ncard_le_ncard hsub ((hA 0).1.union (hA r').1)
    rw [Set.ncard_coe_finset, List.toFinset_card_of_nodup hn] at hc
    have := Set.ncard_union_le (A 0) (A r')
    have := (hA 0).2
    have := (hA r').2
    omega

example := C136_signing_ends 2 (by decide) (by decide +kernel) [1, 2, 3] [1, 2, 3, 4, 5, 6, 7, 8, 9] (by decide) (by decide +kernel) (by decide)

/-- The claim of C137: different private keys have different public key files. -/
def PublicFilesDiffer : Prop := ∀ (d d' : Nat), 0 < d → d < p256Params.n → 0 < d' → d' < p256Params.n →
  pubContent (pubOf d).1 = pubContent (pubOf d').1 → d = d'

/-- C137, exactly: two private keys have the same public key file if they are equal or their sum is n. -/
theorem C137_public_files_partial (d d' : Nat) (h0 : 0 < d) (h1 : d < p256Params.n) (h0' : 0 < d') (h1' : d' < p256Params.n) :
    pubContent (pubOf d).1 = pubContent (pubOf d').1 ↔ d = d' ∨ d + d' = p256Params.n := by
  have hp := pubOf_point h0 h1
  have hp' := pubOf_point h0' h1'
  constructor
  · intro h
    have hx : (pubOf d).1 = (pubOf d').1 := by
      obtain ⟨l1, l2⟩ := C76_recovered_partial (fun _ => some (pubContent (pubOf d).1)) .node [] _ _ (onCurve_of_point hp) rfl
      obtain ⟨l1', l2'⟩ := C76_recovered_partial (fun _ => some (pubContent (pubOf d).1)) .node [] _ _ (onCurve_of_point hp') (by rw [h])
      have : ∃ y, loadPubPoint p256 (fun _ => some (pubContent (pubOf d).1)) .node [] = .ok ((pubOf d).1, y) := by
        by_cases hs : SquareMod p256.p (pubOf d).2
        · exact ⟨_, l1 hs⟩
        · exact ⟨_, l2 hs⟩
      obtain ⟨y, hy⟩ := this
      have : ∃ y, loadPubPoint p256 (fun _ => some (pubContent (pubOf d).1)) .node [] = .ok ((pubOf d').1, y) := by
        by_cases hs : SquareMod p256.p (pubOf d').2
        · exact ⟨_, l1' hs⟩
        · exact ⟨_, l2' hs⟩
      obtain ⟨y', hy'⟩ := this
      rw [hy] at hy'
      simp only [Res.ok.injEq, Prod.mk.injEq] at hy'
      exact hy'.1
    have hor : mulHom p256_good (d : ZMod p256Params.n) = mulHom p256_good d' ∨ mulHom p256_good (d : ZMod p256Params.n) = - mulHom p256_good d' := by
      simp only [pubOf, generateKey, ← mulHom_nat p256_good] at hx
      have hne : mulHom p256_good (d : ZMod p256Params.n) ≠ 0 := fun h => inv_pos h0 h1 (mulHom_inj p256_good (h.trans (map_zero _).symm))
      have hne' : mulHom p256_good (d' : ZMod p256Params.n) ≠ 0 := fun h => inv_pos h0' h1' (mulHom_inj p256_good (h.trans (map_zero _).symm))
      generalize mulHom p256_good (d : ZMod p256Params.n) = P at hx hne
      generalize mulHom p256_good (d' : ZMod p256Params.n) = Q at hx hne'
      rcases P with - | ⟨x, y, hh⟩
      · exact absurd rfl hne
      · rcases Q with - | ⟨x', y', hh'⟩
        · exact absurd rfl hne'
        · simp only [coords] at hx
          obtain rfl := ZMod.val_injective _ hx
          rcases WeierstrassCurve.Affine.Y_eq_of_X_eq hh.1 hh'.1 rfl with e | e
          · left; subst e; rfl
          · right
            rw [WeierstrassCurve.Affine.Point.neg_some]
            simp only [e]
    rcases hor with h | h
    · left
      have e3 := (ZMod.natCast_eq_natCast_iff _ _ _).mp (mulHom_inj p256_good h)
      rw [Nat.ModEq, Nat.mod_eq_of_lt h1, Nat.mod_eq_of_lt h1'] at e3
      exact e3
    · right
      rw [← map_neg] at h
      have e : ((d + d' : Nat) : ZMod p256Params.n) = 0 := by
        rw [Nat.cast_add, mulHom_inj p256_good h, neg_add_cancel]
      obtain ⟨m, hm⟩ := (ZMod.natCast_eq_zero_iff _ _).mp e
      have hm2 : m < 2 := by
        by_contra hge
        have : p256Params.n * 2 ≤ p256Params.n * m := Nat.mul_le_mul_left _ (by omega)
        omega
      interval_cases m
      · omega
      · omega
  · rintro (rfl | h)
    · rfl
    · have e : (d' : ZMod p256Params.n) = - d := by
        have : ((d + d' : Nat) : ZMod p256Params.n) = 0 := by rw [h, ZMod.natCast_self]
        push_cast at this
        linear_combination this
      have hx : (pubOf d).1 = (pubOf d').1 := by
        simp only [pubOf, generateKey, ← mulHom_nat p256_good]
        rw [e, map_neg]
        rcases mulHom p256_good (d : ZMod p256Params.n) with - | ⟨x, y, hh⟩
        · rfl
        · rw [WeierstrassCurve.Affine.Point.neg_some]; rfl
      rw [hx]

example := C137_public_files_partial 2 3 (by decide) (by decide +kernel) (by decide) (by decide +kernel)

/-- C137 is false. -/
theorem C137_refuted : ¬ PublicFilesDiffer := by
  intro h
  have := h 1 (p256Params.n - 1) (by decide) (by decide +kernel) (by decide +kernel) (by decide +kernel)
    ((C137_public_files_partial 1 (p256Params.n - 1) (by decide) (by decide +kernel) (by decide +kernel) (by decide +kernel)).mpr
      (.inr (by decide +kernel)))
  exact absurd this (by decide +kernel)

/-- The claim of C138: checking a signature with a public key that was loaded without an error does not panic. -/
def VerifyTotal : Prop := ∀ (fs : FS) (cls : KeyClass) (id : Path) (x : Nat) (y : Option Nat), loadPubPoint p256 fs cls id = .ok (x, y) →
  ∀ (hash : Bytes) (r s : Int), p256Params.verify x y hash r s ≠ .panic

theorem calculateY_none (x : Nat) : calculateY p256 x = none ↔ ¬ ∃ y, OnCurve p256 (x % p256.p) y := by
  have hp : Fact p256.p.Prime := ⟨p256_prime⟩
  have hpos : (0 : Int) < p256.p := by exact_mod_cast p256_prime.pos
  simp only [calculateY, modSqrt]
  have hnn := Int.emod_nonneg ((x : Int) * x * x - (x * 2 + x) + p256.b) hpos.ne'
  rw [Int.toNat_of_nonneg hnn]
  have hz : ((((x : Int) * x * x - (x * 2 + x) + p256.b) % p256.p : Int) : ZMod p256.p) = (x : ZMod p256.p) ^ 3 - 3 * x + (p256.b : Nat) := by
    rw [ZMod.intCast_mod]
    push_cast
    ring
  rw [← jacobiSym.legendreSym.to_jacobiSym]
  have hleg : legendreSym p256.p (((x : Int) * x * x - (x * 2 + x) + p256.b) % p256.p) = -1 ↔
      ¬ ∃ y, OnCurve p256 (x % p256.p) y := by
    rw [legendreSym.eq_neg_one_iff, hz, not_iff_not]
    have hcurve : ∀ y : Nat, ((y : Int) ^ 2 ≡ ((x % p256.p : Nat) : Int) ^ 3 - 3 * ((x % p256.p : Nat) : Int) + p256.b [ZMOD p256.p]) ↔
        (y : ZMod p256.p) ^ 2 = (x : ZMod p256.p) ^ 3 - 3 * x + (p256.b : Nat) := by
      intro y
      rw [← ZMod.intCast_eq_intCast_iff]
      push_cast
      simp
    constructor
    · rintro ⟨z, hz⟩
      refine ⟨z.val, Nat.mod_lt _ p256_prime.pos, ZMod.val_lt z, (hcurve _).mpr ?_⟩
      rw [ZMod.natCast_val, ZMod.cast_id, hz, pow_two]
    · rintro ⟨y, -, -, hy⟩
      exact ⟨y, by rw [← (hcurve _).mp hy, pow_two]⟩
  rw [← hleg]
  split
  · simp_all
  · split <;> simp_all

/-- C138, exactly: with a loaded public key, checking panics for the numbers of a well formed signature if X belongs to no point of the
curve, and never if it belongs to one. -/
theorem C138_no_panic_partial (fs : FS) (cls : KeyClass) (id : Path) (x : Nat) (y : Option Nat)
    (h : loadPubPoint p256 fs cls id = .ok (x, y)) (hash : Bytes) (r s : Int) :
    ((∃ y, OnCurve p256 (x % p256.p) y) → p256Params.verify x y hash r s ≠ .panic) ∧
    ((¬ ∃ y, OnCurve p256 (x % p256.p) y) → 0 < r → r < p256Params.n → 0 < s → s < p256Params.n →
      p256Params.verify x y hash r s = .panic) := by
  have hy : y = calculateY p256 x := by
    rw [loadPubPoint] at h
    obtain ⟨data, -, h⟩ := Res.bind_eq_ok.mp h
    simp only [getPublicKey, Res.ok.injEq, Prod.mk.injEq] at h
    rw [← h.2, h.1]
  constructor
  · intro he
    cases hy' : y with
    | none => rw [hy] at hy'; exact absurd he ((calculateY_none x).mp hy')
    | some y =>
      simp only [verify]
      split
      · simp
      · cases p256Params.point x y with
        | none => simp
        | some q => simp only; split <;> simp
  · intro he h0 h1 h2 h3
    rw [hy, (calculateY_none x).mpr he, verify, if_neg (by omega)]

/-- There is no point with X = 1. -/
theorem no_point_one : ¬ ∃ y, OnCurve p256 1 y := by
  rintro ⟨y, -, -, h⟩
  have hp : Fact p256.p.Prime := ⟨p256_prime⟩
  have h1 : (y : ZMod p256.p) ^ 2 = ((p256.b - 2 : Nat) : ZMod p256.p) := by
    have := (ZMod.intCast_eq_intCast_iff _ _ p256.p).mpr h
    rw [Nat.cast_sub (by decide +kernel)]
    push_cast at this ⊢
    linear_combination this
  have h2 : (((p256.b - 2) ^ (p256.p / 2) : Nat) : ZMod p256.p) = ((p256.p - 1 : Nat) : ZMod p256.p) := by
    rw [ZMod.natCast_eq_natCast_iff, Nat.ModEq, ← powMod_eq 256 _ _ _ (by decide +kernel)]
    decide +kernel
  have h3 : (y : ZMod p256.p) ^ p256.p = - y := by
    have : p256.p = 2 * (p256.p / 2) + 1 := by decide +kernel
    have e : (y : ZMod p256.p) ^ p256.p = (y : ZMod p256.p) ^ (2 * (p256.p / 2) + 1) := congrArg _ this
    rw [e, pow_succ, pow_mul, h1, ← Nat.cast_pow, h2, Nat.cast_sub (by decide +kernel), ZMod.natCast_self]
    simp
  rw [ZMod.pow_card] at h3
  have h4 : (y : ZMod p256.p) = 0 := by
    have h2 : (2 : ZMod p256.p) ≠ 0 := by
      intro h
      have : ((2 : Nat) : ZMod p256.p) = 0 := by exact_mod_cast h
      exact absurd (Nat.mod_eq_zero_of_dvd ((ZMod.natCast_eq_zero_iff _ _).mp this)) (by decide +kernel)
    have : 2 * (y : ZMod p256.p) = 0 := by linear_combination h3
    exact (mul_eq_zero.mp this).resolve_left h2
  rw [h4] at h1
  have h5 := (ZMod.natCast_eq_zero_iff _ _).mp (h1.symm.trans (by simp))
  exact absurd (Nat.mod_eq_zero_of_dvd h5) (by decide +kernel)

/-- The number 1 in a public key file. -/
theorem load_one (cls : KeyClass) (id : Path) :
    loadPubPoint p256 (fun _ => some (pubContent (1 : Nat))) cls id = .ok (1, calculateY p256 1) := by
  rw [loadPubPoint, loadKeyData]
  simp only
  rw [pubContent, loadKeyBytes_encode, Res.bind_ok, getPublicKey, beVal_bigIntToByteArray]
  rfl

/-- C138 is false: a well formed public key file with X = 1. -/
theorem C138_refuted : ¬ VerifyTotal := by
  intro h
  exact h _ .node [] _ _ (load_one .node []) [] 1 1 ((C138_no_panic_partial _ .node [] _ _ (load_one .node []) [] 1 1).2
    no_point_one (by decide) (by decide +kernel) (by decide) (by decide +kernel))

/-! The hypotheses of the theorems above are met. -/

/-- C132: a signature with the private key 2 and the random number 1, after one that is not usable. -/
theorem sample_signature : 0 < 2 ∧ 2 < p256Params.n ∧
    p256Params.sign (p256Params.getPrivateKey (bigIntToByteArray (2 : Nat))).1 (bigIntToByteArray (7 : Nat) ++ [5, 5]) [p256Params.n, 1] =
      some (r1, (7 + 2 * r1) % p256Params.n) := by
  refine ⟨by decide, by decide +kernel, ?_⟩
  have h1 : p256Params.sign1 2 7 p256Params.n = none := by
    rw [sign1, p256_order]
    rfl
  have h2 : p256Params.sign1 2 7 1 = some (r1, (7 + 2 * r1) % p256Params.n) := by
    apply sign1_eval (a := (p256Params.gx, p256Params.gy)) <;> decide +kernel
  have h3 : beVal (bigIntToByteArray (2 : Nat)) = 2 := by decide +kernel
  have h4 : hashToInt (bigIntToByteArray (7 : Nat) ++ [5, 5]) = 7 := by decide +kernel
  simp only [getPrivateKey, sign, h3, h4, List.findSome?_cons, h1, h2]

/-- C133: both cases occur. -/
example : SquareMod p256.p (pubOf 1).2 ∧ ¬ SquareMod p256.p (pubOf (p256Params.n - 1)).2 := by
  have hd : pubOf (p256Params.n - 1) = (baseX, p256.p - baseY) := pubOf_eval (by decide +kernel)
  have h1 : pubOf 1 = (baseX, baseY) := pubOf_eval (by decide +kernel)
  have hsq : SquareMod p256.p baseY := ⟨powMod 256 baseY ((p256.p + 1) / 4) p256.p, by decide +kernel⟩
  rw [hd, h1]
  refine ⟨hsq, fun hn => ?_⟩
  let fs : FS := fun _ => some (pubContent baseX)
  have a := (C76_recovered_partial fs .node [] baseX baseY (by decide +kernel) rfl).1 hsq
  have b := (C76_recovered_partial fs .node [] baseX (p256.p - baseY) (by decide +kernel) rfl).1 hn
  rw [a] at b
  simp only [Res.ok.injEq, Prod.mk.injEq, Option.some.injEq, true_and] at b
  exact absurd b (by decide +kernel)

/-- C134, C135: a public key. -/
example : OnCurve p256 baseX baseY := by decide +kernel

/-- C136: nine random numbers. -/
example : [1, 2, 3, 4, 5, 6, 7, 8, 9].Nodup ∧ (∀ k ∈ [1, 2, 3, 4, 5, 6, 7, 8, 9], 0 < k ∧ k < p256Params.n) := by decide +kernel

/-- C138: both cases occur. -/
example : (∃ y, OnCurve p256 (baseX % p256.p) y) ∧ ¬ ∃ y, OnCurve p256 (1 % p256.p) y :=
  ⟨⟨baseY, by decide +kernel⟩, no_point_one⟩

example := C132_signatures_verify 2 (by decide) (by decide +kernel) _ _ _ _ sample_signature.2.2

example := C138_no_panic_partial (fun _ => some (pubContent baseX)) .node [] baseX (some baseY)
  ((C76_recovered_partial (fun _ => some (pubContent baseX)) .node [] baseX baseY (by decide +kernel) rfl).1
    ⟨powMod 256 baseY ((p256.p + 1) / 4) p256.p, by decide +kernel⟩) [1, 2, 3] 7 9

end Poodle.Props
