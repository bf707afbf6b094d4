import Verif.Props.Rand
import Verif.Props.MurmurSeed
import Mathlib.Data.Int.CardIntervalMod
import Mathlib.Data.Nat.Prime.Basic

/-
Properties C223, C224: how often random ranges give each of their values (/repo/src/util/rand_util.go; randUint32 of
/repo/src/collection/util.go).
-/

namespace Poodle.Props
open Poodle Poodle.Spec

/-- The outcomes of the random source, `w` bytes, of which a statement holds. -/
def outcomes (w : Nat) (p : Bytes → Prop) : Set Bytes := {b | b.length = w ∧ p b}

theorem outcomes_ncard (w : Nat) (p : Nat → Prop) [DecidablePred p] : (outcomes w fun b => p (beVal b)).ncard = (2 ^ (8 * w)).count p := by
  have hN : 2 ^ (8 * w) = 256 ^ w := by rw [Nat.pow_mul]
  have e : beVal '' (outcomes w fun b => p (beVal b)) = ((Finset.range (2 ^ (8 * w))).filter p : Finset Nat) := by
    ext v
    simp only [Set.mem_image, outcomes, Set.mem_ofPred_eq, Finset.coe_filter, Finset.mem_range]
    constructor
    · rintro ⟨b, ⟨h1, h2⟩, rfl⟩
      exact ⟨by rw [hN, ← h1]; exact beVal_lt b, h2⟩
    · rintro ⟨h1, h2⟩
      have hv : beVal (beBytes w v) = v := by rw [beVal_beBytes, Nat.mod_eq_of_lt (by omega)]
      exact ⟨beBytes w v, ⟨beBytes_length _ _, by rw [hv]; exact h2⟩, hv⟩
  rw [← Set.ncard_image_of_injOn (f := beVal), e, Set.ncard_coe_finset, Nat.count_eq_card_filter_range]
  exact fun a ha b hb h => beVal_injective (ha.1.trans hb.1.symm) h

/-! ### C223 Unsigned random ranges are fair -/

theorem randUintRange_eq_iff (w min max x : Nat) (b : Bytes) (hm : max < 2 ^ (8 * w)) (h1 : min ≤ x) (h2 : x < max) :
    randUintRange w min max b = .ok x ↔ beVal b ≡ x - min [MOD max - min] := by
  have hd : (max + 2 ^ (8 * w) - min) % 2 ^ (8 * w) = max - min := by
    rw [show max + 2 ^ (8 * w) - min = (max - min) + 2 ^ (8 * w) by omega, Nat.add_mod_right, Nat.mod_eq_of_lt (by omega)]
  simp only [randUintRange, randUint]
  have hlt : beVal b % (max - min) < max - min := Nat.mod_lt _ (by omega)
  rw [hd, if_neg (by omega), Res.ok.injEq, Nat.mod_eq_of_lt (a := _ + _) (by omega), Nat.ModEq, Nat.mod_eq_of_lt (a := x - min) (by omega)]
  omega

/-- C223: of the outcomes of the random source, each value of the range gets the same number, except that the lowest values of the
range get one more each if the range does not divide the number of outcomes. -/
theorem C223_share (w min max x : Nat) (hm : max < 2 ^ (8 * w)) (h1 : min ≤ x) (h2 : x < max) :
    (outcomes w fun b => randUintRange w min max b = .ok x).ncard =
      2 ^ (8 * w) / (max - min) + if x - min < 2 ^ (8 * w) % (max - min) then 1 else 0 := by
  have e : (outcomes w fun b => randUintRange w min max b = .ok x) = outcomes w fun b => beVal b ≡ x - min [MOD max - min] := by
    ext b
    simp only [outcomes, Set.mem_ofPred_eq, randUintRange_eq_iff w min max x b hm h1 h2]
  rw [e, outcomes_ncard w (fun v => v ≡ x - min [MOD max - min]), Nat.count_modEq_card _ (by omega), Nat.mod_eq_of_lt (a := x - min) (by omega)]

example := C223_share 1 10 20 13 (by decide) (by decide) (by decide)

/-- C223: any two values of a range are equally likely up to one outcome. -/
theorem C223_fair (w min max x y : Nat) (hm : max < 2 ^ (8 * w)) (hx : min ≤ x ∧ x < max) (hy : min ≤ y ∧ y < max) :
    (outcomes w fun b => randUintRange w min max b = .ok x).ncard ≤ (outcomes w fun b => randUintRange w min max b = .ok y).ncard + 1 := by
  rw [C223_share w min max x hm hx.1 hx.2, C223_share w min max y hm hy.1 hy.2]
  split_ifs <;> omega

example := C223_fair 1 10 20 13 19 (by decide) (by decide) (by decide)

/-- C223: they are exactly equally likely if and only if the size of the range is a power of two. -/
theorem C223_uniform_iff (w min max : Nat) (h : min < max) (hm : max < 2 ^ (8 * w)) :
    (∀ x y, min ≤ x → x < max → min ≤ y → y < max → (outcomes w fun b => randUintRange w min max b = .ok x).ncard =
      (outcomes w fun b => randUintRange w min max b = .ok y).ncard) ↔ ∃ k, max - min = 2 ^ k := by
  have hlt : 2 ^ (8 * w) % (max - min) < max - min := Nat.mod_lt _ (by omega)
  constructor
  · intro hu
    have := hu min (max - 1) (le_refl _) h (by omega) (by omega)
    rw [C223_share w min max min hm (by omega) h, C223_share w min max (max - 1) hm (by omega) (by omega)] at this
    have h0 : 2 ^ (8 * w) % (max - min) = 0 := by
      by_contra hc
      rw [if_pos (by omega), if_neg (by omega)] at this
      omega
    obtain ⟨k, -, hk⟩ := (Nat.dvd_prime_pow Nat.prime_two).mp (Nat.dvd_of_mod_eq_zero h0)
    exact ⟨k, hk⟩
  · rintro ⟨k, hk⟩ x y hx hx' hy hy'
    have hle : 2 ^ k < 2 ^ (8 * w) := by omega
    have h0 : 2 ^ (8 * w) % (max - min) = 0 := by
      rw [hk]
      exact Nat.mod_eq_zero_of_dvd (pow_dvd_pow 2 ((Nat.pow_lt_pow_iff_right (by decide)).mp hle).le)
    rw [C223_share w min max x hm hx hx', C223_share w min max y hm hy hy', h0]
    simp

example := C223_uniform_iff 1 10 18 (by decide) (by decide)

/-- C223: if the random source works, every seed of a hash table comes from exactly one outcome. -/
theorem C223_seed (seed : UInt32) : ∃! b : Bytes, b.length = 4 ∧ randUint32 (some b) = .ok seed := by
  refine ⟨beBytes 4 seed.toNat, ⟨beBytes_length _ _, ?_⟩, ?_⟩
  · simp only [randUint32, Res.ok.injEq]
    rw [beVal_beBytes, Nat.mod_eq_of_lt (by have := seed.toNat_lt; omega), UInt32.ofNat_toNat]
  · rintro b ⟨h1, h2⟩
    simp only [randUint32, Res.ok.injEq] at h2
    refine beVal_injective (h1.trans (beBytes_length _ _).symm) ?_
    have hb := beVal_lt b
    rw [h1] at hb
    rw [beVal_beBytes, Nat.mod_eq_of_lt (a := seed.toNat) (by have := seed.toNat_lt; omega), ← h2, UInt32.toNat_ofNat', Nat.mod_eq_of_lt (by omega)]

/-- C223: so every byte string gets every hash under exactly one outcome of the random source. -/
theorem C223_hash (k : Bytes) (v : UInt32) :
    ∃! b : Bytes, b.length = 4 ∧ ∃ seed, randUint32 (some b) = .ok seed ∧ murmurHash seed k = v := by
  obtain ⟨s, hs, hu⟩ := C152_uniform k v
  obtain ⟨b, ⟨h1, h2⟩, hb⟩ := C223_seed s
  refine ⟨b, ⟨h1, s, h2, hs⟩, ?_⟩
  rintro b' ⟨h1', s', h2', hs'⟩
  rw [hu s' hs'] at h2'
  exact hb b' ⟨h1', h2'⟩

example := C223_seed 0xDEADBEEF
example : randUint32 (some [0xDE, 0xAD, 0xBE, 0xEF]) = .ok 0xDEADBEEF := by decide +kernel
example := C223_hash [1, 2, 3] 7

/-! ### C224 Signed random ranges are fair -/

/-- The claim of C224. -/
def SignedFair : Prop := ∀ (w : Nat) (min max x y : Int), w ∈ [1, 2, 4, 8] → -2 ^ (8 * w - 1) ≤ min → min ≤ x → x < max → min ≤ y → y < max →
  max < 2 ^ (8 * w - 1) → (outcomes w fun b => randIntRange w min max b = .ok x).ncard ≤ (outcomes w fun b => randIntRange w min max b = .ok y).ncard + 1

theorem count_back (d n : Nat) : n.count (fun k => d ∣ n - k) = n / d := by
  induction n with
  | zero => simp
  | succ n ih =>
    rw [Nat.count_succ', Nat.succ_div]
    simp only [Nat.add_sub_add_right, Nat.sub_zero]
    rw [ih]

theorem count_not (p : Nat → Prop) [DecidablePred p] (n : Nat) : n.count (fun k => ¬ p k) = n - n.count p := by
  have : n.count p + n.count (fun k => ¬ p k) = n := by
    induction n with
    | zero => simp
    | succ n ih =>
      rw [Nat.count_succ, Nat.count_succ]
      split_ifs <;> omega
  omega

theorem toSigned_half {k v : Nat} (hv : v < 2 ^ k + 2 ^ k) :
    toSigned (k + 1) v = if v < 2 ^ k then (v : Int) else -((2 ^ k + 2 ^ k - v : Nat) : Int) := by
  have hN : 2 ^ (k + 1) = 2 ^ k + 2 ^ k := by rw [Nat.pow_succ]; omega
  simp only [toSigned]
  rw [hN]
  generalize 2 ^ k = H at *
  split_ifs with h
  · exact Int.bmod_eq_of_le (by omega) (by omega)
  · rw [← Int.sub_bmod_right, Int.bmod_eq_of_le (by omega) (by omega)]
    omega

/-- Splitting the outcomes into those that give integers that are not negative and those that give negative ones. -/
theorem outcomes_signed (w k : Nat) (hk : 8 * w = k + 1) (p : Int → Prop) [DecidablePred p] :
    (outcomes w fun b => p (randInt w b)).ncard =
      (2 ^ k).count (fun v => p (v : Int)) + (2 ^ k).count (fun v => p (-((2 ^ k - v : Nat) : Int))) := by
  have hN : 2 ^ (8 * w) = 2 ^ k + 2 ^ k := by rw [hk, Nat.pow_succ]; omega
  simp only [randInt]
  rw [outcomes_ncard w (fun v => p (toSigned (8 * w) v)), hN, Nat.count_add, hk]
  congr 1
  · rw [Nat.count_eq_card_filter_range, Nat.count_eq_card_filter_range]
    congr 1
    refine Finset.filter_congr fun v hv => ?_
    rw [Finset.mem_range] at hv
    rw [toSigned_half (by omega), if_pos hv]
  · rw [Nat.count_eq_card_filter_range, Nat.count_eq_card_filter_range]
    congr 1
    refine Finset.filter_congr fun v hv => ?_
    rw [Finset.mem_range] at hv
    rw [toSigned_half (by omega), if_neg (by omega), Nat.add_sub_add_left]

/-- C224, exactly how often a result is not in the range: a signed range misses for all negative integers of the random source that are
no multiples of the (wrapped) size of the range. -/
theorem C224_outside_partial (w : Nat) (min max : Int) (hw : 0 < w) (h0 : -2 ^ (8 * w - 1) ≤ min) (h : min < max)
    (hm : max < 2 ^ (8 * w - 1)) :
    (outcomes w fun b => ∀ x, randIntRange w min max b = .ok x → ¬ (min ≤ x ∧ x < max)).ncard =
      2 ^ (8 * w - 1) - 2 ^ (8 * w - 1) / (Int.bmod (max - min) (2 ^ (8 * w))).natAbs := by
  have e : (outcomes w fun b => ∀ x, randIntRange w min max b = .ok x → ¬ (min ≤ x ∧ x < max)) =
      outcomes w fun b => ¬ (0 ≤ randInt w b ∨ Int.bmod (max - min) (2 ^ (8 * w)) ∣ randInt w b) := by
    ext b
    obtain ⟨x, h1, h2⟩ := C70_in_range_iff_partial w min max b hw h0 h hm
    simp only [outcomes, Set.mem_ofPred_eq, ← h2, h1, Res.ok.injEq]
    exact ⟨fun ⟨a, b⟩ => ⟨a, b x rfl⟩, fun ⟨a, b⟩ => ⟨a, fun y hy => hy ▸ b⟩⟩
  obtain ⟨k, hk⟩ : ∃ k, 8 * w = k + 1 := ⟨8 * w - 1, by omega⟩
  rw [e, outcomes_signed w k hk (fun x => ¬ (0 ≤ x ∨ Int.bmod (max - min) (2 ^ (8 * w)) ∣ x)), show 8 * w - 1 = k by omega]
  generalize Int.bmod (max - min) (2 ^ (8 * w)) = d
  have e1 : (2 ^ k).count (fun v => ¬ (0 ≤ (v : Int) ∨ d ∣ (v : Int))) = 0 := by
    simp [Nat.count_eq_card_filter_range]
  have e2 : (2 ^ k).count (fun v => ¬ (0 ≤ (-((2 ^ k - v : Nat) : Int)) ∨ d ∣ -((2 ^ k - v : Nat) : Int))) =
      (2 ^ k).count (fun v => ¬ (d.natAbs ∣ 2 ^ k - v)) := by
    rw [Nat.count_eq_card_filter_range, Nat.count_eq_card_filter_range]
    congr 1
    refine Finset.filter_congr fun v hv => ?_
    rw [Finset.mem_range] at hv
    rw [Int.dvd_neg, ← Int.natAbs_dvd, Int.natCast_dvd_natCast]
    have : ¬ 0 ≤ -((2 ^ k - v : Nat) : Int) := by omega
    simp only [this, false_or]
  rw [e1, e2, count_not, count_back, Nat.zero_add]

example := C224_outside_partial 1 10 20 (by decide) (by decide) (by decide) (by decide)

/-- C224: for a range of at least two values, at least a quarter of the outcomes is not in the range. -/
theorem C224_quarter_partial (w : Nat) (min max : Int) (hw : 0 < w) (h0 : -2 ^ (8 * w - 1) ≤ min) (h : min + 2 ≤ max)
    (hs : max - min < 2 ^ (8 * w - 1)) (hm : max < 2 ^ (8 * w - 1)) :
    2 ^ (8 * w) ≤ 4 * (outcomes w fun b => ∀ x, randIntRange w min max b = .ok x → ¬ (min ≤ x ∧ x < max)).ncard := by
  rw [C224_outside_partial w min max hw h0 (by omega) hm]
  obtain ⟨k, hk⟩ : ∃ k, 8 * w = k + 1 := ⟨8 * w - 1, by omega⟩
  rw [show 8 * w - 1 = k by omega] at *
  have hN : 2 ^ (8 * w) = 2 ^ k + 2 ^ k := by rw [hk, Nat.pow_succ]; omega
  have hc : ((2 ^ k : Nat) : Int) = 2 ^ k := by simp
  rw [hN]
  have hb : Int.bmod (max - min) (2 ^ k + 2 ^ k) = max - min := Int.bmod_eq_of_le (by omega) (by omega)
  rw [hb]
  have : 2 ^ k / (max - min).natAbs ≤ 2 ^ k / 2 := Nat.div_le_div_left (by omega) (by decide)
  omega

example := C224_quarter_partial 1 10 20 (by decide) (by decide) (by decide) (by decide) (by decide)

/-- C224, exactly how often a value of the range is the result: the least value also gets the outcomes that are negative multiples of the
size of the range, about twice as many as each other value. -/
theorem C224_share_partial (w : Nat) (min max x : Int) (hw : 0 < w) (h0 : -2 ^ (8 * w - 1) ≤ min) (hs : max - min < 2 ^ (8 * w - 1))
    (hm : max < 2 ^ (8 * w - 1)) (h1 : min ≤ x) (h2 : x < max) :
    (outcomes w fun b => randIntRange w min max b = .ok x).ncard =
      2 ^ (8 * w - 1) / (max - min).toNat + (if (x - min).toNat < 2 ^ (8 * w - 1) % (max - min).toNat then 1 else 0) +
        if x = min then 2 ^ (8 * w - 1) / (max - min).toNat else 0 := by
  obtain ⟨k, hk⟩ : ∃ k, 8 * w = k + 1 := ⟨8 * w - 1, by omega⟩
  rw [show 8 * w - 1 = k by omega] at *
  have hN : 2 ^ (8 * w) = 2 ^ k + 2 ^ k := by rw [hk, Nat.pow_succ]; omega
  have hc : ((2 ^ k : Nat) : Int) = 2 ^ k := by simp
  obtain ⟨d, hd⟩ : ∃ d : Nat, max - min = d := ⟨(max - min).toNat, by omega⟩
  obtain ⟨r, hr⟩ : ∃ r : Nat, x - min = r := ⟨(x - min).toNat, by omega⟩
  have e : (outcomes w fun b => randIntRange w min max b = .ok x) = outcomes w fun b => Int.tmod (randInt w b) d = r := by
    ext b
    simp only [outcomes, Set.mem_ofPred_eq, randIntRange]
    rw [hN]
    have hb : Int.bmod (max - min) (2 ^ k + 2 ^ k) = max - min := Int.bmod_eq_of_le (by omega) (by omega)
    rw [hb, if_neg (by omega), hd, Res.ok.injEq]
    have ht : (Int.tmod (randInt w b) d).natAbs < d := by
      rw [Int.natAbs_tmod]
      exact Nat.mod_lt _ (by omega)
    generalize Int.tmod (randInt w b) d = t at *
    by_cases hlow : -(2 ^ k) ≤ t + min
    · rw [Int.bmod_eq_of_le (by omega) (by omega)]
      omega
    · rw [← Int.add_bmod_right, Int.bmod_eq_of_le (by omega) (by omega)]
      omega
  rw [e, outcomes_signed w k hk (fun y => Int.tmod y d = r)]
  have e1 : (2 ^ k).count (fun v => Int.tmod (v : Int) d = r) = (2 ^ k).count (fun v => v ≡ r [MOD d]) := by
    congr 1
    ext v
    rw [← Int.ofNat_tmod, Int.natCast_inj, Nat.ModEq, Nat.mod_eq_of_lt (a := r) (by omega)]
  have e2 : (2 ^ k).count (fun v => Int.tmod (-((2 ^ k - v : Nat) : Int)) d = r) = if x = min then 2 ^ k / d else 0 := by
    have e3 : ∀ v, Int.tmod (-((2 ^ k - v : Nat) : Int)) d = r ↔ r = 0 ∧ d ∣ 2 ^ k - v := by
      intro v
      rw [Int.neg_tmod, ← Int.ofNat_tmod, Nat.dvd_iff_mod_eq_zero]
      omega
    simp only [e3]
    split_ifs with h
    · rw [← count_back d (2 ^ k)]
      congr 1
      ext v
      simp only [show r = 0 by omega, true_and]
    · simp [Nat.count_eq_card_filter_range, show r ≠ 0 by omega]
  rw [e1, e2, Nat.count_modEq_card _ (by omega), Nat.mod_eq_of_lt (a := r) (by omega), show (max - min).toNat = d by omega,
    show (x - min).toNat = r by omega]

example := C224_share_partial 1 10 20 13 (by decide) (by decide) (by decide) (by decide) (by decide) (by decide)

/-- C224 is false: RandInt8Range(10, 20) gives 10 for 25 of the 256 outcomes and 13 for 13 of them. -/
theorem C224_refuted : ¬ SignedFair := by
  intro h
  have := h 1 10 20 10 13 (by decide) (by decide) (by decide) (by decide) (by decide) (by decide) (by decide)
  rw [C224_share_partial 1 10 20 10 (by decide) (by decide) (by decide) (by decide) (by decide) (by decide),
    C224_share_partial 1 10 20 13 (by decide) (by decide) (by decide) (by decide) (by decide) (by decide)] at this
  exact absurd this (by decide)

end Poodle.Props
