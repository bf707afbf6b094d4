import Verif.Spec.HashCustom
import Verif.Lemmas.HashFloat

/-
What the decisions of `customPolicy` amount to, up to rounding errors.
-/

namespace Poodle
open Spec

/-- Rounding to `float32` does not go below a `float32` number. -/
theorem float32_ge_of {x q : ℚ} (hx : 0 < x) (hf : float32 x = x) (h : x ≤ q) : x ≤ float32 q := by
  have hq : 0 < q := lt_of_lt_of_le hx h
  have hlog : Int.log 2 x ≤ Int.log 2 q := Int.log_mono_right hx h
  have hqu : (0 : ℚ) < 2 ^ (Int.log 2 q - 23) := zpow_pos (by norm_num) _
  rcases hlog.eq_or_lt with he | hl
  · have hf' := hf
    unfold float32 at hf' ⊢
    rw [if_neg (not_le.mpr hx), he] at hf'
    rw [if_neg (not_le.mpr hq)]
    generalize roundEven (x / 2 ^ (Int.log 2 q - 23)) = n at hf'
    have : (n : ℚ) ≤ q / 2 ^ (Int.log 2 q - 23) := by rw [le_div_iff₀ hqu, hf']; exact h
    have h2 : (n : ℚ) ≤ (roundEven (q / 2 ^ (Int.log 2 q - 23)) : ℚ) := by exact_mod_cast le_roundEven this
    calc x = n * 2 ^ (Int.log 2 q - 23) := hf'.symm
      _ ≤ _ := mul_le_mul_of_nonneg_right h2 hqu.le
  · have h1 : x < 2 ^ (Int.log 2 q) := by
      have : x < (2 : ℚ) ^ (Int.log 2 x + 1) := by exact_mod_cast Int.lt_zpow_succ_log_self (b := 2) (by norm_num) x
      refine lt_of_lt_of_le this ?_
      exact zpow_le_zpow_right₀ (by norm_num) (by omega)
    have e : (2 : ℚ) ^ (Int.log 2 q) = ((2 ^ 23 : ℤ) : ℚ) * 2 ^ (Int.log 2 q - 23) := by
      have : ((2 ^ 23 : ℤ) : ℚ) = (2 : ℚ) ^ (23 : ℤ) := by norm_num
      rw [this, ← zpow_add₀ (by norm_num)]; congr 1; omega
    unfold float32
    rw [if_neg (not_le.mpr hq)]
    have : ((2 ^ 23 : ℤ) : ℚ) ≤ q / 2 ^ (Int.log 2 q - 23) := by rw [le_div_iff₀ hqu, ← e]; exact two_pow_log hq
    have h2 : ((2 ^ 23 : ℤ) : ℚ) ≤ (roundEven (q / 2 ^ (Int.log 2 q - 23)) : ℚ) := by exact_mod_cast le_roundEven this
    have := mul_le_mul_of_nonneg_right h2 hqu.le
    rw [← e] at this
    exact le_trans h1.le this

/-- Load factors and multipliers after clamping. -/
structure ClampedTo (f m : ℚ) : Prop where
  lo : 1 / 2 ≤ f
  hi : f ≤ 1
  rep : float32 f = f
  mlo : 6 / 5 ≤ m
  mhi : m ≤ 5

variable {env : FloatEnv} {f m : ℚ}

theorem float32_half : float32 (1 / 2) = 1 / 2 := by
  have : Int.log 2 (1 / 2 : ℚ) = -1 := by
    have a : (-1 : ℤ) ≤ Int.log 2 (1 / 2 : ℚ) := (Int.zpow_le_iff_le_log (by norm_num) (by norm_num)).mp (by norm_num)
    have b : Int.log 2 (1 / 2 : ℚ) < 0 := (Int.lt_zpow_iff_log_lt (by norm_num) (by norm_num)).mp (by norm_num)
    omega
  unfold float32
  rw [if_neg (by norm_num), this]
  have e : (1 / 2 : ℚ) / 2 ^ ((-1 : ℤ) - 23) = ((2 ^ 23 : ℤ) : ℚ) := by norm_num
  rw [e, roundEven_intCast]
  norm_num

theorem float32_six_fifths : float32 (6 / 5) = 10066330 / 2 ^ 23 := by
  have : Int.log 2 (6 / 5 : ℚ) = 0 := by
    have a : (0 : ℤ) ≤ Int.log 2 (6 / 5 : ℚ) := (Int.zpow_le_iff_le_log (by norm_num) (by norm_num)).mp (by norm_num)
    have b : Int.log 2 (6 / 5 : ℚ) < 1 := (Int.lt_zpow_iff_log_lt (by norm_num) (by norm_num)).mp (by norm_num)
    omega
  unfold float32
  rw [if_neg (by norm_num), this]
  have e : roundEven ((6 / 5 : ℚ) / 2 ^ ((0 : ℤ) - 23)) = 10066330 := by
    have : (6 / 5 : ℚ) / 2 ^ ((0 : ℤ) - 23) = 10066329 + 3 / 5 := by norm_num
    rw [this]
    have hf : ⌊(10066329 + 3 / 5 : ℚ)⌋ = 10066329 := by rw [Int.floor_eq_iff]; norm_num
    unfold roundEven
    rw [hf, if_neg (by norm_num), if_pos (by norm_num)]
    rfl
  rw [e]
  norm_num

/-- The clamped arguments, for arguments that are numbers. -/
theorem clampLoad_ok {lf : F32} (h : lf ≠ .nan) (hr : F32.Valid lf) :
    clampLoadFactor lf = some (effLoad lf) ∧ 1 / 2 ≤ effLoad lf ∧ effLoad lf ≤ 1 ∧ float32 (effLoad lf) = effLoad lf := by
  have one : float32 1 = 1 := by have := float32_nat (n := 1) (by omega); simpa using this
  cases lf with
  | nan => exact absurd rfl h
  | posInf => exact ⟨rfl, by norm_num [effLoad], by norm_num [effLoad], one⟩
  | negInf => exact ⟨rfl, by norm_num [effLoad], by norm_num [effLoad], float32_half⟩
  | fin q =>
    simp only [clampLoadFactor, effLoad]
    split
    · rename_i ha
      rw [min_eq_right (le_of_lt ha), max_eq_right (by norm_num)]
      exact ⟨rfl, by norm_num, by norm_num, one⟩
    · rename_i ha
      rw [min_eq_left (not_lt.mp ha)]
      split
      · rename_i hb
        rw [max_eq_left hb.le]
        exact ⟨rfl, by norm_num, by norm_num, float32_half⟩
      · rename_i hb
        have hb := not_lt.mp hb
        rw [max_eq_right hb]
        exact ⟨rfl, hb, not_lt.mp ha, hr (by linarith)⟩

theorem clampMult_ok {mu : F32} (h : mu ≠ .nan) : clampMultiplier mu = some (effMult mu) ∧ 6 / 5 ≤ effMult mu ∧ effMult mu ≤ 5 := by
  have e : float32 (6 / 5) = 10066330 / 8388608 := by rw [float32_six_fifths]; norm_num
  cases mu with
  | nan => exact absurd rfl h
  | posInf => exact ⟨rfl, by norm_num [effMult], by norm_num [effMult]⟩
  | negInf => exact ⟨by simp only [clampMultiplier, effMult, e], by norm_num [effMult], by norm_num [effMult]⟩
  | fin q =>
    simp only [clampMultiplier, effMult, e]
    split
    · rename_i ha
      rw [min_eq_right (le_of_lt ha), max_eq_right (by norm_num)]
      exact ⟨rfl, by norm_num, by norm_num⟩
    · rename_i ha
      rw [min_eq_left (not_lt.mp ha)]
      split
      · rename_i hb
        rw [max_eq_left hb.le]
        exact ⟨rfl, by norm_num, by norm_num⟩
      · rename_i hb
        have hb := not_lt.mp hb
        rw [max_eq_right hb]
        exact ⟨rfl, by linarith [show (6 / 5 : ℚ) ≤ 10066330 / 8388608 by norm_num], not_lt.mp ha⟩

theorem clamp_ok {lf mu : F32} (h1 : lf ≠ .nan) (h2 : mu ≠ .nan) (hr : F32.Valid lf) : ClampedTo (effLoad lf) (effMult mu) := by
  obtain ⟨-, a2, a3, a4⟩ := clampLoad_ok h1 hr
  obtain ⟨-, b2, b3⟩ := clampMult_ok h2
  exact ⟨a2, a3, a4, b2, b3⟩

theorem customGrow_none (hc : ClampedTo f m) {s : Int} {len : Nat} (hs : 0 ≤ s) (hl : 0 < len)
    (h : customGrow env (some f) (some m) s len = none) :
    (s : ℚ) < f * len * (1 + 1 / 10 ^ 6) ∧ (len ≤ 2 ^ 24 → (s : ℚ) < f * len) := by
  simp only [customGrow] at h
  split at h
  · simp at h
  rename_i hr
  have hr := not_le.mp hr
  have hl' : (0 : ℚ) < len := by exact_mod_cast hl
  have hf : 0 < f := by linarith [hc.lo]
  have hfl : 0 < f * len := mul_pos hf hl'
  have key : (s : ℚ) < f * len * (1 + 1 / 10 ^ 6) := by
    have h1 := (loadRatio_bounds hs hl).1
    have h2 := mul_lt_mul_of_pos_right hr hl'
    norm_num at h1 ⊢
    linarith
  refine ⟨key, fun h24 => ?_⟩
  by_contra hn
  have hn := not_lt.mp hn
  obtain ⟨n, rfl⟩ := Int.eq_ofNat_of_zero_le hs
  by_cases hsm : n ≤ 2 ^ 24
  · have e : float32 ((n : ℤ) : ℚ) = n := by
      rw [Int.cast_natCast]
      exact float32_nat hsm
    unfold loadRatio at hr
    rw [e, float32_nat h24] at hr
    have : f ≤ (n : ℚ) / len := by
      rw [le_div_iff₀ hl']
      simpa using hn
    have := float32_ge_of hf hc.rep this
    linarith
  · -- more than 2^24 entries in at most 2^24 buckets
    have hx : (2 : ℚ) ^ 24 ≤ float32 ((n : ℤ) : ℚ) := by
      refine float32_ge_of (by norm_num) ?_ ?_
      · have := float32_nat (n := 2 ^ 24) (by omega); push_cast at this; exact this
      · have : 2 ^ 24 ≤ n := by omega
        exact_mod_cast this
    unfold loadRatio at hr
    rw [float32_nat h24] at hr
    have : f ≤ float32 ((n : ℤ) : ℚ) / len := by
      rw [le_div_iff₀ hl']
      have hq : (len : ℚ) ≤ 2 ^ 24 := by exact_mod_cast h24
      have : f * len ≤ 1 * len := mul_le_mul_of_nonneg_right hc.hi hl'.le
      linarith
    have := float32_ge_of hf hc.rep this
    linarith

theorem customGrow_some (hc : ClampedTo f m) {s : Int} {len : Nat} {c : Int} (hs : 0 ≤ s) (hl : 10 ≤ len)
    (h : customGrow env (some f) (some m) s len = some c) :
    f * len * (1 - 1 / 10 ^ 6) ≤ s ∧ (len : ℚ) * m * (1 - 1 / 10 ^ 6) < c + 1 ∧ (c : ℚ) ≤ len * m * (1 + 1 / 10 ^ 6) ∧
      (len + 2 ≤ 2 ^ 24 → (len : Int) + 2 ≤ c) := by
  simp only [customGrow] at h
  split at h
  swap
  · simp at h
  rename_i hr
  simp only [Option.some.injEq] at h
  have hl' : (10 : ℚ) ≤ len := by exact_mod_cast hl
  have hm := hc.mlo
  have hfl : 0 ≤ f * len := mul_nonneg (by linarith [hc.lo]) (by linarith)
  have hlm : 0 ≤ (len : ℚ) * m := mul_nonneg (by linarith) (by linarith)
  have b2 := (loadRatio_bounds hs (by omega : 0 < len)).2
  have h2 := mul_le_mul_of_nonneg_right hr (by linarith : (0 : ℚ) ≤ len)
  obtain ⟨s1, s2⟩ := scaled_bounds (len := len) (k := m) (by linarith)
  have f1 := Int.floor_le (float32 (float32 len * m))
  have f2 := Int.lt_floor_add_one (float32 (float32 len * m))
  have hs' : (0 : ℚ) ≤ s := by exact_mod_cast hs
  refine ⟨?_, ?_, ?_, fun h24 => ?_⟩
  · norm_num at b2 ⊢; linarith
  · rw [h] at f2; norm_num at s1 ⊢; linarith
  · rw [h] at f1; norm_num at s2 ⊢; linarith
  · rw [← h, Int.le_floor]
    push_cast
    rw [float32_nat (by omega : len ≤ 2 ^ 24)]
    have e := float32_nat h24
    push_cast at e
    refine float32_ge_of (by linarith) e ?_
    have := mul_le_mul_of_nonneg_left hm (by linarith : (0 : ℚ) ≤ len)
    linarith

/-- The powers of the multiplier as `float32`. -/
theorem pow_bounds (he : AccuratePow env.pow) (hc : ClampedTo f m) (k : Nat) (hk : k ∈ [2, 4]) :
    m ^ k * (1 - 2 / 10 ^ 7) ≤ float32 (env.pow m k) ∧ float32 (env.pow m k) ≤ m ^ k * (1 + 2 / 10 ^ 7) := by
  have hp : 0 < m ^ k := pow_pos (by linarith [hc.mlo]) _
  obtain ⟨a1, a2⟩ := he m (by linarith [hc.mlo]) hc.mhi k hk
  have h0 : 0 ≤ env.pow m k := le_trans (mul_nonneg hp.le (by norm_num)) a1
  obtain ⟨b1, b2⟩ := float32_bounds h0
  generalize float32 (env.pow m k) = r at *
  generalize env.pow m k = x at *
  generalize m ^ k = y at *
  norm_num at *
  constructor <;> linarith

/-- The threshold for shrinking. -/
theorem threshold_bounds (he : AccuratePow env.pow) (hc : ClampedTo f m) :
    f / m ^ 4 * (1 - 3 / 10 ^ 7) ≤ float32 (f / float32 (env.pow m 4)) ∧
      float32 (f / float32 (env.pow m 4)) ≤ f / m ^ 4 * (1 + 3 / 10 ^ 7) := by
  obtain ⟨a1, a2⟩ := pow_bounds he hc 4 (by simp)
  have hp : 0 < m ^ 4 := pow_pos (by linarith [hc.mlo]) _
  have hf : 0 < f := by linarith [hc.lo]
  generalize float32 (env.pow m 4) = p at *
  generalize m ^ 4 = y at *
  have hpp : 0 < p := lt_of_lt_of_le (mul_pos hp (by norm_num)) a1
  obtain ⟨b1, b2⟩ := float32_bounds (div_nonneg hf.le hpp.le)
  have hz : 0 < f / y := div_pos hf hp
  have e1 : f / p ≤ f / y * (1 + 21 / 10 ^ 8) := by
    rw [div_le_iff₀ hpp]
    have := mul_le_mul_of_nonneg_left a1 (mul_nonneg hz.le (by norm_num : (0 : ℚ) ≤ 1 + 21 / 10 ^ 8))
    refine le_trans ?_ this
    rw [show f / y * (1 + 21 / 10 ^ 8) * (y * (1 - 2 / 10 ^ 7)) = f * ((1 + 21 / 10 ^ 8) * (1 - 2 / 10 ^ 7)) by field_simp]
    norm_num
    linarith
  have e2 : f / y * (1 - 2 / 10 ^ 7) ≤ f / p := by
    rw [le_div_iff₀ hpp]
    have := mul_le_mul_of_nonneg_left a2 (mul_nonneg hz.le (by norm_num : (0 : ℚ) ≤ 1 - 2 / 10 ^ 7))
    refine le_trans this ?_
    rw [show f / y * (1 - 2 / 10 ^ 7) * (y * (1 + 2 / 10 ^ 7)) = f * ((1 - 2 / 10 ^ 7) * (1 + 2 / 10 ^ 7)) by field_simp]
    norm_num
    linarith
  generalize float32 (f / p) = r at *
  generalize f / p = x at *
  generalize f / y = z at *
  norm_num at *
  constructor <;> linarith

theorem customShrink_none (he : AccuratePow env.pow) (hc : ClampedTo f m) {s : Int} {len : Nat} (hs : 0 ≤ s) (hl : 0 < len)
    (h : customShrink env (some f) (some m) s len = none) : f / m ^ 4 * len * (1 - 1 / 10 ^ 6) ≤ s := by
  simp only [customShrink] at h
  split at h
  · simp at h
  rename_i hr
  have hr := not_lt.mp hr
  have hl' : (0 : ℚ) < len := by exact_mod_cast hl
  have hz : 0 ≤ f / m ^ 4 := div_nonneg (by linarith [hc.lo]) (pow_nonneg (by linarith [hc.mlo]) _)
  have b2 := (loadRatio_bounds hs hl).2
  have c1 := (threshold_bounds he hc).1
  have h2 := mul_le_mul_of_nonneg_right (le_trans c1 hr) hl'.le
  have hzl := mul_nonneg hz hl'.le
  have hs' : (0 : ℚ) ≤ s := by exact_mod_cast hs
  rw [mul_right_comm] at h2
  generalize f / m ^ 4 * len = z at *
  norm_num at *
  linarith

theorem customShrink_some (he : AccuratePow env.pow) (hc : ClampedTo f m) {s : Int} {len : Nat} {c : Int} (hs : 0 ≤ s) (hl : 0 < len)
    (h : customShrink env (some f) (some m) s len = some c) :
    (s : ℚ) ≤ f / m ^ 4 * len * (1 + 1 / 10 ^ 6) ∧ (len : ℚ) / m ^ 2 * (1 - 1 / 10 ^ 6) < c + 1 ∧
      (c : ℚ) ≤ len / m ^ 2 * (1 + 1 / 10 ^ 6) := by
  simp only [customShrink] at h
  split at h
  swap
  · simp at h
  rename_i hr
  simp only [Option.some.injEq] at h
  have hl' : (0 : ℚ) < len := by exact_mod_cast hl
  have hz : 0 ≤ f / m ^ 4 := div_nonneg (by linarith [hc.lo]) (pow_nonneg (by linarith [hc.mlo]) _)
  have hs' : (0 : ℚ) ≤ s := by exact_mod_cast hs
  refine ⟨?_, ?_⟩
  · have b1 := (loadRatio_bounds hs hl).1
    have c2 := (threshold_bounds he hc).2
    have h2 := mul_lt_mul_of_pos_right (lt_of_lt_of_le hr c2) hl'
    have hzl := mul_nonneg hz hl'.le
    rw [mul_right_comm] at h2
    generalize f / m ^ 4 * len = z at *
    norm_num at *
    linarith
  · obtain ⟨a1, a2⟩ := pow_bounds he hc 2 (by simp)
    have hy : 0 < m ^ 2 := pow_pos (by linarith [hc.mlo]) _
    have f1 := Int.floor_le (float32 (float32 len / float32 (env.pow m 2)))
    have f2 := Int.lt_floor_add_one (float32 (float32 len / float32 (env.pow m 2)))
    rw [h] at f1 f2
    generalize float32 (env.pow m 2) = p at *
    generalize m ^ 2 = y at *
    have hpp : 0 < p := lt_of_lt_of_le (mul_pos hy (by norm_num)) a1
    obtain ⟨s1, s2⟩ := scaled_bounds (len := len) (k := p⁻¹) (inv_nonneg.mpr hpp.le)
    simp only [← div_eq_mul_inv] at s1 s2
    have hw : 0 < (len : ℚ) / y := div_pos hl' hy
    have e1 : (len : ℚ) / p ≤ len / y * (1 + 21 / 10 ^ 8) := by
      rw [div_le_iff₀ hpp]
      have := mul_le_mul_of_nonneg_left a1 (mul_nonneg hw.le (by norm_num : (0 : ℚ) ≤ 1 + 21 / 10 ^ 8))
      refine le_trans ?_ this
      rw [show (len : ℚ) / y * (1 + 21 / 10 ^ 8) * (y * (1 - 2 / 10 ^ 7)) = len * ((1 + 21 / 10 ^ 8) * (1 - 2 / 10 ^ 7)) by field_simp]
      norm_num
      linarith
    have e2 : (len : ℚ) / y * (1 - 2 / 10 ^ 7) ≤ len / p := by
      rw [le_div_iff₀ hpp]
      have := mul_le_mul_of_nonneg_left a2 (mul_nonneg hw.le (by norm_num : (0 : ℚ) ≤ 1 - 2 / 10 ^ 7))
      refine le_trans this ?_
      rw [show (len : ℚ) / y * (1 - 2 / 10 ^ 7) * (y * (1 + 2 / 10 ^ 7)) = len * ((1 - 2 / 10 ^ 7) * (1 + 2 / 10 ^ 7)) by field_simp]
      norm_num
      linarith
    generalize float32 (float32 (len : ℚ) / p) = r at *
    generalize (len : ℚ) / p = x at *
    generalize (len : ℚ) / y = w at *
    norm_num at *
    constructor <;> linarith

end Poodle
