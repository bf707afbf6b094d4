import Verif.Model.HashFloat
import Mathlib.Tactic.Linarith
import Mathlib.Tactic.NormNum
import Mathlib.Tactic.Ring
import Mathlib.Tactic.FieldSimp
import Mathlib.Tactic.Positivity

namespace Poodle

theorem roundEven_bounds (q : ℚ) : q - 1 / 2 ≤ roundEven q ∧ (roundEven q : ℚ) ≤ q + 1 / 2 := by
  have h1 := Int.floor_le q
  have h2 := Int.lt_floor_add_one q
  unfold roundEven
  split
  · constructor <;> linarith
  · split
    · constructor <;> push_cast <;> linarith
    · split <;> constructor <;> push_cast <;> linarith

theorem le_roundEven {n : ℤ} {q : ℚ} (h : (n : ℚ) ≤ q) : n ≤ roundEven q := by
  have := Int.le_floor.mpr h
  unfold roundEven
  split
  · exact this
  · split
    · omega
    · split <;> omega

theorem roundEven_intCast (n : ℤ) : roundEven (n : ℚ) = n := by
  unfold roundEven
  rw [Int.floor_intCast, if_pos (by norm_num)]

theorem two_pow_log {q : ℚ} (h : 0 < q) : (2 : ℚ) ^ (Int.log 2 q) ≤ q := by
  exact_mod_cast Int.zpow_log_le_self (b := 2) (by norm_num) h

theorem float32_bounds {q : ℚ} (h : 0 ≤ q) : q * (1 - 1 / 2 ^ 24) ≤ float32 q ∧ float32 q ≤ q * (1 + 1 / 2 ^ 24) := by
  rcases h.eq_or_lt with rfl | h
  · simp [float32]
  unfold float32
  rw [if_neg (not_le.mpr h)]
  have hu : (0 : ℚ) < 2 ^ (Int.log 2 q - 23) := zpow_pos (by norm_num) _
  have hl : (2 : ℚ) ^ (Int.log 2 q - 23) * 2 ^ 23 ≤ q := by
    have := two_pow_log h
    have e : (2 : ℚ) ^ (Int.log 2 q) = 2 ^ (Int.log 2 q - 23) * 2 ^ 23 := by
      rw [← zpow_natCast, ← zpow_add₀ (by norm_num)]; congr 1; norm_num
    rw [← e]; exact this
  generalize (2 : ℚ) ^ (Int.log 2 q - 23) = u at *
  obtain ⟨h1, h2⟩ := roundEven_bounds (q / u)
  have e : q / u * u = q := by field_simp
  constructor
  · have : (q / u - 1 / 2) * u ≤ roundEven (q / u) * u := mul_le_mul_of_nonneg_right h1 hu.le
    rw [sub_mul, e] at this
    linarith
  · have : roundEven (q / u) * u ≤ (q / u + 1 / 2) * u := mul_le_mul_of_nonneg_right h2 hu.le
    rw [add_mul, e] at this
    linarith

theorem float32_nat {n : Nat} (h : n ≤ 2 ^ 24) : float32 n = n := by
  rcases Nat.eq_zero_or_pos n with rfl | hn
  · simp [float32]
  have hq : (0 : ℚ) < n := by exact_mod_cast hn
  unfold float32
  rw [if_neg (not_le.mpr hq), Int.log_natCast]
  have hlog : Nat.log 2 n ≤ 24 := by
    calc Nat.log 2 n ≤ Nat.log 2 (2 ^ 24) := Nat.log_mono_right h
      _ = 24 := Nat.log_pow (by norm_num) 24
  have hint : ∃ m : ℤ, (n : ℚ) / 2 ^ ((Nat.log 2 n : ℤ) - 23) = m := by
    by_cases h23 : Nat.log 2 n ≤ 23
    · refine ⟨n * 2 ^ (23 - Nat.log 2 n), ?_⟩
      have e : ((Nat.log 2 n : ℤ) - 23) = -((23 - Nat.log 2 n : ℕ) : ℤ) := by omega
      rw [e, zpow_neg, zpow_natCast, div_inv_eq_mul]
      push_cast
      rfl
    · have h24 : Nat.log 2 n = 24 := by omega
      have h2 : 2 ^ 24 ≤ n := by
        have := Nat.pow_log_le_self 2 (x := n) (by omega)
        rwa [h24] at this
      have : n = 2 ^ 24 := by omega
      refine ⟨2 ^ 23, ?_⟩
      rw [h24, this]
      norm_num
  obtain ⟨m, hm⟩ := hint
  have hu : (2 : ℚ) ^ ((Nat.log 2 n : ℤ) - 23) ≠ 0 := (zpow_pos (by norm_num) _).ne'
  rw [hm, roundEven_intCast, ← hm]
  field_simp

theorem float32_ge {q : ℚ} (h : 3 / 4 ≤ q) : 3 / 4 ≤ float32 q := by
  by_cases h1 : 1 ≤ q
  · have := (float32_bounds (by linarith : (0 : ℚ) ≤ q)).1
    norm_num at this
    linarith
  · have hq : 0 < q := by linarith
    have hlog : Int.log 2 q = -1 := by
      have a : (-1 : ℤ) ≤ Int.log 2 q := (Int.zpow_le_iff_le_log (by norm_num) hq).mp (by norm_num; linarith)
      have b : Int.log 2 q < 0 := (Int.lt_zpow_iff_log_lt (by norm_num) hq).mp (by norm_num; linarith)
      omega
    unfold float32
    rw [if_neg (not_le.mpr hq), hlog]
    have hn : ((3 * 2 ^ 22 : ℤ) : ℚ) ≤ q / 2 ^ ((-1 : ℤ) - 23) := by
      have e : ((-1 : ℤ) - 23) = -((24 : ℕ) : ℤ) := by norm_num
      rw [e, zpow_neg, zpow_natCast, div_inv_eq_mul]
      push_cast
      linarith
    have := le_roundEven hn
    have h2 : ((3 * 2 ^ 22 : ℤ) : ℚ) ≤ (roundEven (q / 2 ^ ((-1 : ℤ) - 23)) : ℚ) := by exact_mod_cast this
    calc (3 / 4 : ℚ) = ((3 * 2 ^ 22 : ℤ) : ℚ) * 2 ^ ((-1 : ℤ) - 23) := by norm_num
      _ ≤ _ := mul_le_mul_of_nonneg_right h2 (by positivity)

theorem loadRatio_bounds {s : Int} {len : Nat} (hs : 0 ≤ s) (hl : 0 < len) :
    (s : ℚ) * (1 - 2 / 10 ^ 7) ≤ loadRatio s len * len ∧ loadRatio s len * len ≤ s * (1 + 2 / 10 ^ 7) := by
  have hs' : (0 : ℚ) ≤ s := by exact_mod_cast hs
  have hl' : (0 : ℚ) < len := by exact_mod_cast hl
  obtain ⟨a1, a2⟩ := float32_bounds hs'
  obtain ⟨b1, b2⟩ := float32_bounds hl'.le
  have hb : 0 < float32 len := by
    refine lt_of_lt_of_le ?_ b1
    exact mul_pos hl' (by norm_num)
  have ha : 0 ≤ float32 s := le_trans (mul_nonneg hs' (by norm_num)) a1
  unfold loadRatio
  obtain ⟨c1, c2⟩ := float32_bounds (div_nonneg ha hb.le)
  generalize float32 (float32 s / float32 len) = r at *
  generalize float32 (s : ℚ) = a at *
  generalize float32 (len : ℚ) = b at *
  have e : a / b * b = a := by field_simp
  have d1 : a * (1 - 1 / 2 ^ 24) ≤ r * b := by
    have := mul_le_mul_of_nonneg_right c1 hb.le
    calc a * (1 - 1 / 2 ^ 24) = a / b * (1 - 1 / 2 ^ 24) * b := by rw [mul_right_comm, e]
      _ ≤ r * b := this
  have d2 : r * b ≤ a * (1 + 1 / 2 ^ 24) := by
    have := mul_le_mul_of_nonneg_right c2 hb.le
    calc r * b ≤ a / b * (1 + 1 / 2 ^ 24) * b := this
      _ = a * (1 + 1 / 2 ^ 24) := by rw [mul_right_comm, e]
  have hr : 0 ≤ r := le_trans (mul_nonneg (div_nonneg ha hb.le) (by norm_num)) c1
  have f1 := mul_le_mul_of_nonneg_left b1 hr
  have f2 := mul_le_mul_of_nonneg_left b2 hr
  constructor
  · have : (s : ℚ) * (1 - 1 / 2 ^ 24) * (1 - 1 / 2 ^ 24) ≤ r * len * (1 + 1 / 2 ^ 24) := by
      calc (s : ℚ) * (1 - 1 / 2 ^ 24) * (1 - 1 / 2 ^ 24) ≤ a * (1 - 1 / 2 ^ 24) := mul_le_mul_of_nonneg_right a1 (by norm_num)
        _ ≤ r * b := d1
        _ ≤ r * (len * (1 + 1 / 2 ^ 24)) := f2
        _ = _ := by ring
    norm_num at this ⊢
    linarith
  · have : r * len * (1 - 1 / 2 ^ 24) ≤ (s : ℚ) * (1 + 1 / 2 ^ 24) * (1 + 1 / 2 ^ 24) := by
      calc r * len * (1 - 1 / 2 ^ 24) = r * (len * (1 - 1 / 2 ^ 24)) := by ring
        _ ≤ r * b := f1
        _ ≤ a * (1 + 1 / 2 ^ 24) := d2
        _ ≤ _ := mul_le_mul_of_nonneg_right a2 (by norm_num)
    norm_num at this ⊢
    linarith

theorem scaled_bounds {len : Nat} {k : ℚ} (hk : 0 ≤ k) :
    (len : ℚ) * k * (1 - 2 / 10 ^ 7) ≤ float32 (float32 len * k) ∧ float32 (float32 len * k) ≤ len * k * (1 + 2 / 10 ^ 7) := by
  have hl' : (0 : ℚ) ≤ len := by exact_mod_cast Nat.zero_le len
  obtain ⟨b1, b2⟩ := float32_bounds hl'
  have hb : 0 ≤ float32 len := le_trans (mul_nonneg hl' (by norm_num)) b1
  obtain ⟨c1, c2⟩ := float32_bounds (mul_nonneg hb hk)
  have hp := mul_nonneg hl' hk
  have g1 := mul_le_mul_of_nonneg_right b1 hk
  have g2 := mul_le_mul_of_nonneg_right b2 hk
  generalize float32 (float32 len * k) = r at *
  generalize float32 (len : ℚ) = b at *
  generalize b * k = x at *
  rw [mul_right_comm] at g1 g2
  generalize (len : ℚ) * k = y at *
  norm_num at *
  constructor <;> linarith

/-- The decisions of `floatPolicy` up to rounding errors. -/
theorem grow_none_bound {s : Int} {len : Nat} (hs : 0 ≤ s) (hl : 0 < len) (h : floatPolicy.grow s len = none) :
    4000000 * s < 3000001 * len := by
  simp only [floatPolicy] at h
  split at h
  · simp at h
  · rename_i hr
    have hl' : (0 : ℚ) < len := by exact_mod_cast hl
    have := (loadRatio_bounds hs hl).1
    have h2 := mul_lt_mul_of_pos_right (not_le.mp hr) hl'
    have : (4000000 * s : ℚ) < 3000001 * len := by norm_num at this; linarith
    exact_mod_cast this

theorem grow_none_exact {s : Int} {len : Nat} (hs : 0 ≤ s) (hl : 0 < len) (hc : len ≤ 2 ^ 24) (h : floatPolicy.grow s len = none) :
    4 * s < 3 * len := by
  by_contra hn
  have hb := grow_none_bound hs hl h
  have hs24 : s ≤ 2 ^ 24 := by omega
  obtain ⟨m, rfl⟩ := Int.eq_ofNat_of_zero_le hs
  simp only [floatPolicy, ge_iff_le, ite_eq_right_iff, reduceCtorEq, imp_false, not_le] at h
  have hl' : (0 : ℚ) < len := by exact_mod_cast hl
  unfold loadRatio at h
  have e : float32 ((m : ℤ) : ℚ) = m := by
    rw [Int.cast_natCast]
    exact float32_nat (by omega)
  have hm : (3 : ℚ) * len ≤ 4 * m := by
    have : 3 * (len : ℤ) ≤ 4 * m := by omega
    exact_mod_cast this
  rw [e, float32_nat hc] at h
  have : (3 / 4 : ℚ) ≤ m / len := by
    rw [le_div_iff₀ hl']
    linarith
  have := float32_ge this
  linarith

theorem grow_some_bound {s : Int} {len : Nat} {c : Int} (hs : 0 ≤ s) (hl : 0 < len) (h : floatPolicy.grow s len = some c) :
    2999999 * len < 4000000 * s ∧ 1499999 * (len : Int) < 1000000 * (c + 1) ∧ 1000000 * c ≤ 1500001 * len := by
  simp only [floatPolicy] at h
  split at h
  · rename_i hr
    simp only [Option.some.injEq] at h
    have hl' : (0 : ℚ) < len := by exact_mod_cast hl
    have b2 := (loadRatio_bounds hs hl).2
    have h2 := mul_le_mul_of_nonneg_right hr hl'.le
    obtain ⟨s1, s2⟩ := scaled_bounds (len := len) (k := 3 / 2) (by norm_num)
    have f1 := Int.floor_le (float32 (float32 len * (3 / 2)))
    have f2 := Int.lt_floor_add_one (float32 (float32 len * (3 / 2)))
    rw [h] at f1 f2
    refine ⟨?_, ?_, ?_⟩
    · have : (2999999 * len : ℚ) < 4000000 * s := by norm_num at b2; linarith
      exact_mod_cast this
    · have : (1499999 * len : ℚ) < 1000000 * (c + 1) := by norm_num at s1; linarith
      exact_mod_cast this
    · have : (1000000 * c : ℚ) ≤ 1500001 * len := by norm_num at s2; linarith
      exact_mod_cast this
  · simp at h

theorem shrink_none_bound {s : Int} {len : Nat} (hs : 0 ≤ s) (hl : 0 < len) (h : floatPolicy.shrink s len = none) :
    3999998 * (len : Int) < 27000000 * s := by
  simp only [floatPolicy] at h
  split at h
  · simp at h
  · rename_i hr
    have hl' : (0 : ℚ) < len := by exact_mod_cast hl
    have b2 := (loadRatio_bounds hs hl).2
    have hr := not_lt.mp hr
    have c1 := (float32_bounds (q := 3 / 4 / (81 / 16)) (by norm_num)).1
    have h2 := mul_le_mul_of_nonneg_right (le_trans c1 hr) hl'.le
    have : (3999998 * len : ℚ) < 27000000 * s := by norm_num at b2 h2; linarith
    exact_mod_cast this

theorem shrink_some_bound {s : Int} {len : Nat} {c : Int} (hs : 0 ≤ s) (hl : 0 < len) (h : floatPolicy.shrink s len = some c) :
    27000000 * s < 4000002 * len ∧ 3999998 * (len : Int) < 9000000 * (c + 1) ∧ 9000000 * c ≤ 4000002 * len := by
  simp only [floatPolicy] at h
  split at h
  · rename_i hr
    simp only [Option.some.injEq] at h
    have hl' : (0 : ℚ) < len := by exact_mod_cast hl
    have b1 := (loadRatio_bounds hs hl).1
    have c2 := (float32_bounds (q := 3 / 4 / (81 / 16)) (by norm_num)).2
    have h2 := mul_lt_mul_of_pos_right (lt_of_lt_of_le hr c2) hl'
    obtain ⟨s1, s2⟩ := scaled_bounds (len := len) (k := (9 / 4)⁻¹) (by norm_num)
    simp only [← div_eq_mul_inv] at s1 s2
    have f1 := Int.floor_le (float32 (float32 len / (9 / 4)))
    have f2 := Int.lt_floor_add_one (float32 (float32 len / (9 / 4)))
    rw [h] at f1 f2
    refine ⟨?_, ?_, ?_⟩
    · have : (27000000 * s : ℚ) < 4000002 * len := by norm_num at b1 h2; linarith
      exact_mod_cast this
    · have : (3999998 * len : ℚ) < 9000000 * (c + 1) := by norm_num at s1; linarith
      exact_mod_cast this
    · have : (9000000 * c : ℚ) ≤ 4000002 * len := by norm_num at s2; linarith
      exact_mod_cast this
  · simp at h

end Poodle
