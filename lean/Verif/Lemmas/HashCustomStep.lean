import Verif.Lemmas.HashCustom

/-
Arithmetic of the resize decisions of a custom hash table: load, space and cost of one call.
-/

namespace Poodle
open Spec

variable {env : FloatEnv} {f m : ℚ}

/-- Load of a table with `s` entries in `c` buckets and load factor `f`. -/
structure CLoad (f : ℚ) (s : Int) (c : Nat) : Prop where
  nonneg : 0 ≤ s
  floor : 10 ≤ c
  load : (s : ℚ) < f * c * (1 + 1 / 10 ^ 6)
  exact : c ≤ 2 ^ 24 → (s : ℚ) < f * c

/-- Not too many buckets. -/
def CSpace (f m : ℚ) (s : Int) (c : Nat) : Prop :=
  c ≤ 10 ∨ (c : ℚ) ≤ m ^ 4 / f * s * (1 + 2 / 10 ^ 6) ∨ (s = 0 ∧ (c : ℚ) ≤ m ^ 2 / f * (1 + 4 / 10 ^ 6))

/-- A potential for the cost of resizing. -/
def cPot (f m : ℚ) (s : Int) (c : Nat) : ℚ :=
  601 / 100 * max 0 (s - f / m * c - 2) + 501 / 100 * max 0 (f / m ^ 3 * c - s)

theorem cPot_nonneg (s : Int) (c : Nat) : 0 ≤ cPot f m s c := by
  unfold cPot
  have := le_max_left 0 ((s : ℚ) - f / m * c - 2)
  have := le_max_left 0 (f / m ^ 3 * c - (s : ℚ))
  linarith

theorem cPot_le {s : Int} {c : Nat} {a b : ℚ} (ha : 0 ≤ a) (hb : 0 ≤ b) (h1 : (s : ℚ) - f / m * c - 2 ≤ a)
    (h2 : f / m ^ 3 * c - (s : ℚ) ≤ b) : cPot f m s c ≤ 601 / 100 * a + 501 / 100 * b := by
  unfold cPot
  have := max_le ha h1
  have := max_le hb h2
  linarith

theorem le_cPot_grow (s : Int) (c : Nat) : 601 / 100 * ((s : ℚ) - f / m * c - 2) ≤ cPot f m s c := by
  unfold cPot
  have := le_max_right 0 ((s : ℚ) - f / m * c - 2)
  have := le_max_left 0 (f / m ^ 3 * c - (s : ℚ))
  linarith

theorem le_cPot_shrink (s : Int) (c : Nat) : 501 / 100 * (f / m ^ 3 * c - (s : ℚ)) ≤ cPot f m s c := by
  unfold cPot
  have := le_max_left 0 ((s : ℚ) - f / m * c - 2)
  have := le_max_right 0 (f / m ^ 3 * c - (s : ℚ))
  linarith

/-- One entry more or less, the same buckets. -/
theorem cPot_step (s s' : Int) (c : Nat) (h : |(s' : ℚ) - s| ≤ 1) : cPot f m s' c ≤ cPot f m s c + 20 := by
  obtain ⟨h1, h2⟩ := abs_le.mp h
  unfold cPot
  have a0 := le_max_left 0 ((s : ℚ) - f / m * c - 2)
  have b0 := le_max_left 0 (f / m ^ 3 * c - (s : ℚ))
  have a1 := le_max_right 0 ((s : ℚ) - f / m * c - 2)
  have b1 := le_max_right 0 (f / m ^ 3 * c - (s : ℚ))
  have a2 : max 0 ((s' : ℚ) - f / m * c - 2) ≤ max 0 ((s : ℚ) - f / m * c - 2) + 1 := max_le (by linarith) (by linarith)
  have b2 : max 0 (f / m ^ 3 * c - (s' : ℚ)) ≤ max 0 (f / m ^ 3 * c - (s : ℚ)) + 1 := max_le (by linarith) (by linarith)
  linarith

theorem div_pow_le (hc : ClampedTo f m) : 0 < f / m ∧ f / m ≤ 5 / 6 ∧ 0 < f / m ^ 3 ∧ f / m ^ 3 ≤ 579 / 1000 := by
  have hf : 0 < f := by linarith [hc.lo]
  have hm : 0 < m := by linarith [hc.mlo]
  have h3 : (6 / 5 : ℚ) ^ 3 ≤ m ^ 3 := pow_le_pow_left₀ (by norm_num) hc.mlo 3
  refine ⟨div_pos hf hm, ?_, div_pos hf (pow_pos hm _), ?_⟩
  · rw [div_le_iff₀ hm]; linarith [hc.hi, hc.mlo]
  · rw [div_le_iff₀ (pow_pos hm _)]
    norm_num at h3
    linarith [hc.hi]

/-- A Put that adds an entry. -/
theorem custom_put (hc : ClampedTo f m) {s : Int} {c c' : Nat} {n : Int} (h : CLoad f s c)
    (hg : customGrow env (some f) (some m) (s + 1) c = some n) (hl : (c' : Int) = max 10 n) :
    CLoad f (s + 1) c' ∧ CSpace f m (s + 1) c' ∧ (((s + 1 : Int) : ℚ)) + cPot f m (s + 1) c' ≤ cPot f m s c + 20 := by
  obtain ⟨h1, h2, h3, h4⟩ := h
  obtain ⟨a1, a2, a3, a4⟩ := customGrow_some hc (by omega) h2 hg
  have hf0 : 0 < f := by linarith [hc.lo]
  have hm0 : 0 < m := by linarith [hc.mlo]
  have hlen : (10 : ℚ) ≤ c := by exact_mod_cast h2
  obtain ⟨q1, q2, q3, q4⟩ := div_pow_le hc
  have hx : f * c * (6 / 5) ≤ f * c * m := mul_le_mul_of_nonneg_left hc.mlo (by positivity)
  have hx0 : 5 ≤ f * c := by nlinarith [hc.lo]
  have hcm : (c : ℚ) * (6 / 5) ≤ c * m := mul_le_mul_of_nonneg_left hc.mlo (by linarith)
  have hn : (c' : Int) = n ∧ 10 ≤ n := by
    have : (10 : Int) ≤ n := by
      have : (10 : ℚ) < n + 1 := by norm_num at a2; linarith
      exact_mod_cast Int.lt_add_one_iff.mp (by exact_mod_cast this)
    omega
  have hn' : (c' : ℚ) = n := by exact_mod_cast hn.1
  push_cast at a1 ⊢
  have hs1 : ((s : ℚ)) + 1 < f * c' ∨ ¬ c + 2 ≤ 2 ^ 24 := by
    by_cases h24 : c + 2 ≤ 2 ^ 24
    · left
      have e := h4 (by omega)
      have e2 : ((c : ℚ) + 2) ≤ c' := by
        rw [hn']
        exact_mod_cast a4 h24
      have := mul_le_mul_of_nonneg_left e2 hf0.le
      have := hc.lo
      linarith
    · exact .inr h24
  have hs2 : ((s : ℚ)) + 1 < f * c' := by
    rcases hs1 with h | h
    · exact h
    · have hbig : (16777215 : ℚ) ≤ c := by exact_mod_cast (by omega : 16777215 ≤ c)
      have e := mul_lt_mul_of_pos_left a2 hf0
      have e3 : f * (c * m * (1 - 1 / 10 ^ 6)) = f * c * m * (1 - 1 / 10 ^ 6) := by ring
      rw [e3] at e
      have hfl := mul_le_mul_of_nonneg_right hc.lo (by linarith : (0 : ℚ) ≤ c)
      have hf1 := hc.hi
      rw [hn']
      norm_num at h3 e
      linarith
  refine ⟨⟨by omega, by omega, ?_, fun _ => ?_⟩, .inr (.inl ?_), ?_⟩
  · push_cast
    norm_num
    linarith
  · push_cast; exact hs2
  · push_cast
    rw [hn']
    have hp : 0 < m ^ 4 / f := div_pos (pow_pos hm0 _) hf0
    have e := mul_le_mul_of_nonneg_left a1 hp.le
    have e2 : m ^ 4 / f * (f * c * (1 - 1 / 10 ^ 6)) = c * m * m ^ 3 * (1 - 1 / 10 ^ 6) := by field_simp
    rw [e2] at e
    have h3' : (6 / 5 : ℚ) ^ 3 ≤ m ^ 3 := pow_le_pow_left₀ (by norm_num) hc.mlo 3
    have e3 := mul_le_mul_of_nonneg_left h3' (by positivity : (0 : ℚ) ≤ c * m)
    norm_num at a3 e e3 ⊢
    linarith
  · -- cost
    have b0 := le_cPot_grow (f := f) (m := m) s c
    have e1 : f / m * c ≤ 5 / 6 * (f * c) := by
      have : f / m * c = f * c / m := by ring
      rw [this, div_le_iff₀ hm0]
      linarith
    have e2 : f * c * (1 - 1 / 10 ^ 6) - 5 / 6 ≤ f / m * c' := by
      have := mul_lt_mul_of_pos_left a2 q1
      have e3 : f / m * (c * m * (1 - 1 / 10 ^ 6)) = f * c * (1 - 1 / 10 ^ 6) := by field_simp
      rw [e3] at this
      rw [hn']
      linarith
    have e4 : f / m ^ 3 * c' ≤ f * c * (1 + 1 / 10 ^ 6) / (144 / 100) := by
      have t := mul_le_mul_of_nonneg_left a3 q3.le
      have e3 : f / m ^ 3 * (c * m * (1 + 1 / 10 ^ 6)) = f * c * (1 + 1 / 10 ^ 6) / m ^ 2 := by field_simp
      rw [e3] at t
      rw [hn']
      refine le_trans t ?_
      have h2' : (6 / 5 : ℚ) ^ 2 ≤ m ^ 2 := pow_le_pow_left₀ (by norm_num) hc.mlo 2
      refine div_le_div_of_nonneg_left (by positivity) (by norm_num) ?_
      norm_num at h2' ⊢
      exact h2'
    have e5 := cPot_le (f := f) (m := m) (s := s + 1) (c := c') (a := 2 / 10 ^ 6 * (f * c)) (b := 0) (by positivity) le_rfl
      (by push_cast; norm_num at h3 e2 ⊢; linarith) (by push_cast; norm_num at e4 a1 ⊢; linarith)
    norm_num at e5 h3 e2 a1 ⊢
    linarith

/-- A Remove that deletes an entry and shrinks the table. -/
theorem custom_remove (he : AccuratePow env.pow) (hc : ClampedTo f m) {s : Int} {c c' : Nat} {n : Int} (hs : 0 ≤ s)
    (h : CLoad f (s + 1) c)
    (hg : customShrink env (some f) (some m) s c = some n) (hl : (c' : Int) = max 10 n) :
    CLoad f s c' ∧ (CSpace f m (s + 1) c → CSpace f m s c') ∧ ((s : ℚ)) + cPot f m s c' ≤ cPot f m (s + 1) c + 20 := by
  obtain ⟨-, h2, h3, h4⟩ := h
  obtain ⟨a1, a2, a3⟩ := customShrink_some he hc hs (by omega) hg
  have hf0 : 0 < f := by linarith [hc.lo]
  have hf1 := hc.hi
  have hm0 : 0 < m := by linarith [hc.mlo]
  have hlen : (10 : ℚ) ≤ c := by exact_mod_cast h2
  obtain ⟨q1, q2, q3, q4⟩ := div_pow_le hc
  have hs0 : (0 : ℚ) ≤ s := by exact_mod_cast hs
  have h2' : (6 / 5 : ℚ) ^ 2 ≤ m ^ 2 := pow_le_pow_left₀ (by norm_num) hc.mlo 2
  have hm2 : 0 < m ^ 2 := pow_pos hm0 2
  have hc10 : (10 : ℚ) ≤ c' := by exact_mod_cast (by omega : 10 ≤ c')
  have hcn : (n : ℚ) ≤ c' := by exact_mod_cast (by omega : n ≤ (c' : Int))
  have hcc : (c' : ℚ) = 10 ∨ (c' : ℚ) = n := by
    rcases max_choice 10 n with e | e
    · left; exact_mod_cast hl.trans e
    · right; exact_mod_cast hl.trans e
  -- y = f * c / m ^ 2, w = f / m ^ 4 * c
  have w1 : f / m ^ 4 * c * (144 / 100) ≤ f * (c / m ^ 2) := by
    have e : f * (c / m ^ 2) = f / m ^ 4 * c * m ^ 2 := by field_simp
    rw [e]
    refine mul_le_mul_of_nonneg_left ?_ (by positivity)
    norm_num at h2' ⊢; exact h2'
  have y0 : 0 < f * (c / m ^ 2) := by positivity
  have y1 := mul_lt_mul_of_pos_left a2 hf0
  have y2 := mul_le_mul_of_nonneg_left hcn hf0.le
  have y3 := mul_le_mul_of_nonneg_left hc10 hf0.le
  rw [← mul_assoc] at y1
  have hload : (s : ℚ) < f * c' := by
    by_cases hy : 10 * f ≤ f * (c / m ^ 2)
    · norm_num at y1 a1 w1 ⊢; linarith
    · have := not_le.mp hy
      norm_num at y1 a1 w1 ⊢; linarith
  refine ⟨⟨hs, by omega, ?_, fun _ => hload⟩, fun hsp => ?_, ?_⟩
  · norm_num; linarith
  · -- space
    rcases hcc with e10 | en
    · left; exact_mod_cast e10.le
    have k0 : 0 < m ^ 2 / f := by positivity
    rcases hsp with hsp | hsp | hsp
    · left
      have hsp' : (c : ℚ) ≤ 10 := by exact_mod_cast hsp
      have : (c : ℚ) / m ^ 2 ≤ 10 / (36 / 25) := div_le_div₀ (by norm_num) hsp' (by norm_num) (by norm_num at h2' ⊢; exact h2')
      have : (c' : ℚ) ≤ 10 := by rw [en]; norm_num at a3 this ⊢; linarith
      exact_mod_cast this
    · push_cast at hsp
      have t : (c' : ℚ) ≤ m ^ 2 / f * (s + 1) * (1 + 2 / 10 ^ 6) * (1 + 1 / 10 ^ 6) := by
        rw [en]
        refine le_trans a3 (mul_le_mul_of_nonneg_right ?_ (by norm_num))
        rw [div_le_iff₀ hm2]
        refine le_trans hsp (le_of_eq ?_)
        field_simp
      have k2 : m ^ 2 / f ≤ 2 * m ^ 2 := by
        rw [div_le_iff₀ hf0]
        nlinarith [hc.lo]
      by_cases hs00 : s = 0
      · right; right
        refine ⟨hs00, ?_⟩
        subst hs00
        norm_num at t ⊢
        linarith
      have ks : m ^ 4 / f * s * (1 + 2 / 10 ^ 6) = m ^ 2 / f * (m ^ 2 * s) * (1 + 2 / 10 ^ 6) := by ring
      have fin1 : ((s : ℚ) + 1) * (1 + 1 / 10 ^ 6) ≤ m ^ 2 * s → (c' : ℚ) ≤ m ^ 4 / f * s * (1 + 2 / 10 ^ 6) := by
        intro hh
        rw [ks]
        have := mul_le_mul_of_nonneg_left hh k0.le
        refine le_trans t ?_
        have := mul_le_mul_of_nonneg_right this (by norm_num : (0 : ℚ) ≤ 1 + 2 / 10 ^ 6)
        refine le_trans (le_of_eq ?_) this
        ring
      by_cases h3s : 3 ≤ s
      · right; left
        refine fin1 ?_
        have : (3 : ℚ) ≤ s := by exact_mod_cast h3s
        have := mul_le_mul_of_nonneg_right h2' hs0
        norm_num at this ⊢
        linarith
      · have : s = 1 ∨ s = 2 := by omega
        rcases this with rfl | rfl
        · by_cases hm' : 2 * (1 + 1 / 10 ^ 6) ≤ m ^ 2
          · right; left
            refine fin1 ?_
            push_cast; linarith
          · left
            have : (c' : ℚ) ≤ 10 := by push_cast at t; norm_num at t hm' ⊢; linarith
            exact_mod_cast this
        · by_cases hm' : 3 / 2 * (1 + 1 / 10 ^ 6) ≤ m ^ 2
          · right; left
            refine fin1 ?_
            push_cast; linarith
          · left
            have : (c' : ℚ) ≤ 10 := by push_cast at t; norm_num at t hm' ⊢; linarith
            exact_mod_cast this
    · omega
  · -- cost
    have b0 := le_cPot_shrink (f := f) (m := m) (s + 1) c
    push_cast at b0
    have bn := cPot_nonneg (f := f) (m := m) (s + 1) c
    have u0 : 0 < f / m ^ 3 * c := by positivity
    have u1 : f / m ^ 4 * c * (6 / 5) ≤ f / m ^ 3 * c := by
      have e : f / m ^ 3 * c = f / m ^ 4 * c * m := by field_simp
      rw [e]
      exact mul_le_mul_of_nonneg_left hc.mlo (by positivity)
    have u2 : f / m ^ 3 * c * (1 - 1 / 10 ^ 6) - 5 / 6 ≤ f / m * c' := by
      have t := mul_lt_mul_of_pos_left a2 q1
      have e : f / m * (c / m ^ 2 * (1 - 1 / 10 ^ 6)) = f / m ^ 3 * c * (1 - 1 / 10 ^ 6) := by field_simp
      rw [e] at t
      have := mul_le_mul_of_nonneg_left hcn q1.le
      linarith
    have p1 : (s : ℚ) - f / m * c' - 2 ≤ 0 := by norm_num at a1 u2 ⊢; linarith
    by_cases hz : f / m ^ 3 * c' - (s : ℚ) ≤ 0
    · have e5 := cPot_le (f := f) (m := m) (s := s) (c := c') le_rfl le_rfl p1 hz
      norm_num at e5 a1 ⊢
      linarith
    · have hz := not_le.mp hz
      have e5 := cPot_le (f := f) (m := m) (s := s) (c := c') le_rfl hz.le p1 le_rfl
      rcases hcc with e10 | en
      · rw [e10] at hz e5
        have := mul_le_mul_of_nonneg_left hlen q3.le
        norm_num at e5 ⊢
        linarith
      · have t := mul_le_mul_of_nonneg_left a3 q3.le
        have e : f / m ^ 3 * (c / m ^ 2 * (1 + 1 / 10 ^ 6)) = f / m ^ 3 * c * (1 + 1 / 10 ^ 6) / m ^ 2 := by field_simp
        have t2 : f / m ^ 3 * c * (1 + 1 / 10 ^ 6) / m ^ 2 ≤ f / m ^ 3 * c * (1 + 1 / 10 ^ 6) / (36 / 25) :=
          div_le_div_of_nonneg_left (by positivity) (by norm_num) (by norm_num at h2' ⊢; exact h2')
        rw [e, ← en] at t
        have t3 := le_trans t t2
        norm_num at e5 t3 a1 ⊢
        linarith

/-- A Remove that deletes an entry without shrinking. -/
theorem custom_keep (he : AccuratePow env.pow) (hc : ClampedTo f m) {s : Int} {c : Nat} (hs : 0 ≤ s) (h : CLoad f (s + 1) c)
    (hg : customShrink env (some f) (some m) s c = none) : CLoad f s c ∧ CSpace f m s c := by
  obtain ⟨-, h2, h3, h4⟩ := h
  have a := customShrink_none he hc hs (by omega) hg
  have hf0 : 0 < f := by linarith [hc.lo]
  have hm0 : 0 < m := by linarith [hc.mlo]
  push_cast at h3 h4
  refine ⟨⟨hs, h2, by linarith, fun h => by have := h4 h; linarith⟩, .inr (.inl ?_)⟩
  have hp : 0 < m ^ 4 / f := by positivity
  have e := mul_le_mul_of_nonneg_left a hp.le
  have e2 : m ^ 4 / f * (f / m ^ 4 * c * (1 - 1 / 10 ^ 6)) = c * (1 - 1 / 10 ^ 6) := by field_simp
  rw [e2] at e
  have hc0 : (0 : ℚ) ≤ c := by positivity
  norm_num at e ⊢
  linarith

/-- A Put that adds an entry without growing. -/
theorem custom_stay (hc : ClampedTo f m) {s : Int} {c : Nat} (h : CLoad f s c)
    (hg : customGrow env (some f) (some m) (s + 1) c = none) : CLoad f (s + 1) c ∧ (CSpace f m s c → CSpace f m (s + 1) c) := by
  obtain ⟨h1, h2, h3, h4⟩ := h
  obtain ⟨a1, a2⟩ := customGrow_none hc (by omega) (by omega) hg
  have hf0 : 0 < f := by linarith [hc.lo]
  have hm0 : 0 < m := by linarith [hc.mlo]
  have hp : 0 < m ^ 4 / f := by positivity
  refine ⟨⟨by omega, h2, a1, a2⟩, ?_⟩
  rintro (h | h | ⟨rfl, h⟩)
  · exact .inl h
  · right; left
    push_cast
    refine le_trans h (mul_le_mul_of_nonneg_right (mul_le_mul_of_nonneg_left (by linarith) hp.le) (by norm_num))
  · right; left
    have h2' : (6 / 5 : ℚ) ^ 2 ≤ m ^ 2 := pow_le_pow_left₀ (by norm_num) hc.mlo 2
    have e : m ^ 4 / f = m ^ 2 / f * m ^ 2 := by ring
    have k0 : 0 < m ^ 2 / f := by positivity
    have := mul_le_mul_of_nonneg_left h2' k0.le
    push_cast
    rw [e]
    norm_num at h this ⊢
    linarith

end Poodle
