import Verif.Props.HashLoad
import Verif.Lemmas.HashCustomStep

/-
Properties C146 to C148: load, space and cost of a hash map created with any capacity, load factor and multiplier
(/repo/src/collection/hash.go:74-101, :119-214, hash_map.go:16-19).
-/

namespace Poodle.Props
open Poodle Poodle.Spec

variable {K V : Type} {ops : HashOps K} {env : FloatEnv} {lf mu : F32}

/-! ### One call -/

/-- What one call does to the sizes, for any resize policy. -/
theorem step_sizes {pol : ResizePolicy} {h h' : HashTab K V} {o : MapOp K V} {rs : List (Option V)} (hc : Counted h)
    (e : runHash ops pol h [o] = some (h', rs)) : Counted h' ∧
      ((h'.size = h.size ∧ h'.array.length = h.array.length) ∨
       (h'.size = h.size + 1 ∧ NewLen (pol.grow (h.size + 1) h.array.length) h.array.length h'.array.length) ∨
       (0 ≤ h'.size ∧ h.size = h'.size + 1 ∧ NewLen (pol.shrink h'.size h.array.length) h.array.length h'.array.length)) := by
  cases o with
  | put k v =>
    simp only [runHash, HashTab.put] at e
    cases hp : h.putNode ops pol k v with
    | none => rw [hp] at e; simp at e
    | some x =>
      rw [hp] at e
      simp only [Option.map_some, Option.some.injEq, Prod.mk.injEq] at e
      rw [← e.1]
      obtain ⟨c1, h1 | h1⟩ := putNode_length hc hp
      · exact ⟨c1, .inl h1⟩
      · exact ⟨c1, .inr (.inl h1)⟩
  | remove k =>
    simp only [runHash, HashTab.remove] at e
    cases hp : h.removeNode ops pol k with
    | none => rw [hp] at e; simp at e
    | some x =>
      rw [hp] at e
      simp only [Option.map_some, Option.some.injEq, Prod.mk.injEq] at e
      rw [← e.1]
      obtain ⟨c1, h1 | ⟨h1, h2⟩⟩ := removeNode_length hc hp
      · exact ⟨c1, .inl h1⟩
      · refine ⟨c1, .inr (.inr ⟨by rw [c1]; omega, by omega, ?_⟩)⟩
        rw [h1]
        exact h2

theorem customPolicy_num (h1 : lf ≠ .nan) (h2 : mu ≠ .nan) (hv : F32.Valid lf) :
    (customPolicy env lf mu).grow = customGrow env (some (effLoad lf)) (some (effMult mu)) ∧
      (customPolicy env lf mu).shrink = customShrink env (some (effLoad lf)) (some (effMult mu)) := by
  simp only [customPolicy, (clampLoad_ok h1 hv).1, (clampMult_ok h2).1, and_self]

/-- The invariants of a custom table, and what one call does to them. -/
structure CStep (f m : ℚ) (h h' : HashTab K V) : Prop where
  counted : Counted h'
  load : CLoad f h'.size h'.array.length
  space : CSpace f m h.size h.array.length → CSpace f m h'.size h'.array.length
  cost : (moved h'.size h.array.length h'.array.length : ℚ) + cPot f m h'.size h'.array.length ≤
    cPot f m h.size h.array.length + 20

theorem cStep_op (he : AccuratePow env.pow) (h1 : lf ≠ .nan) (h2 : mu ≠ .nan) (hv : F32.Valid lf) {h h' : HashTab K V} {o : MapOp K V}
    {rs : List (Option V)} (hc : Counted h) (hl : CLoad (effLoad lf) h.size h.array.length)
    (e : runHash ops (customPolicy env lf mu) h [o] = some (h', rs)) : CStep (effLoad lf) (effMult mu) h h' := by
  have cl := clamp_ok h1 h2 hv
  obtain ⟨pg, ps⟩ := customPolicy_num (env := env) h1 h2 hv
  obtain ⟨c1, ⟨a, b⟩ | ⟨a, b⟩ | ⟨z, a, b⟩⟩ := step_sizes hc e
  · refine ⟨c1, by rw [a, b]; exact hl, by rw [a, b]; exact id, ?_⟩
    rw [a, b, moved, if_pos rfl]
    simp
  · rw [pg] at b
    cases hg : customGrow env (some (effLoad lf)) (some (effMult mu)) (h.size + 1) h.array.length with
    | none =>
      rw [hg] at b
      simp only [NewLen] at b
      obtain ⟨q1, q2⟩ := custom_stay cl hl hg
      refine ⟨c1, by rw [a, b]; exact q1, by rw [a, b]; exact q2, ?_⟩
      rw [a, b, moved, if_pos rfl]
      have := cPot_step (f := effLoad lf) (m := effMult mu) h.size (h.size + 1) h.array.length (by push_cast; simp)
      push_cast at this ⊢
      linarith
    | some n =>
      rw [hg] at b
      simp only [NewLen] at b
      obtain ⟨q1, q2, q3⟩ := custom_put cl hl hg b
      refine ⟨c1, by rw [a]; exact q1, fun _ => by rw [a]; exact q2, ?_⟩
      rw [a]
      refine le_trans ?_ q3
      have : (0 : ℚ) ≤ ((h.size + 1 : Int) : ℚ) := by
        have := hl.nonneg
        exact_mod_cast (by omega : (0 : Int) ≤ h.size + 1)
      unfold moved
      split
      · push_cast at this ⊢; linarith
      · exact le_rfl
  · rw [ps] at b
    rw [a] at hl
    cases hg : customShrink env (some (effLoad lf)) (some (effMult mu)) h'.size h.array.length with
    | none =>
      rw [hg] at b
      simp only [NewLen] at b
      obtain ⟨q1, q2⟩ := custom_keep he cl z hl hg
      refine ⟨c1, by rw [b]; exact q1, fun _ => by rw [b]; exact q2, ?_⟩
      rw [b, moved, if_pos rfl, a]
      have := cPot_step (f := effLoad lf) (m := effMult mu) (h'.size + 1) h'.size h.array.length (by push_cast; simp)
      push_cast at this ⊢
      linarith
    | some n =>
      rw [hg] at b
      simp only [NewLen] at b
      obtain ⟨q1, q2, q3⟩ := custom_remove he cl z hl hg b
      refine ⟨c1, q1, by rw [a]; exact q2, ?_⟩
      rw [a]
      refine le_trans ?_ q3
      have : (0 : ℚ) ≤ (h'.size : ℚ) := by exact_mod_cast z
      unfold moved
      split
      · push_cast; linarith
      · exact le_rfl

theorem cNew (cl : ClampedTo (effLoad lf) (effMult mu)) (cap : Int) :
    CLoad (effLoad lf) (HashTab.new cap : HashTab K V).size (HashTab.new cap : HashTab K V).array.length := by
  have e : (HashTab.new cap : HashTab K V).size = 0 := rfl
  have hl : 10 ≤ (HashTab.new cap : HashTab K V).array.length := by simp only [HashTab.new, List.length_replicate]; split <;> omega
  have hp : (0 : ℚ) < effLoad lf * (HashTab.new cap : HashTab K V).array.length :=
    mul_pos (by linarith [cl.lo]) (by exact_mod_cast (by omega))
  rw [e]
  exact ⟨le_rfl, hl, by push_cast; positivity, fun _ => by push_cast; exact hp⟩

theorem cRun (he : AccuratePow env.pow) (h1 : lf ≠ .nan) (h2 : mu ≠ .nan) (hv : F32.Valid lf) :
    ∀ (os : List (MapOp K V)) (h h' : HashTab K V) (rs : List (Option V)), Counted h →
    CLoad (effLoad lf) h.size h.array.length → runHash ops (customPolicy env lf mu) h os = some (h', rs) →
    Counted h' ∧ CLoad (effLoad lf) h'.size h'.array.length ∧
      (CSpace (effLoad lf) (effMult mu) h.size h.array.length → CSpace (effLoad lf) (effMult mu) h'.size h'.array.length)
  | [], h, h', rs, hc, hl, e => by
    simp only [runHash, Option.some.injEq, Prod.mk.injEq] at e
    rw [← e.1]
    exact ⟨hc, hl, id⟩
  | o :: os, h, h', rs, hc, hl, e => by
    obtain ⟨hm, r, rs', e1, e2, -⟩ := runHash_cons.mp e
    have t := cStep_op he h1 h2 hv hc hl e1
    obtain ⟨a, b, c⟩ := cRun he h1 h2 hv os hm h' rs' t.counted t.load e2
    exact ⟨a, b, fun hs => c (t.space hs)⟩

theorem customShrink_nan (lf : Option ℚ) (s : Int) (len : Nat) : customShrink env lf none s len = none := by
  cases lf <;> rfl

/-! ### C146 The load factor is respected -/

/-- C146, full claim: whatever capacity, load factor and multiplier a hash map is created with, after any history of Put and Remove
its entries per bucket are fewer than the load factor asked for (moved into the range from one half to one), for up to 2^24
buckets. -/
def CustomLoadClaim : Prop :=
  ∀ (K V : Type) (ops : HashOps K) (env : FloatEnv) (lf mu : F32) (cap : Int) (os : List (MapOp K V)) (h : HashTab K V)
    (rs : List (Option V)), AccuratePow env.pow → F32.Valid lf → F32.Valid mu →
    runHash ops (customPolicy env lf mu) (HashTab.new cap) os = some (h, rs) → h.array.length ≤ 2 ^ 24 →
    (h.size : ℚ) < effLoad lf * h.array.length

/-- An environment with exact powers. -/
def exactEnv : FloatEnv := ⟨fun m k => m ^ k, 0⟩

theorem exactEnv_accurate : AccuratePow exactEnv.pow := by
  intro m h1 _ k _
  have : 0 < m ^ k := pow_pos (by linarith) _
  simp only [exactEnv]
  constructor <;> norm_num <;> linarith

/-- C146 fails: with a load factor that is not a number the map never grows. -/
theorem C146_refuted : ¬ CustomLoadClaim := by
  intro h
  have e : (runHash natHash (customPolicy exactEnv .nan .posInf) (HashTab.new 10 : HashTab Nat Nat)
      ((List.range 10).map fun i => .put i i)).map (fun r => (r.1.size, r.1.array.length)) = some (10, 10) := by decide +kernel
  obtain ⟨x, hx, hs⟩ := Option.map_eq_some_iff.mp e
  have := h Nat Nat natHash exactEnv .nan .posInf 10 _ x.1 x.2 exactEnv_accurate trivial trivial hx
  simp only [Prod.mk.injEq] at hs
  rw [hs.1, hs.2] at this
  have := this (by norm_num)
  norm_num [effLoad] at this

/-- C146, the provable part: with a load factor and a multiplier that are numbers (or infinite), the entries per bucket are always
fewer than the load factor asked for, up to a relative error of 10^-6 beyond 2^24 buckets.  Missing: arguments that are not
numbers, for which the claim is false (`C146_nan_loadFactor`, `C146_nan_multiplier`). -/
theorem C146_load_partial (he : AccuratePow env.pow) (h1 : lf ≠ .nan) (h2 : mu ≠ .nan) (hv : F32.Valid lf) (cap : Int)
    (os : List (MapOp K V)) (h : HashTab K V) (rs : List (Option V))
    (hrun : runHash ops (customPolicy env lf mu) (HashTab.new cap) os = some (h, rs)) :
    h.size = h.array.flatten.length ∧ (h.array.length ≤ 2 ^ 24 → (h.size : ℚ) < effLoad lf * h.array.length) ∧
      (h.size : ℚ) < effLoad lf * h.array.length * (1 + 1 / 10 ^ 6) := by
  obtain ⟨a, b, -⟩ := cRun he h1 h2 hv os _ _ _ (tabNew cap).1 (cNew (clamp_ok h1 h2 hv) cap) hrun
  exact ⟨a, b.exact, b.load⟩

example : (runHash natHash (customPolicy exactEnv (.fin 0) (.fin 0)) (HashTab.new 0) ((List.range 9).map fun i => .put i i)).map
    (fun r => (r.1.size, r.1.array.length)) = some (9, 19) := by decide +kernel

/-- C146: with a load factor that is not a number, the number of buckets never changes. -/
theorem C146_nan_loadFactor : ∀ (os : List (MapOp K V)) (h h' : HashTab K V) (rs : List (Option V)), Counted h →
    runHash ops (customPolicy env .nan mu) h os = some (h', rs) → h'.array.length = h.array.length
  | [], h, h', rs, _, e => by
    simp only [runHash, Option.some.injEq, Prod.mk.injEq] at e
    rw [← e.1]
  | o :: os, h, h', rs, hc, e => by
    obtain ⟨hm, r, rs', e1, e2, -⟩ := runHash_cons.mp e
    obtain ⟨c1, t⟩ := step_sizes hc e1
    have := C146_nan_loadFactor os hm h' rs' c1 e2
    rcases t with t | t | t
    · omega
    · have := t.2
      simp only [customPolicy, clampLoadFactor, customGrow, NewLen] at this
      omega
    · have := t.2.2
      simp only [customPolicy, clampLoadFactor, customShrink, NewLen] at this
      omega

example : (runHash natHash (customPolicy exactEnv .nan (.fin 2)) (HashTab.new 12) ((List.range 15).map fun i => .put i i)).map
    (fun r => (r.1.size, r.1.array.length)) = some (15, 12) := by decide +kernel

/-- C146: with a multiplier that is not a number, the map has the initial number of buckets until its load factor is first reached,
and from then on the number that the conversion of a float that is no number to an integer happens to give, or ten. -/
theorem C146_nan_multiplier : ∀ (os : List (MapOp K V)) (h h' : HashTab K V) (rs : List (Option V)), Counted h →
    runHash ops (customPolicy env lf .nan) h os = some (h', rs) →
    h'.array.length = h.array.length ∨ (h'.array.length : Int) = max 10 env.nanInt
  | [], h, h', rs, _, e => by
    simp only [runHash, Option.some.injEq, Prod.mk.injEq] at e
    rw [← e.1]
    exact .inl rfl
  | o :: os, h, h', rs, hc, e => by
    obtain ⟨hm, r, rs', e1, e2, -⟩ := runHash_cons.mp e
    obtain ⟨c1, t⟩ := step_sizes hc e1
    have := C146_nan_multiplier os hm h' rs' c1 e2
    rcases t with t | t | t
    · omega
    · have t := t.2
      simp only [customPolicy, clampMultiplier, customGrow] at t
      split at t
      · simp only [NewLen] at t; omega
      · split at t
        · simp only [NewLen] at t; omega
        · simp only [NewLen] at t; omega
    · have t := t.2.2
      simp only [customPolicy, clampMultiplier, customShrink_nan, NewLen] at t
      omega

example : (runHash natHash (customPolicy exactEnv (.fin 1) .nan) (HashTab.new 20) ((List.range 21).map fun i => .put i i)).map
    (fun r => (r.1.size, r.1.array.length)) = some (21, 10) := by decide +kernel

theorem float32_dyadic {q : ℚ} (h0 : 0 < q) {l : ℤ} (hl : Int.log 2 q = l) (n : ℤ) (h : q = n * 2 ^ (l - 23)) : float32 q = q := by
  have hu : (2 : ℚ) ^ (l - 23) ≠ 0 := (zpow_pos (by norm_num) _).ne'
  unfold float32
  rw [if_neg (not_le.mpr h0), hl]
  have : q / 2 ^ (l - 23) = n := by rw [h]; field_simp
  rw [this, roundEven_intCast]
  exact h.symm

theorem log_two {q : ℚ} (h0 : 0 < q) {l : ℤ} (h1 : (2 : ℚ) ^ l ≤ q) (h2 : q < 2 ^ (l + 1)) : Int.log 2 q = l := by
  have a : l ≤ Int.log 2 q := (Int.zpow_le_iff_le_log (by norm_num) h0).mp (by exact_mod_cast h1)
  have b : Int.log 2 q < l + 1 := (Int.lt_zpow_iff_log_lt (by norm_num) h0).mp (by exact_mod_cast h2)
  omega

/-- C146: the default settings are the ones of C99 to C101. -/
theorem C146_default (h2 : env.pow (3 / 2) 2 = 9 / 4) (h4 : env.pow (3 / 2) 4 = 81 / 16) :
    customPolicy env (.fin (3 / 4)) (.fin (3 / 2)) = floatPolicy := by
  have e2 : float32 (9 / 4) = 9 / 4 :=
    float32_dyadic (by norm_num) (log_two (l := 1) (by norm_num) (by norm_num) (by norm_num)) (9 * 2 ^ 20) (by norm_num)
  have e4 : float32 (81 / 16) = 81 / 16 :=
    float32_dyadic (by norm_num) (log_two (l := 2) (by norm_num) (by norm_num) (by norm_num)) (81 * 2 ^ 17) (by norm_num)
  have c1 : clampLoadFactor (.fin (3 / 4)) = some (3 / 4) := by
    simp only [clampLoadFactor]; rw [if_neg (by norm_num), if_neg (by norm_num)]
  have c2 : clampMultiplier (.fin (3 / 2)) = some (3 / 2) := by
    simp only [clampMultiplier]; rw [if_neg (by norm_num), if_neg (by rw [float32_six_fifths]; norm_num)]
  simp only [customPolicy, floatPolicy, c1, c2, ResizePolicy.mk.injEq]
  constructor
  · funext s len
    simp only [customGrow]
  · funext s len
    simp only [customShrink, h2, h4, e2, e4]

example : exactEnv.pow (3 / 2) 2 = 9 / 4 ∧ exactEnv.pow (3 / 2) 4 = 81 / 16 := by norm_num [exactEnv]

/-! ### C147 Space, and the map itself -/

/-- C147: with a load factor and a multiplier that are numbers, a map created with capacity at most ten has at most ten buckets, or at
most m⁴/f (rounded) buckets per entry, counting an empty map as one entry, where f is the load factor and m the multiplier in effect. -/
theorem C147_space (he : AccuratePow env.pow) (h1 : lf ≠ .nan) (h2 : mu ≠ .nan) (hv : F32.Valid lf) (os : List (MapOp K V))
    (h : HashTab K V) (rs : List (Option V)) (hrun : runHash ops (customPolicy env lf mu) (HashTab.new 10) os = some (h, rs)) :
    (h.array.length : ℚ) ≤ max 10 (effMult mu ^ 4 / effLoad lf * max h.size 1 * (1 + 2 / 10 ^ 6)) := by
  have cl := clamp_ok h1 h2 hv
  obtain ⟨-, b, c⟩ := cRun he h1 h2 hv os _ _ _ (tabNew 10).1 (cNew cl 10) hrun
  have hf0 : 0 < effLoad lf := by linarith [cl.lo]
  have hm0 : 0 < effMult mu := by linarith [cl.mlo]
  have hp : 0 < effMult mu ^ 4 / effLoad lf := by positivity
  rcases c (.inl (by simp [HashTab.new])) with h | h | ⟨h0, h⟩
  · exact le_max_of_le_left (by exact_mod_cast h)
  · refine le_max_of_le_right (le_trans h ?_)
    exact mul_le_mul_of_nonneg_right (mul_le_mul_of_nonneg_left (by push_cast; exact le_max_left _ _) hp.le) (by norm_num)
  · refine le_max_of_le_right (le_trans h ?_)
    rw [h0, max_eq_right (by norm_num)]
    have h2' : (6 / 5 : ℚ) ^ 2 ≤ effMult mu ^ 2 := pow_le_pow_left₀ (by norm_num) cl.mlo 2
    have e : effMult mu ^ 4 / effLoad lf = effMult mu ^ 2 / effLoad lf * effMult mu ^ 2 := by ring
    have k0 : 0 < effMult mu ^ 2 / effLoad lf := by positivity
    have := mul_le_mul_of_nonneg_left h2' k0.le
    rw [e]
    push_cast
    norm_num at this ⊢
    linarith

/-- An empty map may keep fifty buckets. -/
example : (runHash natHash (customPolicy exactEnv (.fin 0) .posInf) (HashTab.new 10)
    (((List.range 125).map fun i => .put i i) ++ ((List.range 125).map .remove))).map
    (fun r => (r.1.size, r.1.array.length)) = some (0, 50) := by decide +kernel

theorem customPolicy_modest (he : AccuratePow env.pow) (hv : F32.Valid lf) (hm : mu ≠ .nan) : Modest (customPolicy env lf mu) (2 ^ 28) := by
  intro s len c h0 hs hlen hc
  by_cases hn : lf = .nan
  · subst hn
    simp [customPolicy, clampLoadFactor, customGrow, customShrink] at hc
  have cl := clamp_ok hn hm hv
  obtain ⟨pg, ps⟩ := customPolicy_num (env := env) hn hm hv
  rw [pg, ps] at hc
  have hlen' : (len : ℚ) < 2 ^ 32 := by exact_mod_cast hlen
  have hs' : (s : ℚ) ≤ 2 ^ 28 := by exact_mod_cast hs
  suffices h : (c : ℚ) < 2 ^ 32 by exact_mod_cast h
  rcases hc with hc | hc
  · by_cases hl : 10 ≤ len
    · obtain ⟨a1, -, a3, -⟩ := customGrow_some cl h0 hl hc
      have e1 := mul_le_mul_of_nonneg_right cl.lo (by positivity : (0 : ℚ) ≤ len)
      have e2 := mul_le_mul_of_nonneg_left cl.mhi (by positivity : (0 : ℚ) ≤ len)
      norm_num at *
      linarith
    · simp only [customGrow] at hc
      split at hc
      · simp only [Option.some.injEq] at hc
        obtain ⟨-, s2⟩ := scaled_bounds (len := len) (k := effMult mu) (by linarith [cl.mlo])
        have f1 := Int.floor_le (float32 (float32 len * effMult mu))
        rw [hc] at f1
        have hl10 : (len : ℚ) ≤ 10 := by exact_mod_cast (by omega : len ≤ 10)
        have e2 := mul_le_mul_of_nonneg_left cl.mhi (by positivity : (0 : ℚ) ≤ len)
        norm_num at s2 ⊢
        linarith
      · simp at hc
  · rcases Nat.eq_zero_or_pos len with rfl | hl
    · have z' : float32 (0 : ℚ) = 0 := by simp [float32]
      simp only [customShrink] at hc
      split at hc
      · simp only [Nat.cast_zero, z', zero_div, Int.floor_zero, Option.some.injEq] at hc
        subst hc
        norm_num
      · simp at hc
    · obtain ⟨-, -, a3⟩ := customShrink_some he cl h0 hl hc
      have h2' : (6 / 5 : ℚ) ^ 2 ≤ effMult mu ^ 2 := pow_le_pow_left₀ (by norm_num) cl.mlo 2
      have : (len : ℚ) / effMult mu ^ 2 ≤ len / (6 / 5) ^ 2 := div_le_div_of_nonneg_left (by positivity) (by norm_num) h2'
      rw [show ((6 / 5 : ℚ)) ^ 2 = 36 / 25 by norm_num] at this
      rw [show (1 + 1 / 10 ^ 6 : ℚ) = 1000001 / 1000000 by norm_num] at a3
      linarith

/-- C147: whatever capacity below 2^32 and load factor it is created with, and any multiplier that is a number, a hash map is a finite
map during its first 268 million calls: no call panics and every result is that of the finite map. -/
theorem C147_map (hl : LawfulHash ops) (he : AccuratePow env.pow) (hv : F32.Valid lf) (hm : mu ≠ .nan) (cap : Int) (hc : cap < 2 ^ 32)
    (os : List (MapOp K V)) (hos : os.length ≤ 2 ^ 28) :
    ∃ h, runHash ops (customPolicy env lf mu) (HashTab.new cap) os = some (h, (runE ops.equal (fun _ => none) os).2) ∧
      (∀ k, h.get ops k = some ((runE ops.equal (fun _ => none) os).1 k)) ∧
      ∃ n : Nat, h.size = n ∧ SizeE ops.equal (runE ops.equal (fun _ => none) os).1 n := by
  refine C28_hashMap_refines hl cap hc os ?_
  intro s len c h0 hs hlen h
  exact customPolicy_modest he hv hm s len c h0 (by push_cast; omega) hlen h

example : ∃ h : HashTab Nat Nat, runHash natHash (customPolicy exactEnv .nan .posInf) (HashTab.new (-3)) [.put 1 2, .put 1 3, .remove 4] =
    some (h, [none, some 2, none]) :=
  ⟨⟨[[], [(1, 3)], [], [], [], [], [], [], [], []], 1⟩, by decide +kernel⟩

/-! ### C148 Cost -/

/-- A history of calls and the number of entries moved by resizing, for any resize policy. -/
def runMovedP (ops : HashOps K) (pol : ResizePolicy) (h : HashTab K V) : List (MapOp K V) → Option (HashTab K V × Int)
  | [] => some (h, 0)
  | o :: os => match runHash ops pol h [o] with
    | none => none
    | some (h1, _) => match runMovedP ops pol h1 os with
      | none => none
      | some (h2, n) => some (h2, moved h1.size h.array.length h1.array.length + n)

/-- Amortisation: an invariant with a non-negative potential that pays for all moves. -/
theorem amortise {pol : ResizePolicy} (I : HashTab K V → Prop) (φ : HashTab K V → ℚ) (hφ : ∀ h, I h → 0 ≤ φ h)
    (hstep : ∀ h h' o rs, I h → runHash ops pol h [o] = some (h', rs) →
      I h' ∧ (moved h'.size h.array.length h'.array.length : ℚ) + φ h' ≤ φ h + 20) :
    ∀ (os : List (MapOp K V)) (h h' : HashTab K V) (n : Int), I h → runMovedP ops pol h os = some (h', n) →
      (n : ℚ) ≤ 20 * os.length + φ h
  | os, h, h', n, hi, e => by
    have key : ∀ (os : List (MapOp K V)) (h h' : HashTab K V) (n : Int), I h → runMovedP ops pol h os = some (h', n) →
        I h' ∧ (n : ℚ) + φ h' ≤ 20 * os.length + φ h := by
      intro os
      induction os with
      | nil =>
        intro h h' n hi e
        simp only [runMovedP, Option.some.injEq, Prod.mk.injEq] at e
        obtain ⟨rfl, rfl⟩ := e
        simpa using hi
      | cons o os ih =>
        intro h h' n hi e
        simp only [runMovedP] at e
        split at e
        · simp at e
        · rename_i h1 r e1
          split at e
          · simp at e
          · rename_i h2 k e2
            simp only [Option.some.injEq, Prod.mk.injEq] at e
            obtain ⟨rfl, rfl⟩ := e
            obtain ⟨i1, s1⟩ := hstep h h1 o r hi e1
            obtain ⟨i2, s2⟩ := ih h1 _ _ i1 e2
            refine ⟨i2, ?_⟩
            rw [List.length_cons]
            push_cast
            linarith
    obtain ⟨i, t⟩ := key os h h' n hi e
    have := hφ h' i
    linarith

/-- C148: resizing costs amortised constant time for every capacity, load factor and multiplier, numbers or not: in any history of
calls the entries moved to a new bucket by all resizes together number at most twenty per call, plus three per bucket of the initial
table. -/
theorem C148_amortised (he : AccuratePow env.pow) (hv : F32.Valid lf) (cap : Int) (os : List (MapOp K V)) (h : HashTab K V) (n : Int)
    (hrun : runMovedP ops (customPolicy env lf mu) (HashTab.new cap) os = some (h, n)) : n ≤ 20 * os.length + 3 * max 10 cap := by
  have hlen : ((HashTab.new cap : HashTab K V).array.length : Int) = max 10 cap := by
    simp only [HashTab.new, List.length_replicate]; split <;> omega
  have hlen' : ((HashTab.new cap : HashTab K V).array.length : ℚ) = ((max 10 cap : Int) : ℚ) := by rw [← hlen]; simp
  have hpos : (0 : ℚ) ≤ ((max 10 cap : Int) : ℚ) := by exact_mod_cast le_trans (by norm_num) (le_max_left 10 cap)
  suffices H : (n : ℚ) ≤ 20 * os.length + 3 * ((max 10 cap : Int) : ℚ) by exact_mod_cast H
  by_cases hn : lf = .nan
  · subst hn
    have := amortise (ops := ops) (pol := customPolicy env .nan mu) (fun h : HashTab K V => Counted h) (fun _ => 0) (fun _ _ => le_rfl)
      (fun h h' o rs hc e => by
        refine ⟨(step_sizes hc e).1, ?_⟩
        have := C146_nan_loadFactor [o] h h' rs hc e
        rw [moved, if_pos this]
        norm_num) os _ h n (tabNew cap).1 hrun
    linarith
  by_cases hm : mu = .nan
  · subst hm
    have := amortise (ops := ops) (pol := customPolicy env lf .nan) (fun h : HashTab K V => Counted h)
      (fun h => if (h.array.length : Int) = max 10 env.nanInt then 0 else (h.size : ℚ)) (fun h hc => by
        split
        · exact le_rfl
        · rw [show h.size = _ from hc]; positivity)
      (fun h h' o rs hc e => by
        obtain ⟨c1, t⟩ := step_sizes hc e
        have hs0 : (0 : ℚ) ≤ h.size := by rw [show h.size = _ from hc]; positivity
        have hs0' : (0 : ℚ) ≤ h'.size := by rw [show h'.size = _ from c1]; positivity
        refine ⟨c1, ?_⟩
        have hsz : (h'.size : ℚ) ≤ h.size + 1 := by
          have : h'.size ≤ h.size + 1 := by omega
          exact_mod_cast this
        have same : h'.array.length = h.array.length →
            (moved h'.size h.array.length h'.array.length : ℚ) +
              (if (h'.array.length : Int) = max 10 env.nanInt then 0 else (h'.size : ℚ)) ≤
            (if (h.array.length : Int) = max 10 env.nanInt then 0 else (h.size : ℚ)) + 20 := by
          intro e
          rw [moved, if_pos e, e]
          split <;> push_cast <;> linarith
        rcases t with t | t | t
        · exact same t.2
        · have t2 := t.2
          have hgrow : (h'.array.length = h.array.length) ∨ ((h'.array.length : Int) = max 10 env.nanInt) := by
            simp only [customPolicy, clampMultiplier, customGrow] at t2
            split at t2
            · exact .inl t2
            · split at t2
              · exact .inr t2
              · exact .inl t2
          rcases hgrow with g | g
          · exact same g
          · by_cases heq : h'.array.length = h.array.length
            · exact same heq
            · rw [moved, if_neg heq, if_pos g, if_neg (by rw [← g]; omega)]
              linarith
        · have t2 := t.2.2
          simp only [customPolicy, clampMultiplier, customShrink_nan, NewLen] at t2
          exact same t2) os _ h n (tabNew cap).1 hrun
    have e0 : (if ((HashTab.new cap : HashTab K V).array.length : Int) = max 10 env.nanInt then (0 : ℚ)
        else ((HashTab.new cap : HashTab K V).size : ℚ)) = 0 := by
      split
      · rfl
      · simp [HashTab.new]
    rw [e0] at this
    linarith
  · have cl := clamp_ok hn hm hv
    have := amortise (ops := ops) (pol := customPolicy env lf mu)
      (fun h : HashTab K V => Counted h ∧ CLoad (effLoad lf) h.size h.array.length)
      (fun h => cPot (effLoad lf) (effMult mu) h.size h.array.length) (fun h _ => cPot_nonneg _ _)
      (fun h h' o rs hi e => by
        have t := cStep_op he hn hm hv hi.1 hi.2 e
        exact ⟨⟨t.counted, t.load⟩, t.cost⟩) os _ h n ⟨(tabNew cap).1, cNew cl cap⟩ hrun
    obtain ⟨q1, q2, q3, q4⟩ := div_pow_le cl
    have e0 : (HashTab.new cap : HashTab K V).size = 0 := rfl
    have p := cPot_le (f := effLoad lf) (m := effMult mu) (s := (HashTab.new cap : HashTab K V).size)
      (c := (HashTab.new cap : HashTab K V).array.length) (a := 0)
      (b := effLoad lf / effMult mu ^ 3 * (HashTab.new cap : HashTab K V).array.length) le_rfl (by positivity)
      (by rw [e0]; push_cast; have : 0 ≤ effLoad lf / effMult mu * ((HashTab.new cap : HashTab K V).array.length : ℚ) := by positivity
          linarith) (by rw [e0]; push_cast; linarith)
    rw [hlen'] at p
    have := mul_le_mul_of_nonneg_right q4 hpos
    linarith

example : (runMovedP natHash (customPolicy exactEnv (.fin 0) (.fin 0)) (HashTab.new 10)
    (((List.range 12).map fun i => .put i i) ++ ((List.range 10).map .remove))).map Prod.snd = some 59 := by decide +kernel

end Poodle.Props
