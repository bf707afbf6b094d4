import Verif.Props.SortedMap

/-
C25: exactly which calls on a sorted map of byte slice keys panic.
-/

namespace Poodle.Props
open Poodle Poodle.Spec

variable {K V : Type}

/-- The keys whose comparison with `k` panics come directly after `k` in the order. -/
def PanicsNext (ops : KeyOps K) (cmp : K → K → Ordering) (k : K) : Prop :=
  ∀ e a, ops.compare e k = none → cmp k a = .lt → ops.compare a k ≠ none → cmp e a = .lt

/-- The search for a key that is not in the tree meets a key of the tree whose comparison with it panics, if there is one. -/
theorem absent_panics {ops : KeyOps K} {cmp : K → K → Ordering} (hops : LawfulKeys ops cmp) (hg : GuardedKeys ops cmp) {k : K}
    (hn : PanicsNext ops cmp k) (t : Tree K V) (hs : Increasing cmp (entries t)) (habs : ∀ e ∈ entries t, cmp e.1 k ≠ .eq)
    (e : K × V) (he : e ∈ entries t) (hp : ops.compare e.1 k = none) :
    t.getR ops k = none ∧ (∀ v, (t.putR ops k v).2 = none) ∧ (t.removeR ops k).2 = none := by
  have := hops.trans
  induction t with
  | nil => simp [entries] at he
  | node k0 v0 b l r ihl ihr =>
    simp only [entries] at hs habs he
    obtain ⟨hl, hr, hl0, hr0, -⟩ := increasing_append_cons hs
    have heq : ops.equal k0 k = false := by
      have := habs (k0, v0) (by simp)
      rw [← Bool.not_eq_true, hops.equal_iff]
      exact this
    rcases hc : ops.compare k0 k with - | c
    · simp [Tree.getR, Tree.putR, Tree.removeR, heq, hc]
    · have hek : cmp e.1 k = .gt := hg _ _ hp
      have hke : cmp k e.1 = .lt := by rw [Std.OrientedCmp.eq_swap (cmp := cmp), hek]; rfl
      have hsgn := hops.compare_sign _ _ _ hc
      rcases List.mem_append.mp he with hin | hin
      · -- the key is smaller than the one of the node
        have h0 : ¬ c < 0 := by
          rw [hsgn.1]
          intro h1
          have h2 := Std.TransCmp.lt_trans (hl0 e hin) h1
          rw [h2] at hek; simp at hek
        obtain ⟨i1, i2, i3⟩ := ihl hl (fun x hx => habs x (by simp [hx])) hin
        refine ⟨by simp [Tree.getR, heq, hc, h0, i1], fun v => ?_, ?_⟩
        · have := i2 v
          simp only [Tree.putR, heq, hc, h0, Bool.false_eq_true, if_false]
          rcases hq : l.putR ops k v with ⟨t, - | x⟩
          · rfl
          · rw [hq] at this; simp at this
        · simp only [Tree.removeR, heq, hc, h0, Bool.false_eq_true, if_false]
          rcases hq : l.removeR ops k with ⟨t, - | x⟩
          · rfl
          · rw [hq] at i3; simp at i3
      · rcases List.mem_cons.mp hin with rfl | hin
        · simp only at hp; rw [hp] at hc; simp at hc
        have h0 : c < 0 := by
          rw [hsgn.1]
          rcases h1 : cmp k0 k with - | - | -
          · rfl
          · exact absurd h1 (habs (k0, v0) (by simp))
          · have h2 : cmp k k0 = .lt := by rw [Std.OrientedCmp.eq_swap (cmp := cmp), h1]; rfl
            have h3 := hn e.1 k0 hp h2 (by rw [hc]; simp)
            have h4 := Std.TransCmp.lt_trans h3 (hr0 e hin)
            rw [Std.ReflCmp.compare_self (cmp := cmp)] at h4; simp at h4
        obtain ⟨i1, i2, i3⟩ := ihr hr (fun x hx => habs x (by simp [hx])) hin
        refine ⟨by simp [Tree.getR, heq, hc, h0, i1], fun v => ?_, ?_⟩
        · have := i2 v
          simp only [Tree.putR, heq, hc, h0, Bool.false_eq_true, if_false, if_true]
          rcases hq : r.putR ops k v with ⟨t, - | x⟩
          · rfl
          · rw [hq] at this; simp at this
        · simp only [Tree.removeR, heq, hc, h0, Bool.false_eq_true, if_false, if_true]
          rcases hq : r.removeR ops k with ⟨t, - | x⟩
          · rfl
          · rw [hq] at i3; simp at i3

/-- Removing the key of the root does not panic. -/
theorem removeR_root {ops : KeyOps K} {cmp : K → K → Ordering} (hops : LawfulKeys ops cmp) (hg : GuardedKeys ops cmp) (k k0 : K) (v0 : V)
    (b : Int) (l r : Tree K V) (hb : Balanced (.node k0 v0 b l r)) (hs : Increasing cmp (entries (.node k0 v0 b l r)))
    (heq : ops.equal k0 k = true) : (Tree.removeR ops k (.node k0 v0 b l r)).2 ≠ none := by
  have := hops.trans
  have hb' := hb
  obtain ⟨b1, b2, b3, hl, hr⟩ := hb
  simp only [entries] at hs
  have hs' := increasing_append_cons hs
  cases l with
  | nil => simp [Tree.removeR, heq]
  | node lk lv lb ll lr =>
    cases r with
    | nil => simp [Tree.removeR, heq]
    | node rk rv rb rl rr =>
      obtain ⟨⟨hk, hv⟩, A, m1, m2⟩ := rightmost_spec (.node lk lv lb ll lr) (by simp)
      have hself : cmp hk hk = .eq := Std.ReflCmp.compare_self
      have hsl := hs'.1
      rw [m2] at hsl
      have hA := (increasing_append_cons (B := []) hsl).2.2.1
      cases hcc : ops.compare hk hk with
      | none => have := hg hk hk hcc; rw [hself] at this; simp at this
      | some c =>
        have hc0 : ¬ c < 0 := by
          rw [(hops.compare_sign _ _ _ hcc).1, hself]; simp
        rcases removeR_spec hops hk _ hl hs'.1 (fun e _ e' _ h => hg e.1 e'.1 h) with ⟨⟨e, he, hp⟩, -⟩ | ⟨T, done, h1, h2, h3, h4⟩
        · exfalso
          have := hg e.1 hk hp
          rw [m2] at he
          simp at he
          rcases he with he | rfl
          · rw [hA e he] at this; simp at this
          · rw [hself] at this; simp at this
        · obtain ⟨T', done', g1, g2, g3, g4⟩ := removeFinish_false k0 v0 hk hv b (.node lk lv lb ll lr) (.node rk rv rb rl rr) T
            (some (k0, v0)) done hb' h3 h4
          rw [Tree.removeR.eq_def]
          simp only [if_pos heq]
          simp only [m1, hcc, if_neg hc0, h1]
          rw [g1]; simp

/-- The three calls take the same way to the key, so they panic together. -/
theorem same_way {ops : KeyOps K} {cmp : K → K → Ordering} (hops : LawfulKeys ops cmp) (hg : GuardedKeys ops cmp) (k : K) (t : Tree K V)
    (hb : Balanced t) (hs : Increasing cmp (entries t)) :
    (∀ v, (t.putR ops k v).2 = none ↔ t.getR ops k = none) ∧ ((t.removeR ops k).2 = none ↔ t.getR ops k = none) := by
  have := hops.trans
  induction t with
  | nil => simp [Tree.putR, Tree.removeR, Tree.getR]
  | node k0 v0 b l r ihl ihr =>
    by_cases heq : ops.equal k0 k = true
    · have := removeR_root hops hg k k0 v0 b l r hb hs heq
      simp [Tree.putR, Tree.getR, heq, this]
    have hb' := hb
    obtain ⟨b1, b2, b3, hl, hr⟩ := hb
    simp only [entries] at hs
    have hs' := increasing_append_cons hs
    rcases hc : ops.compare k0 k with - | c
    · simp [Tree.putR, Tree.removeR, Tree.getR, heq, hc]
    by_cases h0 : c < 0
    · obtain ⟨i1, i2⟩ := ihr hr hs'.2.1
      constructor
      · intro v
        simp only [Tree.putR, Tree.getR, heq, hc, h0, if_true, Bool.false_eq_true, if_false, Option.map_eq_none_iff]
        rw [← i1 v]
        rcases putR_spec hops k v r hr hs'.2.1 with ⟨-, hp⟩ | ⟨T, done, h1, -, h3, h4⟩
        · simp [hp]
        · obtain ⟨T', done', g1, -⟩ := putFinish_true k0 v0 b l r T (findL cmp k (entries r)) done hb' h3 h4
          rw [h1]; simp [g1]
      · simp only [Tree.removeR, Tree.getR, heq, hc, h0, if_true, Bool.false_eq_true, if_false, Option.map_eq_none_iff]
        rw [← i2]
        rcases removeR_spec hops k r hr hs'.2.1 (fun e _ e' _ h => hg e.1 e'.1 h) with ⟨-, hp⟩ | ⟨T, done, h1, -, h3, h4⟩
        · simp [hp]
        · obtain ⟨T', done', g1, -⟩ := removeFinish_true k0 v0 k0 v0 b l r T (findL cmp k (entries r)) done hb' h3 h4
          rw [h1]; simp [g1]
    · obtain ⟨i1, i2⟩ := ihl hl hs'.1
      constructor
      · intro v
        simp only [Tree.putR, Tree.getR, heq, hc, h0, Bool.false_eq_true, if_false, Option.map_eq_none_iff]
        rw [← i1 v]
        rcases putR_spec hops k v l hl hs'.1 with ⟨-, hp⟩ | ⟨T, done, h1, -, h3, h4⟩
        · simp [hp]
        · obtain ⟨T', done', g1, -⟩ := putFinish_false k0 v0 b l r T (findL cmp k (entries l)) done hb' h3 h4
          rw [h1]; simp [g1]
      · simp only [Tree.removeR, Tree.getR, heq, hc, h0, Bool.false_eq_true, if_false, Option.map_eq_none_iff]
        rw [← i2]
        rcases removeR_spec hops k l hl hs'.1 (fun e _ e' _ h => hg e.1 e'.1 h) with ⟨-, hp⟩ | ⟨T, done, h1, -, h3, h4⟩
        · simp [hp]
        · obtain ⟨T', done', g1, -⟩ := removeFinish_false k0 v0 k0 v0 b l r T (findL cmp k (entries l)) done hb' h3 h4
          rw [h1]; simp [g1]

theorem bytes_panicsNext (k : Bytes) : PanicsNext bytesOps compare k := by
  intro e a hp hlt hn
  rw [bytesOps_compare] at hp hn
  split at hp
  · rename_i h1
    have h2 : ¬ k <+: a := fun h => hn (if_pos ⟨h, by rintro rfl; simp [Std.ReflOrd.compare_self] at hlt⟩)
    obtain ⟨⟨s, rfl⟩, -⟩ := h1
    clear hp hn
    induction k generalizing a with
    | nil => simp at h2
    | cons x k ih =>
      cases a with
      | nil => simp at hlt
      | cons y a =>
        rw [List.cons_append, List.compare_cons_cons] at *
        rcases hxy : compare x y with - | - | -
        · rfl
        · rw [hxy] at hlt
          have : x = y := Std.LawfulEqCmp.compare_eq_iff_eq.mp hxy
          subst this
          simp only [Ordering.then] at hlt ⊢
          exact ih a hlt (fun h => h2 (by simpa using h))
        · rw [hxy] at hlt; simp [Ordering.then] at hlt
  · simp at hp

/-- Which calls on a proper map of byte slices panic. -/
theorem bytes_calls (m : SortedMap Bytes V) (hm : GoodMap compare m) (k : Bytes) :
      (∀ v, (m.put bytesOps k v).2 = none ↔ m.get bytesOps k = none) ∧
      ((m.remove bytesOps k).2 = none ↔ m.get bytesOps k = none) ∧
      (m.get bytesOps k = none → ∃ e, (contents compare m e).isSome ∧ k <+: e ∧ k ≠ e) ∧
      (contents compare m k = none → (∃ e, (contents compare m e).isSome ∧ k <+: e ∧ k ≠ e) → m.get bytesOps k = none) := by
  have := bytesOps_lawful.1.trans
  have hin : ∀ e, (contents compare m e).isSome ↔ ∃ x ∈ entries m.root, x.1 = e := by
    intro e
    unfold contents lookL
    rw [Option.isSome_map, findL_isSome_iff]
    simp only [Std.LawfulEqCmp.compare_eq_iff_eq]
  obtain ⟨w1, w2⟩ := same_way bytesOps_lawful.1 bytesOps_lawful.2 k m.root hm.balanced hm.increasing
  have hget : m.get bytesOps k = none ↔ m.root.getR bytesOps k = none := by simp [SortedMap.get, SortedMap.getNode]
  refine ⟨fun v => ?_, ?_, fun h => ?_, fun hk ⟨e, he, h1, h2⟩ => ?_⟩
  · rw [hget, ← w1 v]
    unfold SortedMap.put SortedMap.putNode
    rcases hroot : m.root with - | ⟨k0, v0, b, l, r⟩
    · simp [Tree.putR]
    · simp only
      rcases Tree.putR bytesOps k v (.node k0 v0 b l r) with ⟨t, - | x⟩ <;> simp
  · rw [hget, ← w2]
    unfold SortedMap.remove SortedMap.removeNode
    rcases m.root.removeR bytesOps k with ⟨t, - | x⟩ <;> simp
  · rcases get_step bytesOps_lawful.1 _ hm k with ⟨⟨e, he, h1⟩, -⟩ | h1
    · rw [bytesOps_compare] at h1
      split at h1
      · rename_i h2
        exact ⟨e.1, (hin _).mpr ⟨e, he, rfl⟩, h2⟩
      · simp at h1
    · rw [h1] at h; simp at h
  · obtain ⟨x, hx, rfl⟩ := (hin e).mp he
    rw [hget]
    refine (absent_panics bytesOps_lawful.1 bytesOps_lawful.2 (bytes_panicsNext k) m.root hm.increasing ?_ x hx ?_).1
    · intro y hy hc
      have : (contents compare m k).isSome := (hin k).mpr ⟨y, hy, Std.LawfulEqCmp.compare_eq_iff_eq.mp hc⟩
      rw [hk] at this; simp at this
    · rw [bytesOps_compare, if_pos ⟨h1, h2⟩]

/-- C25: which calls on a sorted map of non-nil byte slices panic, after any history: a lookup, a store and a removal of the same key panic
together; of a key that is not in the map they panic exactly if a longer key in the map begins with it; of a key that is in the map, only
if a longer one begins with it as well. -/
theorem C25_absent_partial (os : List (MapOp Bytes V)) :
    let m := (runMap bytesOps SortedMap.new os).1
    ∃ f : FMap Bytes V, FMap.Runs compare FMap.empty os (runMap bytesOps SortedMap.new os).2 f ∧ ∀ k,
      (∀ v, (m.put bytesOps k v).2 = none ↔ m.get bytesOps k = none) ∧
      ((m.remove bytesOps k).2 = none ↔ m.get bytesOps k = none) ∧
      (m.get bytesOps k = none → ∃ e, (f e).isSome ∧ k <+: e ∧ k ≠ e) ∧
      (f k = none → (∃ e, (f e).isSome ∧ k <+: e ∧ k ≠ e) → m.get bytesOps k = none) := by
  obtain ⟨hm, hr⟩ := runMap_runs bytesOps_lawful.1 bytesOps_lawful.2 os SortedMap.new new_good
  exact ⟨_, hr, bytes_calls _ hm⟩

example := C25_absent_partial [.put [97] 1, .put [97, 98] 2, .put [98] (3 : Nat)]

/-- Whether a call for a key in the map panics does not follow from the contents: both maps hold 1 under "a" and 2 under "ab". -/
theorem C25_history_refuted : ¬ ∀ os os' : List (MapOp Bytes Nat), entries (runMap bytesOps SortedMap.new os).1.root =
    entries (runMap bytesOps SortedMap.new os').1.root →
    ∀ k, (runMap bytesOps SortedMap.new os).1.get bytesOps k = (runMap bytesOps SortedMap.new os').1.get bytesOps k := by
  intro h
  have := h [.put [97] 1, .put [97, 98] 2] [.put [97] 1, .put [97, 98] 2, .put [97, 98, 99] 3, .remove [97, 98, 99]] (by decide +kernel) [97]
  revert this
  decide +kernel

end Poodle.Props
