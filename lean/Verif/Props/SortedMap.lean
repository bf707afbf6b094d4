import Verif.Lemmas.AvlOps
import Verif.Props.Key
import Verif.Props.Slice
import Mathlib.NumberTheory.Real.GoldenRatio
import Mathlib.Analysis.SpecialFunctions.Log.Base

/-
Properties C18, C19, C24, C25, C27: sorted map and sorted set (/repo/src/collection/avl.go, sorted_map.go, sorted_set.go).
-/

namespace Poodle.Props
open Poodle Poodle.Spec

variable {K V : Type}

/-- A history of calls on a `SortedMap`; a panicking call is recovered and its result recorded as `none`. -/
def runMap (ops : KeyOps K) (m : SortedMap K V) : List (MapOp K V) → SortedMap K V × List (Option (Option V))
  | [] => (m, [])
  | .put k v :: os => let (m1, r) := m.put ops k v; let (m2, rs) := runMap ops m1 os; (m2, r :: rs)
  | .remove k :: os => let (m1, r) := m.remove ops k; let (m2, rs) := runMap ops m1 os; (m2, r :: rs)

/-- What is true of every reachable map. -/
structure GoodMap (cmp : K → K → Ordering) (m : SortedMap K V) : Prop where
  balanced : Balanced m.root
  increasing : Increasing cmp (entries m.root)
  size : m.size = (entries m.root).length

/-- The contents. -/
def contents (cmp : K → K → Ordering) (m : SortedMap K V) : FMap K V := lookL cmp (entries m.root)

section
variable {ops : KeyOps K} {cmp : K → K → Ordering}

theorem new_good : GoodMap cmp (SortedMap.new : SortedMap K V) :=
  ⟨trivial, List.Pairwise.nil, rfl⟩

theorem putNode_eq (m : SortedMap K V) (k : K) (v : V) : m.putNode ops k v =
    match m.root.putR ops k v with
    | (t, none) => (⟨t, m.size⟩, none)
    | (t, some (old, _)) => (⟨t, if old.isNone then m.size + 1 else m.size⟩, some old) := by
  unfold SortedMap.putNode
  split
  · rename_i h; simp [h, Tree.putR]
  · rfl

theorem putNode_spec (hops : LawfulKeys ops cmp) (m : SortedMap K V) (hm : GoodMap cmp m) (k : K) (v : V) :
    ((∃ e ∈ entries m.root, ops.compare e.1 k = none) ∧ m.putNode ops k v = (m, none)) ∨
    ∃ m', m.putNode ops k v = (m', some (findL cmp k (entries m.root))) ∧ GoodMap cmp m' ∧
      entries m'.root = insL cmp k v (entries m.root) := by
  have := hops.trans
  rw [putNode_eq]
  rcases putR_spec hops k v m.root hm.balanced hm.increasing with ⟨h1, h2⟩ | ⟨T, done, h1, h2, h3, -⟩
  · left; exact ⟨h1, by rw [h2]⟩
  · right
    rw [h1]
    refine ⟨_, rfl, ⟨h3, by rw [h2]; exact insL_increasing hm.increasing k v, ?_⟩, h2⟩
    simp only
    rw [h2, length_insL hm.increasing, hm.size]
    split <;> simp

/-- Comparisons of keys in the map panic only when the receiver is greater. -/
def GuardedMap (ops : KeyOps K) (cmp : K → K → Ordering) (m : SortedMap K V) : Prop :=
  ∀ e ∈ entries m.root, ∀ e' ∈ entries m.root, ops.compare e.1 e'.1 = none → cmp e.1 e'.1 = .gt

theorem removeNode_local (hops : LawfulKeys ops cmp) (m : SortedMap K V) (hg : GuardedMap ops cmp m) (hm : GoodMap cmp m) (k : K) :
    ((∃ e ∈ entries m.root, ops.compare e.1 k = none) ∧ m.removeNode ops k = (m, none)) ∨
    ∃ m', m.removeNode ops k = (m', some (findL cmp k (entries m.root))) ∧ GoodMap cmp m' ∧
      entries m'.root = remL cmp k (entries m.root) := by
  have := hops.trans
  unfold SortedMap.removeNode
  rcases removeR_spec hops k m.root hm.balanced hm.increasing hg with ⟨h1, h2⟩ | ⟨T, done, h1, h2, h3, -⟩
  · left; exact ⟨h1, by rw [h2]⟩
  · right
    rw [h1]
    refine ⟨_, rfl, ⟨h3, by rw [h2]; exact remL_increasing hm.increasing k, ?_⟩, h2⟩
    simp only
    rw [h2, length_remL hm.increasing, hm.size]

theorem removeNode_spec (hops : LawfulKeys ops cmp) (hg : GuardedKeys ops cmp) (m : SortedMap K V) (hm : GoodMap cmp m) (k : K) :
    ((∃ e ∈ entries m.root, ops.compare e.1 k = none) ∧ m.removeNode ops k = (m, none)) ∨
    ∃ m', m.removeNode ops k = (m', some (findL cmp k (entries m.root))) ∧ GoodMap cmp m' ∧
      entries m'.root = remL cmp k (entries m.root) :=
  removeNode_local hops m (fun _ _ _ _ => hg _ _) hm k

theorem put_step (hops : LawfulKeys ops cmp) (m : SortedMap K V) (hm : GoodMap cmp m) (k : K) (v : V) :
    ((∃ e ∈ entries m.root, ops.compare e.1 k = none) ∧ m.put ops k v = (m, none)) ∨
    ∃ m', m.put ops k v = (m', some (contents cmp m k)) ∧ GoodMap cmp m' ∧
      contents cmp m' = (contents cmp m).put cmp k v := by
  have := hops.trans
  rcases putNode_spec hops m hm k v with ⟨h1, h2⟩ | ⟨m', h1, h2, h3⟩
  · left; exact ⟨h1, by simp [SortedMap.put, h2]⟩
  · right
    exact ⟨m', by simp [SortedMap.put, h1, contents, lookL], h2, by
      unfold contents; rw [h3, lookL_insL hm.increasing]⟩

theorem remove_step (hops : LawfulKeys ops cmp) (hg : GuardedKeys ops cmp) (m : SortedMap K V) (hm : GoodMap cmp m) (k : K) :
    ((∃ e ∈ entries m.root, ops.compare e.1 k = none) ∧ m.remove ops k = (m, none)) ∨
    ∃ m', m.remove ops k = (m', some (contents cmp m k)) ∧ GoodMap cmp m' ∧
      contents cmp m' = (contents cmp m).remove cmp k := by
  have := hops.trans
  rcases removeNode_spec hops hg m hm k with ⟨h1, h2⟩ | ⟨m', h1, h2, h3⟩
  · left; exact ⟨h1, by simp [SortedMap.remove, h2]⟩
  · right
    exact ⟨m', by simp [SortedMap.remove, h1, contents, lookL], h2, by
      unfold contents; rw [h3, lookL_remL hm.increasing]⟩

theorem get_step (hops : LawfulKeys ops cmp) (m : SortedMap K V) (hm : GoodMap cmp m) (k : K) :
    ((∃ e ∈ entries m.root, ops.compare e.1 k = none) ∧ m.get ops k = none) ∨ m.get ops k = some (contents cmp m k) := by
  have := hops.trans
  rcases getR_spec hops k m.root hm.increasing with ⟨h1, h2⟩ | ⟨n, h1, -⟩
  · left; exact ⟨h1, by simp [SortedMap.get, SortedMap.getNode, h2]⟩
  · right; simp [SortedMap.get, SortedMap.getNode, h1, contents, lookL]

theorem runMap_runs (hops : LawfulKeys ops cmp) (hg : GuardedKeys ops cmp) (os : List (MapOp K V)) (m : SortedMap K V)
    (hm : GoodMap cmp m) :
    GoodMap cmp (runMap ops m os).1 ∧
      FMap.Runs cmp (contents cmp m) os (runMap ops m os).2 (contents cmp (runMap ops m os).1) := by
  induction os generalizing m with
  | nil => exact ⟨hm, .nil _⟩
  | cons o os ih =>
    cases o with
    | put k v =>
      simp only [runMap]
      rcases put_step hops m hm k v with ⟨-, h⟩ | ⟨m', h, hm', hc⟩
      · rw [h]; exact ⟨(ih m hm).1, .crash _ _ _ _ _ (ih m hm).2⟩
      · rw [h]
        refine ⟨(ih m' hm').1, .put _ _ _ _ _ _ ?_⟩
        rw [← hc]; exact (ih m' hm').2
    | remove k =>
      simp only [runMap]
      rcases remove_step hops hg m hm k with ⟨-, h⟩ | ⟨m', h, hm', hc⟩
      · rw [h]; exact ⟨(ih m hm).1, .crash _ _ _ _ _ (ih m hm).2⟩
      · rw [h]
        refine ⟨(ih m' hm').1, .remove _ _ _ _ _ ?_⟩
        rw [← hc]; exact (ih m' hm').2

theorem total_guarded (ht : TotalKeys ops) : GuardedKeys ops cmp := fun a b h => absurd h (ht a b)

theorem runMap_total (hops : LawfulKeys ops cmp) (ht : TotalKeys ops) (os : List (MapOp K V)) (m : SortedMap K V)
    (hm : GoodMap cmp m) :
    (runMap ops m os).2 = ((contents cmp m).run cmp os).2.map some ∧
      contents cmp (runMap ops m os).1 = ((contents cmp m).run cmp os).1 := by
  induction os generalizing m with
  | nil => exact ⟨rfl, rfl⟩
  | cons o os ih =>
    cases o with
    | put k v =>
      simp only [runMap, FMap.run]
      rcases put_step hops m hm k v with ⟨⟨e, -, h⟩, -⟩ | ⟨m', h, hm', hc⟩
      · exact absurd h (ht _ _)
      · rw [h, ← hc]
        obtain ⟨h1, h2⟩ := ih m' hm'
        exact ⟨by simp [h1], h2⟩
    | remove k =>
      simp only [runMap, FMap.run]
      rcases remove_step hops (total_guarded ht) m hm k with ⟨⟨e, -, h⟩, -⟩ | ⟨m', h, hm', hc⟩
      · exact absurd h (ht _ _)
      · rw [h, ← hc]
        obtain ⟨h1, h2⟩ := ih m' hm'
        exact ⟨by simp [h1], h2⟩

theorem contents_new : contents cmp (SortedMap.new : SortedMap K V) = FMap.empty := rfl

/-- The integers as keys, used in examples. -/
def intOps : KeyOps Int := ⟨fun a b => a == b, fun a b => some (a - b)⟩

theorem intOps_lawful : LawfulKeys intOps compare ∧ TotalKeys intOps := by
  refine ⟨⟨inferInstance, fun a b => by simp [intOps], fun a b c h => ?_⟩, fun a b => by simp [intOps]⟩
  simp only [intOps, Option.some.injEq] at h
  subst h
  rw [compare_lt_iff_lt, compare_gt_iff_gt]
  omega

theorem intOps_guarded : GuardedKeys intOps compare := fun a b h => by simp [intOps] at h

/-! ### C18 Sorted map behaves as a finite map -/

/-- C18: any history of Put and Remove on a new map returns what a finite map would return (in particular never panics),
and afterwards every Get and the Size are those of that finite map. -/
theorem C18_sortedMap_refines (hops : LawfulKeys ops cmp) (ht : TotalKeys ops) (os : List (MapOp K V)) :
    let m := (runMap ops SortedMap.new os).1
    let f := (FMap.run cmp FMap.empty os).1
    (runMap ops SortedMap.new os).2 = (FMap.run cmp FMap.empty os).2.map some ∧
      (∀ k, m.get ops k = some (f k)) ∧
      ∃ n : Nat, m.size = n ∧ f.HasSize cmp n := by
  obtain ⟨h1, h2⟩ := runMap_total hops ht os SortedMap.new (new_good (cmp := cmp))
  have hm := (runMap_runs hops (total_guarded ht) os SortedMap.new (new_good (cmp := cmp))).1
  rw [contents_new] at h1 h2
  refine ⟨h1, fun k => ?_, _, hm.size, ?_⟩
  · rw [← h2]
    rcases get_step hops _ hm k with ⟨⟨e, -, h⟩, -⟩ | h
    · exact absurd h (ht _ _)
    · exact h
  · rw [← h2]
    have := hops.trans
    exact lookL_hasSize hm.increasing

example := C18_sortedMap_refines intOps_lawful.1 intOps_lawful.2 [.put 1 10, .put 2 20, .put 3 30, .put 2 21, .remove 1]

/-! ### C19 Sorted map stays balanced -/

theorem fib_le_count (t : Tree K V) (h : Balanced t) : Nat.fib (height t + 2) ≤ count t + 1 := by
  induction t with
  | nil => simp [height, count]
  | node k v b l r ihl ihr =>
    obtain ⟨h1, h2, h3, hl, hr⟩ := h
    have il := ihl hl
    have ir := ihr hr
    have e : Nat.fib (height (Tree.node k v b l r) + 2)
        = Nat.fib (max (height l) (height r) + 1) + Nat.fib (max (height l) (height r) + 2) := by
      simp only [height]; exact Nat.fib_add_two
    rw [e]
    simp only [count]
    have hmono : ∀ x y : Nat, x ≤ y → Nat.fib x ≤ Nat.fib y := fun x y hxy => Nat.fib_mono hxy
    rcases Nat.le_total (height l) (height r) with hlr | hlr
    · rw [Nat.max_eq_right hlr]
      have := hmono (height r + 1) (height l + 2) (by omega)
      omega
    · rw [Nat.max_eq_left hlr]
      have := hmono (height l + 1) (height r + 2) (by omega)
      omega

/-- C19: after any history every node is balanced and stores its balance, and the tree is as shallow as an AVL tree must
be: fib(height + 2) is at most the number of entries plus one. -/
theorem C19_sortedMap_balanced (hops : LawfulKeys ops cmp) (ht : TotalKeys ops) (os : List (MapOp K V)) :
    let m := (runMap ops SortedMap.new os).1
    Balanced m.root ∧ (Nat.fib (height m.root + 2) : Int) ≤ m.size + 1 := by
  have hm := (runMap_runs hops (total_guarded ht) os SortedMap.new (new_good (cmp := cmp))).1
  refine ⟨hm.balanced, ?_⟩
  rw [hm.size, entries_length]
  exact_mod_cast fib_le_count _ hm.balanced

example := C19_sortedMap_balanced intOps_lawful.1 intOps_lawful.2 [.put 1 10, .put 2 20, .put 3 30, .put 2 21, .remove 1]

/-- C19: a lookup visits at most `height` nodes, hence the number of visited nodes `n` satisfies
`n ≤ log_phi (size + 1)` = 1.4405 * log2 (size + 1). -/
theorem C19_lookup_cost (hops : LawfulKeys ops cmp) (ht : TotalKeys ops) (os : List (MapOp K V)) (k : K) :
    let m := (runMap ops SortedMap.new os).1
    ∃ r n, m.root.getR ops k = some (r, n) ∧ n ≤ height m.root ∧
      (n : ℝ) ≤ Real.logb Real.goldenRatio ((m.size : ℝ) + 1) := by
  have hm := (runMap_runs hops (total_guarded ht) os SortedMap.new (new_good (cmp := cmp))).1
  have := hops.trans
  obtain ⟨hb, hf⟩ := C19_sortedMap_balanced hops ht os
  rcases getR_spec hops k _ hm.increasing with ⟨⟨e, -, h⟩, -⟩ | ⟨n, h1, h2⟩
  · exact absurd h (ht _ _)
  · refine ⟨_, n, h1, h2, ?_⟩
    have hphi : (1 : ℝ) < Real.goldenRatio := Real.one_lt_goldenRatio
    have hpow : ∀ j : Nat, Real.goldenRatio ^ j ≤ (Nat.fib (j + 2) : ℝ) ∧
        Real.goldenRatio ^ (j + 1) ≤ (Nat.fib (j + 3) : ℝ) := by
      intro j
      induction j with
      | zero =>
        refine ⟨by simp, ?_⟩
        have : Real.goldenRatio < 2 := Real.goldenRatio_lt_two
        have h3 : Nat.fib 3 = 2 := rfl
        simp only [Nat.zero_add, pow_one, h3]; push_cast; linarith
      | succ j ih =>
        refine ⟨ih.2, ?_⟩
        have e : Real.goldenRatio ^ (j + 1 + 1) = Real.goldenRatio ^ j + Real.goldenRatio ^ (j + 1) := by
          have := Real.goldenRatio_sq
          calc Real.goldenRatio ^ (j + 1 + 1) = Real.goldenRatio ^ j * Real.goldenRatio ^ 2 := by ring
            _ = _ := by rw [this]; ring
        have e2 : (Nat.fib (j + 1 + 3) : ℝ) = Nat.fib (j + 2) + Nat.fib (j + 3) := by
          rw [show j + 1 + 3 = (j + 2) + 2 from rfl, Nat.fib_add_two]; push_cast; ring
        rw [e, e2]; linarith [ih.1, ih.2]
    rw [Real.le_logb_iff_rpow_le hphi]
    · rw [Real.rpow_natCast]
      have h3 := (hpow (height (runMap ops SortedMap.new os).1.root)).1
      have h4 : Real.goldenRatio ^ n ≤ Real.goldenRatio ^ (height (runMap ops SortedMap.new os).1.root) :=
        pow_le_pow_right₀ (le_of_lt hphi) h2
      have h5 : ((Nat.fib (height (runMap ops SortedMap.new os).1.root + 2) : Int) : ℝ)
          ≤ (((runMap ops SortedMap.new os).1.size + 1 : Int) : ℝ) := by exact_mod_cast hf
      push_cast at h5
      linarith
    · rw [hm.size]; positivity

example := C19_lookup_cost intOps_lawful.1 intOps_lawful.2 [.put 1 10, .put 2 20, .put 3 30, .put 2 21, .remove 1] 3

/-! ### C24 A panicking comparison does not corrupt the sorted map -/

/-- C24: if comparisons may panic, but only when the receiver is greater than the argument, then in any history each call
either panics and leaves the map *exactly* as it was, or does what a finite map does; the tree stays sorted and balanced
throughout, the size is right, and lookups return the right value or panic. -/
theorem C24_panic_safety (hops : LawfulKeys ops cmp) (hg : GuardedKeys ops cmp) (os : List (MapOp K V)) :
    let m := (runMap ops SortedMap.new os).1
    ∃ f : FMap K V, FMap.Runs cmp FMap.empty os (runMap ops SortedMap.new os).2 f ∧
      Balanced m.root ∧ Increasing cmp (entries m.root) ∧
      (∀ k, m.get ops k = none ∨ m.get ops k = some (f k)) ∧
      (∃ n : Nat, m.size = n ∧ f.HasSize cmp n) ∧
      (∀ k v, (m.put ops k v).2 = none → (m.put ops k v).1 = m) ∧
      (∀ k, (m.remove ops k).2 = none → (m.remove ops k).1 = m) := by
  obtain ⟨hm, hr⟩ := runMap_runs hops hg os SortedMap.new (new_good (cmp := cmp))
  have := hops.trans
  refine ⟨_, hr, hm.balanced, hm.increasing, fun k => ?_, ⟨_, hm.size, lookL_hasSize hm.increasing⟩, fun k v h => ?_, fun k h => ?_⟩
  · rcases get_step hops _ hm k with ⟨-, h⟩ | h
    · exact .inl h
    · exact .inr h
  · rcases put_step hops _ hm k v with ⟨-, h'⟩ | ⟨m', h', -, -⟩
    · rw [h']
    · rw [h'] at h; simp at h
  · rcases remove_step hops hg _ hm k with ⟨-, h'⟩ | ⟨m', h', -, -⟩
    · rw [h']
    · rw [h'] at h; simp at h

end

/-- The composite keys of the repository as sorted map keys, /repo/src/util/key_util.go:264-316, :470-522. -/
def compositeKeyOps : KeyOps KeyObj where
  equal a b := (a.equal? b).getD false
  compare a b := match a.compare b with
    | .ok c => some c
    | _ => none

/-- The order of composite keys: lexicographic on the sub keys. -/
def compositeCmp (a b : KeyObj) : Ordering := compare a.subKeys b.subKeys

instance : Std.TransCmp compositeCmp where
  eq_swap := Std.OrientedCmp.eq_swap (cmp := (compare : List Slice → List Slice → Ordering))
  isLE_trans := Std.TransCmp.isLE_trans (cmp := (compare : List Slice → List Slice → Ordering))

theorem ordInt_sign (o : Ordering) : (ordInt o < 0 ↔ o = .lt) ∧ (0 < ordInt o ↔ o = .gt) := by
  cases o <;> simp [ordInt]

/-- C24 applies to composite keys: their comparison is lawful where it returns and panics only if the receiver is greater. -/
theorem C24_composite_keys : LawfulKeys compositeKeyOps compositeCmp ∧ GuardedKeys compositeKeyOps compositeCmp := by
  refine ⟨⟨inferInstance, fun a b => ?_, fun a b c h => ?_⟩, fun a b h => ?_⟩
  · simp only [compositeKeyOps, KeyObj.equal?_eq, compositeCmp]
    simp
  · simp only [compositeKeyOps] at h
    have hnp : a.compare b ≠ .panic := fun hc => by rw [hc] at h; simp at h
    rw [C13_key_compare_lexicographic_partial a b hnp] at h
    simp only [Option.some.injEq] at h
    subst h
    exact ordInt_sign _
  · simp only [compositeKeyOps] at h
    rcases hc : a.compare b with c | - | -
    · rw [hc] at h; simp at h
    · rw [KeyObj.compare_eq] at hc; exact absurd hc (keyCmpRec_not_err _ _)
    · exact (C13_key_compare_panics_only_greater_partial a b hc).1

/-- C24: the hypotheses of `C24_panic_safety`. -/
example := C24_panic_safety C24_composite_keys.1 C24_composite_keys.2
  [.put (.key (newSimpleKey (some [97, 98]))) 1, .put (.key (newSimpleKey (some [97]))) 2, .remove (.key (newSimpleKey (some [97, 98])))]

/-- The hypothesis is needed: with a comparison that panics on smaller receivers, a recovered panic in Remove leaves a map
that contains one key twice and has lost another.  (Keys 2, 3, 4, 5; comparing 2 with 3 panics; remove 4.) -/
theorem C24_unguarded_corrupts : ∃ ops : KeyOps Int, LawfulKeys ops compare ∧
    ∃ m : SortedMap Int Int, GoodMap compare m ∧ (m.remove ops 4).2 = none ∧
      ((m.remove ops 4).1.root).getR ⟨fun a b => a == b, fun a b => some (a - b)⟩ 4 ≠
        (m.root).getR ⟨fun a b => a == b, fun a b => some (a - b)⟩ 4 := by
  refine ⟨⟨fun a b => a == b, fun a b => if a = 2 ∧ b = 3 then none else some (a - b)⟩,
    ⟨inferInstance, fun a b => by simp, fun a b c h => ?_⟩,
    ⟨.node 4 4 (-1) (.node 2 2 1 .nil (.node 3 3 0 .nil .nil)) (.node 5 5 0 .nil .nil), 4⟩,
    ⟨by simp [Balanced, height], by simp [Increasing, entries]; decide, rfl⟩, by decide +kernel, by decide +kernel⟩
  simp only at h
  split at h
  · simp at h
  · simp only [Option.some.injEq] at h
    subst h
    rw [compare_lt_iff_lt, compare_gt_iff_gt]
    omega

example : ((runMap intOps SortedMap.new [.put 1 10, .put 2 20, .put 3 30, .put 2 21, .remove 1]).1 : SortedMap Int Int)
    = ⟨.node 2 21 1 .nil (.node 3 30 0 .nil .nil), 2⟩ := by decide +kernel

/-! ### C25 Sorted map over byte slice keys -/

/-- `ComparableByteSlice` as a sorted map key, /repo/src/collection/comparable.go:120-161. -/
def byteSliceOps : KeyOps Slice where
  equal := comparableByteSliceEqual
  compare a b := match comparableByteSliceCompare a b with
    | .ok c => some c
    | _ => none

/-- The full claim C25 (false of the code). -/
def ByteSliceMapIsFiniteMap : Prop :=
  ∀ (V : Type) (os : List (MapOp Slice V)),
    (runMap byteSliceOps SortedMap.new os).2 = (FMap.run compare FMap.empty os).2.map some ∧
      ∀ k, ((runMap byteSliceOps SortedMap.new os).1).get byteSliceOps k = some ((FMap.run compare FMap.empty os).1 k)

/-- C25 is false: putting "ab" and then "a" panics. -/
theorem C25_refuted : ¬ ByteSliceMapIsFiniteMap := by
  intro h
  have := (h Unit [.put (some [97, 98]) (), .put (some [97]) ()]).1
  have h2 : (runMap byteSliceOps (SortedMap.new : SortedMap Slice Unit) [.put (some [97, 98]) (), .put (some [97]) ()]).2
      = [some none, none] := by decide +kernel
  rw [h2] at this
  simp [FMap.run] at this

/-- C25 is false in a second way: with the nil slice among the keys, Remove can lose the removed key's place and leave the
nil key twice (keys nil, "a", "b"; remove "a"). -/
theorem C25_nil_key_refuted : ∃ os : List (MapOp Slice Nat), (∀ r ∈ (runMap byteSliceOps SortedMap.new os).2, r ≠ none) ∧
    (entries (runMap byteSliceOps SortedMap.new os).1.root).map Prod.fst = [none, none, some [98]] ∧
    (runMap byteSliceOps SortedMap.new os).1.size = 2 :=
  ⟨[.put (some [97]) 1, .put none 0, .put (some [98]) 2, .remove (some [97])], by decide +kernel, by decide +kernel,
    by decide +kernel⟩

/-- Non-nil byte slices as keys (the same code, restricted to non-nil slices). -/
def bytesOps : KeyOps Bytes where
  equal a b := byteSliceOps.equal (some a) (some b)
  compare a b := byteSliceOps.compare (some a) (some b)

theorem bytesOps_compare (a b : Bytes) : bytesOps.compare a b =
    if b <+: a ∧ b ≠ a then none else some (ordInt (compare a b)) := by
  have e : bytesOps.compare a b = match compareByteSlice (some a) (some b) with
    | .ok c => some c
    | _ => none := rfl
  rw [e]
  by_cases h : b <+: a ∧ b ≠ a
  · rw [if_pos h, (C17_compare_panics_iff_partial (some a) (some b)).mpr ⟨a, b, rfl, rfl, h⟩]
  · rw [if_neg h, C17_compare_lexicographic_partial (some a) (some b)]
    · rfl
    · rintro ⟨x, y, hx, hy, h'⟩
      cases hx; cases hy
      exact h h'

theorem bytesOps_equal (a b : Bytes) : bytesOps.equal a b = true ↔ a = b := by
  show comparableByteSliceEqual (some a) (some b) = true ↔ a = b
  unfold comparableByteSliceEqual
  split
  · rename_i h
    simp only [Bool.false_eq_true, false_iff]
    rintro rfl; exact h rfl
  · rw [equalByteSlice_iff]; simp

theorem bytesOps_lawful : LawfulKeys bytesOps compare ∧ GuardedKeys bytesOps compare := by
  refine ⟨⟨inferInstanceAs (Std.TransOrd Bytes), fun a b => ?_, fun a b c h => ?_⟩, fun a b h => ?_⟩
  · rw [bytesOps_equal, Std.LawfulEqCmp.compare_eq_iff_eq]
  · rw [bytesOps_compare] at h
    split at h
    · simp at h
    · simp only [Option.some.injEq] at h; subst h; exact ordInt_sign _
  · rw [bytesOps_compare] at h
    split at h
    · rename_i h1
      obtain ⟨⟨t, rfl⟩, hne⟩ := h1
      have ht : t ≠ [] := fun hc => hne (by simp [hc])
      clear hne h
      induction b with
      | nil =>
        cases t with
        | nil => exact absurd rfl ht
        | cons => rfl
      | cons x b ih =>
        rw [List.cons_append, List.compare_cons_cons, Std.ReflOrd.compare_self]
        exact ih
    · simp at h

/-- The keys touched by a history. -/
def opKey : MapOp K V → K
  | .put k _ => k
  | .remove k => k

theorem runs_keys {cmp : K → K → Ordering} [Std.TransCmp cmp] {ops : KeyOps K} (hops : LawfulKeys ops cmp) (P : K → Prop)
    (os : List (MapOp K V)) (hos : ∀ o ∈ os, P (opKey o)) (hP : ∀ a b, P a → P b → ops.compare a b ≠ none)
    (m : SortedMap K V) (hm : GoodMap cmp m) (hmP : ∀ e ∈ entries m.root, P e.1) :
    (runMap ops m os).2 = ((contents cmp m).run cmp os).2.map some ∧
      contents cmp (runMap ops m os).1 = ((contents cmp m).run cmp os).1 ∧ GoodMap cmp (runMap ops m os).1 ∧
      ∀ e ∈ entries (runMap ops m os).1.root, P e.1 := by
  induction os generalizing m with
  | nil => exact ⟨rfl, rfl, hm, hmP⟩
  | cons o os ih =>
    have hos' : ∀ o ∈ os, P (opKey o) := fun o ho => hos o (by simp [ho])
    have ho := hos o (by simp)
    cases o with
    | put k v =>
      simp only [runMap, FMap.run]
      rcases putNode_spec hops m hm k v with ⟨⟨e, he, h⟩, -⟩ | ⟨m', h, hm', hc⟩
      · exact absurd h (hP _ _ (hmP e he) ho)
      · have hput : m.put ops k v = (m', some (contents cmp m k)) := by simp [SortedMap.put, h, contents, lookL]
        have hcc : contents cmp m' = (contents cmp m).put cmp k v := by
          unfold contents; rw [hc, lookL_insL hm.increasing]
        rw [hput, ← hcc]
        obtain ⟨h1, h2, h3⟩ := ih hos' m' hm' (by
          rw [hc]
          intro e he
          simp only [insL, List.mem_append, List.mem_cons, List.mem_filter] at he
          rcases he with he | rfl | he
          · exact hmP e he.1
          · exact ho
          · exact hmP e he.1)
        exact ⟨by simp [h1], h2, h3⟩
    | remove k =>
      simp only [runMap, FMap.run]
      rcases removeNode_local hops m (fun e he e' he' h => absurd h (hP _ _ (hmP e he) (hmP e' he'))) hm k with
        ⟨⟨e, he, h⟩, -⟩ | ⟨m', h, hm', hc⟩
      · exact absurd h (hP _ _ (hmP e he) ho)
      · have hput : m.remove ops k = (m', some (contents cmp m k)) := by simp [SortedMap.remove, h, contents, lookL]
        have hcc : contents cmp m' = (contents cmp m).remove cmp k := by
          unfold contents; rw [hc, lookL_remL hm.increasing]
        rw [hput, ← hcc]
        obtain ⟨h1, h2, h3⟩ := ih hos' m' hm' (by
          rw [hc]
          intro e he
          simp only [remL, List.mem_filter] at he
          exact hmP e he.1)
        exact ⟨by simp [h1], h2, h3⟩

/-- C25 for non-nil, prefix free key sets: if no key used is a strict prefix of another one used, the map behaves as a
finite map and nothing panics. -/
theorem C25_prefix_free_partial (P : Bytes → Prop) (hP : ∀ a b, P a → P b → b <+: a → b = a)
    (os : List (MapOp Bytes V)) (hos : ∀ o ∈ os, P (opKey o)) :
    (runMap bytesOps SortedMap.new os).2 = (FMap.run compare FMap.empty os).2.map some ∧
      ∀ k, P k → ((runMap bytesOps SortedMap.new os).1).get bytesOps k = some ((FMap.run compare FMap.empty os).1 k) := by
  have hP' : ∀ a b, P a → P b → bytesOps.compare a b ≠ none := by
    intro a b ha hb
    rw [bytesOps_compare, if_neg (fun h => h.2 (hP a b ha hb h.1))]; simp
  have := bytesOps_lawful.1.trans
  obtain ⟨h1, h2, h3, h4⟩ := runs_keys (cmp := compare) bytesOps_lawful.1 P os hos hP' SortedMap.new new_good
    (by simp [SortedMap.new, entries])
  refine ⟨h1, fun k hk => ?_⟩
  rcases get_step bytesOps_lawful.1 _ h3 k with ⟨⟨e, he, h⟩, -⟩ | h
  · exact absurd h (hP' _ _ (h4 e he) hk)
  · rw [h, h2]; rfl

example := C25_prefix_free_partial (fun b => b.length = 2) (fun a b ha hb h => h.eq_of_length (by rw [ha, hb]))
  [.put [97, 98] 1, .put [97, 97] 2, .remove [97, 98]] (by decide)

/-- C25 for arbitrary non-nil byte slice keys: a call panics only if its key is a strict prefix of a key in the map, and then
it changes nothing (see C24); otherwise the map behaves as a finite map. -/
theorem C25_nonnil_partial (os : List (MapOp Bytes V)) :
    let m := (runMap bytesOps SortedMap.new os).1
    ∃ f : FMap Bytes V, FMap.Runs compare FMap.empty os (runMap bytesOps SortedMap.new os).2 f ∧
      (∀ k, m.get bytesOps k = some (f k) ∨ m.get bytesOps k = none ∧ ∃ e, (f e).isSome ∧ k <+: e ∧ k ≠ e) ∧
      (∀ k v, (m.put bytesOps k v).2 = some (f k) ∨
        (m.put bytesOps k v) = (m, none) ∧ ∃ e, (f e).isSome ∧ k <+: e ∧ k ≠ e) ∧
      (∀ k, (m.remove bytesOps k).2 = some (f k) ∨
        (m.remove bytesOps k) = (m, none) ∧ ∃ e, (f e).isSome ∧ k <+: e ∧ k ≠ e) := by
  have := bytesOps_lawful.1.trans
  obtain ⟨hm, hr⟩ := runMap_runs bytesOps_lawful.1 bytesOps_lawful.2 os SortedMap.new new_good
  have key : ∀ k, (∃ e ∈ entries (runMap bytesOps (SortedMap.new : SortedMap Bytes V) os).1.root, bytesOps.compare e.1 k = none) →
      ∃ e, (contents compare (runMap bytesOps (SortedMap.new : SortedMap Bytes V) os).1 e).isSome ∧ k <+: e ∧ k ≠ e := by
    rintro k ⟨e, he, h⟩
    rw [bytesOps_compare] at h
    split at h
    · rename_i h1
      refine ⟨e.1, ?_, h1⟩
      unfold contents lookL
      rw [Option.isSome_map, findL_isSome_iff]
      exact ⟨e, he, Std.ReflCmp.compare_self⟩
    · simp at h
  refine ⟨_, hr, fun k => ?_, fun k v => ?_, fun k => ?_⟩
  · rcases get_step bytesOps_lawful.1 _ hm k with ⟨h1, h⟩ | h
    · exact .inr ⟨h, key k h1⟩
    · exact .inl h
  · rcases put_step bytesOps_lawful.1 _ hm k v with ⟨h1, h⟩ | ⟨m', h, -⟩
    · exact .inr ⟨h, key k h1⟩
    · left; rw [h]
  · rcases remove_step bytesOps_lawful.1 bytesOps_lawful.2 _ hm k with ⟨h1, h⟩ | ⟨m', h, -⟩
    · exact .inr ⟨h, key k h1⟩
    · left; rw [h]

example : (runMap bytesOps SortedMap.new [.put [97, 98] 1, .put [97] 2, .put [98] 3, .remove [97, 98]]).2
    = [some none, none, some none, some (some (1 : Nat))] := by decide +kernel

/-! ### C27 Sorted set behaves as a finite set -/

/-- Calls on a set. -/
inductive SetOp (K : Type) where
  | put (k : K)
  | remove (k : K)

/-- A history of calls on a `SortedSet`. -/
def runSet (ops : KeyOps K) (m : SortedMap K Unit) : List (SetOp K) → SortedMap K Unit × List (Option (Option K))
  | [] => (m, [])
  | .put k :: os => let (m1, r) := m.setPut ops k; let (m2, rs) := runSet ops m1 os; (m2, r :: rs)
  | .remove k :: os => let (m1, r) := m.setRemove ops k; let (m2, rs) := runSet ops m1 os; (m2, r :: rs)

/-- The mathematical set after a history, with the membership of the key before each call. -/
def setRun (cmp : K → K → Ordering) (s : K → Prop) : List (SetOp K) → (K → Prop) × List Prop
  | [] => (s, [])
  | .put k :: os => let (s', rs) := setRun cmp (fun x => cmp x k = .eq ∨ s x) os; (s', s k :: rs)
  | .remove k :: os => let (s', rs) := setRun cmp (fun x => cmp x k ≠ .eq ∧ s x) os; (s', s k :: rs)

theorem runSet_spec {ops : KeyOps K} {cmp : K → K → Ordering} (hops : LawfulKeys ops cmp) (ht : TotalKeys ops)
    (os : List (SetOp K)) (m : SortedMap K Unit) (hm : GoodMap cmp m) :
    let s := fun k => (contents cmp m k).isSome = true
    GoodMap cmp (runSet ops m os).1 ∧
      (fun k => (contents cmp (runSet ops m os).1 k).isSome = true) = (setRun cmp s os).1 ∧
      (runSet ops m os).2.map (fun r => ∃ k, r = some (some k)) = (setRun cmp s os).2 ∧
      ∀ r ∈ (runSet ops m os).2, r ≠ none := by
  have := hops.trans
  induction os generalizing m with
  | nil => exact ⟨hm, rfl, rfl, by simp [runSet]⟩
  | cons o os ih =>
    have hfind : ∀ k, (∃ k', (some (Option.map Prod.fst (findL cmp k (entries m.root))) : Option (Option K)) = some (some k'))
        = ((contents cmp m k).isSome = true) := by
      intro k
      unfold contents lookL
      rcases findL cmp k (entries m.root) with - | e
      · simp
      · simp
    cases o with
    | put k =>
      simp only [runSet, setRun]
      rcases putNode_spec hops m hm k () with ⟨⟨e, he, h⟩, -⟩ | ⟨m', h, hm', hc⟩
      · exact absurd h (ht _ _)
      · have hput : m.setPut ops k = (m', some (Option.map Prod.fst (findL cmp k (entries m.root)))) := by
          simp [SortedMap.setPut, h]
        have hcc : (fun x => (contents cmp m' x).isSome = true) = fun x => cmp x k = .eq ∨ (contents cmp m x).isSome = true := by
          funext x
          unfold contents; rw [hc, lookL_insL hm.increasing]
          unfold FMap.put
          split
          · rename_i hx; simp [hx]
          · rename_i hx; simp [hx]
        rw [hput]
        obtain ⟨h1, h2, h3, h4⟩ := ih m' hm'
        refine ⟨h1, ?_, ?_, ?_⟩
        · rw [h2, hcc]
        · simp only [List.map_cons]
          rw [h3, hcc, hfind]
        · simpa using h4
    | remove k =>
      simp only [runSet, setRun]
      rcases removeNode_spec hops (total_guarded ht) m hm k with ⟨⟨e, he, h⟩, -⟩ | ⟨m', h, hm', hc⟩
      · exact absurd h (ht _ _)
      · have hput : m.setRemove ops k = (m', some (Option.map Prod.fst (findL cmp k (entries m.root)))) := by
          simp [SortedMap.setRemove, h]
        have hcc : (fun x => (contents cmp m' x).isSome = true) = fun x => cmp x k ≠ .eq ∧ (contents cmp m x).isSome = true := by
          funext x
          unfold contents; rw [hc, lookL_remL hm.increasing]
          unfold FMap.remove
          split
          · rename_i hx; simp [hx]
          · rename_i hx; simp [hx]
        rw [hput]
        obtain ⟨h1, h2, h3, h4⟩ := ih m' hm'
        refine ⟨h1, ?_, ?_, ?_⟩
        · rw [h2, hcc]
        · simp only [List.map_cons]
          rw [h3, hcc, hfind]
        · simpa using h4

/-- C27: in any history on a new set no call panics, each Put/Remove returns a key exactly if the key was in the set, and
afterwards Exist and Size are those of the mathematical set. -/
theorem C27_sortedSet_refines {ops : KeyOps K} {cmp : K → K → Ordering} (hops : LawfulKeys ops cmp) (ht : TotalKeys ops)
    (os : List (SetOp K)) :
    let m := (runSet ops SortedMap.new os).1
    let s := (setRun cmp (fun _ => False) os).1
    (runSet ops SortedMap.new os).2.map (fun r => ∃ k, r = some (some k)) = (setRun cmp (fun _ => False) os).2 ∧
      (∀ r ∈ (runSet ops SortedMap.new os).2, r ≠ none) ∧
      (∀ k, ∃ b, m.exist ops k = some b ∧ (b = true ↔ s k)) ∧
      ∃ ks : List K, m.size = ks.length ∧ ks.Pairwise (fun a b => cmp a b ≠ .eq) ∧ ∀ k, s k ↔ ∃ k' ∈ ks, cmp k k' = .eq := by
  have := hops.trans
  obtain ⟨h1, h2, h3, h4⟩ := runSet_spec hops ht os SortedMap.new (new_good (cmp := cmp))
  have e0 : (fun k => (contents cmp (SortedMap.new : SortedMap K Unit) k).isSome = true) = fun _ => False := by
    funext k; simp [contents_new, FMap.empty]
  rw [e0] at h2 h3
  refine ⟨h3, h4, fun k => ?_, ?_⟩
  · refine ⟨(contents cmp (runSet ops SortedMap.new os).1 k).isSome, ?_, ?_⟩
    · rcases getR_spec hops k _ h1.increasing with ⟨⟨e, -, h⟩, -⟩ | ⟨n, h, -⟩
      · exact absurd h (ht _ _)
      · simp [SortedMap.exist, SortedMap.getNode, h, contents, lookL]
    · rw [← h2]
  · obtain ⟨ks, k1, k2, k3⟩ := lookL_hasSize (cmp := cmp) h1.increasing
    refine ⟨ks, by rw [h1.size, k1], k2, fun k => ?_⟩
    rw [← h2, ← k3]; rfl

example : (runSet intOps SortedMap.new [.put 1, .put 2, .put 1, .remove 2, .remove 7]).2
    = [some none, some none, some (some 1), some (some 2), some none] := by decide +kernel

end Poodle.Props
