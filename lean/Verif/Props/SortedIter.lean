import Verif.Lemmas.AvlIter
import Verif.Props.SortedMap

/-
Properties C20, C21, C22, C23, C26 and the iteration part of C27: iterators of the sorted map and the sorted set
(/repo/src/collection/avl.go:319-500, sorted_map.go:47-75, sorted_set.go:47-75).
-/

namespace Poodle.Props
open Poodle Poodle.Spec

variable {K V : Type} {ops : KeyOps K} {cmp : K → K → Ordering}

/-- Results of a sequence of calls on an iterator of a sorted map. -/
def runIter (ops : KeyOps K) (it : AvlIter K V) (cs : List IterCall) : List (IterRes (K × V)) :=
  runCalls (fun s c => AvlIter.sortedCall ops s c) it cs

/-- State after a sequence of calls. -/
def afterCalls {σ α : Type} (call : σ → IterCall → σ × IterRes α) (s : σ) : List IterCall → σ
  | [] => s
  | c :: cs => afterCalls call (call s c).1 cs

theorem runCalls_append {σ α : Type} (call : σ → IterCall → σ × IterRes α) (s : σ) (a b : List IterCall) :
    runCalls call s (a ++ b) = runCalls call s a ++ runCalls call (afterCalls call s a) b := by
  induction a generalizing s with
  | nil => rfl
  | cons c cs ih => simp [runCalls, afterCalls, ih]

theorem runCalls_length {σ α : Type} (call : σ → IterCall → σ × IterRes α) (s : σ) (a : List IterCall) :
    (runCalls call s a).length = a.length := by
  induction a generalizing s with
  | nil => rfl
  | cons c cs ih => simp [runCalls, ih]

theorem runCalls_list_drain {α : Type} (e : IterRes α) (l : List α) (cs : List IterCall) :
    runCalls (listCall e) l (List.replicate l.length .next ++ cs) = l.map .yield ++ runCalls (listCall e) [] cs := by
  induction l with
  | nil => rfl
  | cons x l ih => simp [List.replicate_succ, runCalls, listCall, ih]

section
variable [Std.TransCmp cmp]

theorem lists_entries (m : SortedMap K V) (hm : GoodMap cmp m) : Lists cmp (contents cmp m) (entries m.root) := by
  refine ⟨hm.increasing, fun k v => ?_⟩
  unfold contents lookL
  constructor
  · intro h
    simp only [Option.map_eq_some_iff] at h
    obtain ⟨⟨k', v'⟩, h1, rfl⟩ := h
    have := (findL_eq_some_iff hm.increasing).mp h1
    exact ⟨k', this.1, cmp_eq_symm.mp this.2⟩
  · rintro ⟨k', h1, h2⟩
    rw [(findL_eq_some_iff (e := (k', v)) hm.increasing).mpr ⟨h1, cmp_eq_symm.mp h2⟩]; rfl

theorem below_eq_filter (stop : Option K) (l : List (K × V)) (hl : Increasing cmp l) :
    below cmp stop l = l.filter fun x => InRange cmp none stop x.1 := by
  cases stop with
  | none => simp [below, InRange]
  | some e =>
    simp only [below, InRange, Bool.true_and]
    induction l with
    | nil => rfl
    | cons x l ih =>
      obtain ⟨h1, h2⟩ := incr_tail hl
      rw [List.takeWhile_cons, List.filter_cons]
      by_cases hx : cmp x.1 e = .lt
      · simp only [hx, decide_true, if_true, beq_self_eq_true]
        rw [ih h1]
      · have hx' : (cmp x.1 e == .lt) = false := by simpa using hx
        simp only [hx, hx', decide_false, if_false, Bool.false_eq_true]
        symm
        rw [List.filter_eq_nil_iff]
        intro y hy
        simp only [beq_iff_eq]
        exact fun hc => hx (cmp_lt_trans (h2 y hy) hc)

end

theorem rangeIterator_ok (m : SortedMap K V) (start stop : Option K) :
    (∃ it, m.rangeIterator ops start stop = some it) ↔
      ∀ s e, start = some s → stop = some e → ∃ c, ops.compare s e = some c ∧ ¬ 0 < c := by
  unfold SortedMap.rangeIterator AvlIter.new
  cases start with
  | none => simp
  | some s =>
    cases stop with
    | none => simp
    | some e =>
      simp only [Option.some.injEq]
      rcases h : ops.compare s e with - | c
      · simp only [reduceCtorEq, exists_false, false_iff]
        intro h'
        obtain ⟨c, h1, -⟩ := h' s e rfl rfl
        rw [h] at h1; simp at h1
      · by_cases hc : 0 < c
        · simp only [gt_iff_lt, hc, if_true, reduceCtorEq, exists_false, false_iff]
          intro h'
          obtain ⟨c, h1, h2⟩ := h' s e rfl rfl
          rw [h] at h1
          simp only [Option.some.injEq] at h1
          omega
        · simp only [gt_iff_lt, hc, if_false, Option.some.injEq, exists_eq', true_iff]
          rintro _ _ rfl rfl
          exact ⟨c, h, hc⟩

/-- Everything about an iterator of a reachable map in one statement. -/
theorem iter_refines (hops : LawfulKeys ops cmp) (ht : TotalKeys ops) (os : List (MapOp K V)) (start stop : Option K)
    (it : AvlIter K V) (hit : (runMap ops SortedMap.new os).1.rangeIterator ops start stop = some it) :
    ∃ l, Lists cmp (FMap.run cmp FMap.empty os).1 l ∧
      ∀ cs, runIter ops it cs = runCalls (listCall .crash) (rangeOut cmp start stop l) cs := by
  have := hops.trans
  have hm := (runMap_runs hops (total_guarded ht) os SortedMap.new (new_good (cmp := cmp))).1
  obtain ⟨-, h2⟩ := runMap_total hops ht os SortedMap.new (new_good (cmp := cmp))
  rw [contents_new] at h2
  refine ⟨entries (runMap ops SortedMap.new os).1.root, ?_, fun cs => ?_⟩
  · rw [← h2]; exact lists_entries _ hm
  · obtain ⟨hw, ho⟩ := new_spec _ start stop hm.increasing it hit
    rw [← ho]
    exact runCalls_sortedCall hops ht cs it hw

/-! ### C20 Sorted iteration -/

/-- C20: `Iterator()` on a reachable map yields exactly the entries of the finite map in strictly increasing key order, each
once, and then reports exhaustion. -/
theorem C20_sorted_iteration (hops : LawfulKeys ops cmp) (ht : TotalKeys ops) (os : List (MapOp K V)) :
    ∃ it l, (runMap ops SortedMap.new os).1.iterator ops = some it ∧ Lists cmp (FMap.run cmp FMap.empty os).1 l ∧
      runIter ops it (List.replicate l.length .next ++ [.hasNext]) = l.map .yield ++ [.bool false] := by
  obtain ⟨it, hit⟩ := (rangeIterator_ok (ops := ops) (runMap ops SortedMap.new os).1 none none).mpr (by simp)
  obtain ⟨l, h1, h2⟩ := iter_refines hops ht os none none it hit
  refine ⟨it, l, hit, h1, ?_⟩
  rw [h2]
  simp only [rangeOut, below]
  rw [runCalls_list_drain]
  rfl

example := C20_sorted_iteration intOps_lawful.1 intOps_lawful.2 [.put 3 30, .put 1 10, .put 2 20, .remove 3, .put 9 90]

/-- C20: the usual loop `for it.HasNext() { it.Next() }` visits the same entries. -/
theorem C20_hasNext_loop (hops : LawfulKeys ops cmp) (ht : TotalKeys ops) (os : List (MapOp K V)) :
    ∃ it l, (runMap ops SortedMap.new os).1.iterator ops = some it ∧ Lists cmp (FMap.run cmp FMap.empty os).1 l ∧
      runIter ops it ((List.replicate l.length [.hasNext, .next]).flatten ++ [.hasNext])
        = (l.map fun x => [.bool true, .yield x]).flatten ++ [.bool false] := by
  obtain ⟨it, hit⟩ := (rangeIterator_ok (ops := ops) (runMap ops SortedMap.new os).1 none none).mpr (by simp)
  obtain ⟨l, h1, h2⟩ := iter_refines hops ht os none none it hit
  refine ⟨it, l, hit, h1, ?_⟩
  rw [h2]
  simp only [rangeOut, below]
  clear h1 h2
  induction l with
  | nil => rfl
  | cons x l ih => simpa [List.replicate_succ, runCalls, listCall] using ih

example : ∃ it, (runMap intOps SortedMap.new [.put 3 30, .put 1 10, .put 2 20, .remove 3, .put 9 90]).1.iterator intOps = some it ∧
    runIter intOps it [.next, .next, .next, .hasNext] = [.yield (1, 10), .yield (2, 20), .yield (9, 90), .bool false] :=
  ⟨_, rfl, by decide +kernel⟩

/-! ### C21 HasNext and Peek are observers -/

/-- C21: in any sequence of calls on an iterator of a reachable map (with any bounds), inserting a `HasNext` or `Peek` call
anywhere does not change the results of the other calls; `Peek` returns what `Next` would return at that point; and
`HasNext` is true exactly if `Next` would yield an entry. -/
theorem C21_observers (hops : LawfulKeys ops cmp) (ht : TotalKeys ops) (os : List (MapOp K V)) (start stop : Option K)
    (it : AvlIter K V) (hit : (runMap ops SortedMap.new os).1.rangeIterator ops start stop = some it)
    (before after : List IterCall) :
    ∃ A B n rest, A.length = before.length ∧
      runIter ops it (before ++ after) = A ++ B ∧
      runIter ops it (before ++ .next :: after) = A ++ n :: rest ∧
      runIter ops it (before ++ .peek :: after) = A ++ n :: B ∧
      ∃ b, runIter ops it (before ++ .hasNext :: after) = A ++ .bool b :: B ∧
        (b = true ↔ ∃ e, n = .yield e) := by
  obtain ⟨l, -, h2⟩ := iter_refines hops ht os start stop it hit
  simp only [h2]
  simp only [runCalls_append]
  refine ⟨_, runCalls (listCall .crash) (afterCalls (listCall .crash) (rangeOut cmp start stop l) before) after,
    (listCall .crash (afterCalls (listCall .crash) (rangeOut cmp start stop l) before) .next).2, _,
    runCalls_length _ _ _, rfl, rfl, ?_, ?_⟩
  · simp only [runCalls]
    rcases afterCalls (listCall .crash) (rangeOut cmp start stop l) before with - | ⟨x, xs⟩ <;> rfl
  · simp only [runCalls]
    rcases afterCalls (listCall .crash) (rangeOut cmp start stop l) before with - | ⟨x, xs⟩
    · exact ⟨false, rfl, by simp [listCall]⟩
    · exact ⟨true, rfl, by simp [listCall]⟩

example := C21_observers intOps_lawful.1 intOps_lawful.2 [.put 3 30, .put 1 10, .put 2 20, .remove 3, .put 9 90] (some 1) (some 5) _ rfl
  [.next, .peek] [.hasNext, .next]

/-- C21: for any interleaving of calls the iterator is the list of the entries to come, consumed by `Next` only. -/
theorem C21_refines_list (hops : LawfulKeys ops cmp) (ht : TotalKeys ops) (os : List (MapOp K V)) :
    ∃ it l, (runMap ops SortedMap.new os).1.iterator ops = some it ∧ Lists cmp (FMap.run cmp FMap.empty os).1 l ∧
      ∀ cs, runIter ops it cs = runCalls (listCall .crash) l cs := by
  obtain ⟨it, hit⟩ := (rangeIterator_ok (ops := ops) (runMap ops SortedMap.new os).1 none none).mpr (by simp)
  obtain ⟨l, h1, h2⟩ := iter_refines hops ht os none none it hit
  exact ⟨it, l, hit, h1, h2⟩

example : ∃ it, (runMap intOps SortedMap.new [.put 3 30, .put 1 10]).1.rangeIterator intOps none (some 3) = some it ∧
    runIter intOps it [.peek, .hasNext, .peek, .next, .hasNext] = [.yield (1, 10), .bool true, .yield (1, 10), .yield (1, 10), .bool false] :=
  ⟨_, rfl, by decide +kernel⟩

/-! ### C22 Range iteration -/

/-- The claim of C22 (for bounds that are in order). -/
def RangeIteration : Prop :=
  ∀ (K V : Type) (ops : KeyOps K) (cmp : K → K → Ordering), LawfulKeys ops cmp → TotalKeys ops →
    ∀ (os : List (MapOp K V)) (start stop : Option K), (∀ s e, start = some s → stop = some e → cmp s e ≠ .gt) →
      ∃ it l, (runMap ops SortedMap.new os).1.rangeIterator ops start stop = some it ∧
        Lists cmp (FMap.run cmp FMap.empty os).1 l ∧
        ∀ cs, runIter ops it cs = runCalls (listCall .crash) (l.filter fun x => InRange cmp start stop x.1) cs

/-- The claim is false: over keys 2 and 3, a range starting at 1 yields nothing. -/
theorem C22_refuted : ¬ RangeIteration := by
  intro h
  obtain ⟨it, l, h1, h2, h3⟩ := h Int Int intOps compare intOps_lawful.1 intOps_lawful.2 [.put 2 20, .put 3 30] (some 1) none (by simp)
  have hm : ((2 : Int), (20 : Int)) ∈ l := by
    obtain ⟨k', h4, h5⟩ := (h2.2 2 20).mp (by decide)
    have : (2 : Int) = k' := by simpa using h5
    rwa [this]
  have h6 := h3 [.hasNext]
  have h7 : runIter intOps it [.hasNext] = [.bool false] := by
    have : it = ((runMap intOps SortedMap.new [.put 2 20, .put 3 30]).1.rangeIterator intOps (some 1) none).get (by decide) := by
      simp only [h1, Option.get_some]
    rw [this]
    decide +kernel
  rw [h7] at h6
  simp only [runCalls, listCall, List.cons.injEq, IterRes.bool.injEq, and_true] at h6
  have h8 : (l.filter fun x => InRange compare (some 1) none x.1) = [] := by
    simpa using h6
  rw [List.filter_eq_nil_iff] at h8
  exact h8 _ hm (by decide)

/-- What the code's range iterator yields on the entries `l`: those below `stop`, all from the smallest on, but nothing at
all if `start` is below the smallest key. -/
def codeRange (cmp : K → K → Ordering) (start stop : Option K) (l : List (K × V)) : List (K × V) :=
  match start, l.head? with
  | some s, some x => if cmp s x.1 = .lt then [] else l.filter fun y => InRange cmp none stop y.1
  | _, _ => l.filter fun y => InRange cmp none stop y.1

/-- C22, what the code does: with bounds in order the iterator exists and yields, in increasing order, the entries below
`end` — *all* of them from the smallest key on, unless `start` is below the smallest key, in which case it yields nothing.
With `start > end` constructing the iterator panics. -/
theorem C22_range_iteration_partial (hops : LawfulKeys ops cmp) (ht : TotalKeys ops) (os : List (MapOp K V)) (start stop : Option K) :
    ((∃ s e, start = some s ∧ stop = some e ∧ cmp s e = .gt) →
      (runMap ops SortedMap.new os).1.rangeIterator ops start stop = none) ∧
    (¬ (∃ s e, start = some s ∧ stop = some e ∧ cmp s e = .gt) →
      ∃ it l, (runMap ops SortedMap.new os).1.rangeIterator ops start stop = some it ∧
        Lists cmp (FMap.run cmp FMap.empty os).1 l ∧
        ∀ cs, runIter ops it cs = runCalls (listCall .crash) (codeRange cmp start stop l) cs) := by
  have := hops.trans
  constructor
  · rintro ⟨s, e, rfl, rfl, h⟩
    rcases hc : (runMap ops SortedMap.new os).1.rangeIterator ops (some s) (some e) with - | it
    · rfl
    · obtain ⟨c, h1, h2⟩ := (rangeIterator_ok _ _ _).mp ⟨it, hc⟩ s e rfl rfl
      exact absurd ((hops.compare_sign _ _ _ h1).2.mpr h) h2
  · intro h
    obtain ⟨it, hit⟩ := (rangeIterator_ok (ops := ops) (runMap ops SortedMap.new os).1 start stop).mpr (by
      intro s e hs he
      rcases hc : ops.compare s e with - | c
      · exact absurd hc (ht _ _)
      · exact ⟨c, rfl, fun h0 => h ⟨s, e, hs, he, (hops.compare_sign _ _ _ hc).2.mp h0⟩⟩)
    obtain ⟨l, h1, h2⟩ := iter_refines hops ht os start stop it hit
    refine ⟨it, l, hit, h1, fun cs => ?_⟩
    rw [h2]
    congr 1
    cases start with
    | none => simp [rangeOut, codeRange, below_eq_filter _ _ h1.1]
    | some s =>
      cases l with
      | nil => cases stop <;> simp [rangeOut, codeRange]
      | cons x l => simp [rangeOut, codeRange, below_eq_filter _ _ h1.1]

example := C22_range_iteration_partial intOps_lawful.1 intOps_lawful.2 [.put 3 30, .put 1 10, .put 2 20, .remove 3, .put 9 90] (some 1) (some 5)

theorem list_calls_inj {α : Type} (e : IterRes α) (l l' : List α)
    (h : ∀ cs, runCalls (listCall e) l cs = runCalls (listCall e) l' cs) : l = l' := by
  induction l generalizing l' with
  | nil =>
    have := h [.hasNext]
    cases l' with
    | nil => rfl
    | cons x l' => simp [runCalls, listCall] at this
  | cons x l ih =>
    cases l' with
    | nil => have := h [.hasNext]; simp [runCalls, listCall] at this
    | cons y l' =>
      have hx : x = y := by have := h [.next]; simpa [runCalls, listCall] using this
      subst hx
      congr 1
      apply ih
      intro cs
      have := h (.next :: cs)
      simpa [runCalls, listCall] using this

/-- C22, when the range is right: with a `start`, the iterator yields what it should exactly if the map is empty, or `start`
is (equivalent to) the smallest key, or the smallest key is not below `end` (so that the right answer is nothing). -/
theorem C22_correct_iff_partial (hops : LawfulKeys ops cmp) (ht : TotalKeys ops) (os : List (MapOp K V)) (s : K) (stop : Option K)
    (hb : ∀ e, stop = some e → cmp s e ≠ .gt) :
    ∃ it l, (runMap ops SortedMap.new os).1.rangeIterator ops (some s) stop = some it ∧
      Lists cmp (FMap.run cmp FMap.empty os).1 l ∧
      ((∀ cs, runIter ops it cs = runCalls (listCall .crash) (l.filter fun x => InRange cmp (some s) stop x.1) cs) ↔
        ∀ x, l.head? = some x → (cmp s x.1 = .eq ∨ InRange cmp none stop x.1 = false)) := by
  have := hops.trans
  obtain ⟨it, l, h1, h2, h3⟩ := (C22_range_iteration_partial hops ht os (some s) stop).2 (by
    rintro ⟨s', e, hs, he, hc⟩
    simp only [Option.some.injEq] at hs
    subst hs
    exact hb e he hc)
  refine ⟨it, l, h1, h2, ?_⟩
  have hin : ∀ k, InRange cmp (some s) stop k = (cmp s k != .gt && InRange cmp none stop k) := by
    intro k; simp [InRange]
  have key : (codeRange cmp (some s) stop l = l.filter fun x => InRange cmp (some s) stop x.1) ↔
      ∀ x, l.head? = some x → (cmp s x.1 = .eq ∨ InRange cmp none stop x.1 = false) := by
    cases l with
    | nil => simp [codeRange]
    | cons x l =>
      obtain ⟨-, hx⟩ := incr_tail h2.1
      have hnone : InRange cmp none stop x.1 = false → (x :: l).filter (fun y => InRange cmp none stop y.1) = [] := by
        intro h
        rw [List.filter_eq_nil_iff]
        intro y hy
        rw [List.mem_cons] at hy
        rcases hy with rfl | hy
        · simp [h]
        · cases stop with
          | none => simp [InRange] at h
          | some e =>
            simp only [InRange, Bool.true_and, beq_eq_false_iff_ne] at h
            simp only [InRange, Bool.true_and, beq_iff_eq]
            exact fun hc => h (cmp_lt_trans (hx y hy) hc)
      have hsub : ∀ y, InRange cmp (some s) stop y = true → InRange cmp none stop y = true := by
        intro y hy; rw [hin] at hy; simp at hy; exact hy.2
      have hnone' : InRange cmp none stop x.1 = false → (x :: l).filter (fun y => InRange cmp (some s) stop y.1) = [] := by
        intro h
        have h0 := hnone h
        rw [List.filter_eq_nil_iff] at h0 ⊢
        exact fun y hy hc => h0 y hy (hsub _ hc)
      have hsame : cmp s x.1 ≠ .gt → (x :: l).filter (fun y => InRange cmp (some s) stop y.1)
          = (x :: l).filter (fun y => InRange cmp none stop y.1) := by
        intro h
        apply List.filter_congr
        intro y hy
        rw [hin]
        have : (cmp s y.1 != .gt) = true := by
          rw [List.mem_cons] at hy
          rcases hy with rfl | hy
          · simpa using h
          · have hxy := hx y hy
            rcases hc : cmp s x.1 with - | - | -
            · simp [cmp_lt_trans hc hxy]
            · have : cmp s y.1 = .lt := by
                have := Std.TransCmp.congr_left (cmp := cmp) (c := y.1) hc
                rw [this]; exact hxy
              simp [this]
            · exact absurd hc h
        rw [this, Bool.true_and]
      simp only [List.head?_cons, Option.some.injEq, forall_eq']
      simp only [codeRange, List.head?_cons]
      rcases hc : cmp s x.1 with - | - | -
      · simp only [if_true, reduceCtorEq, false_or]
        rw [hsame (by simp [hc])]
        constructor
        · intro h
          have := h.symm
          rw [List.filter_eq_nil_iff] at this
          have := this x (by simp)
          simpa using this
        · intro h; rw [hnone h]
      · simp [hsame (by simp [hc])]
      · simp only [reduceCtorEq, if_false, false_or]
        constructor
        · intro h
          by_contra hne
          have hm : x ∈ (x :: l).filter (fun y => InRange cmp none stop y.1) := by
            rw [List.mem_filter]; exact ⟨by simp, by simpa using hne⟩
          rw [h, List.mem_filter, hin] at hm
          simp [hc] at hm
        · intro h; rw [hnone h, hnone' h]
  rw [← key]
  constructor
  · intro h
    exact list_calls_inj .crash _ _ fun cs => by rw [← h3, h]
  · intro h cs
    rw [h3, h]

example : ∃ it, (runMap intOps SortedMap.new [.put 3 30, .put 1 10, .put 2 20]).1.rangeIterator intOps (some 2) (some 3) = some it ∧
    runIter intOps it [.next, .next, .hasNext] = [.yield (1, 10), .yield (2, 20), .bool false] :=
  ⟨_, rfl, by decide +kernel⟩

/-! ### C23 Upper-bounded iteration -/

/-- C23: `RangeIterator(nil, end)` yields exactly the entries with key below `end`, in increasing order, each once, and then
reports exhaustion; any interleaving of calls behaves like that list. -/
theorem C23_upper_bounded (hops : LawfulKeys ops cmp) (ht : TotalKeys ops) (os : List (MapOp K V)) (e : K) :
    ∃ it l l', (runMap ops SortedMap.new os).1.rangeIterator ops none (some e) = some it ∧
      Lists cmp (FMap.run cmp FMap.empty os).1 l ∧
      l' = l.filter (fun x => cmp x.1 e = .lt) ∧
      runIter ops it (List.replicate l'.length .next ++ [.hasNext]) = l'.map .yield ++ [.bool false] ∧
      ∀ cs, runIter ops it cs = runCalls (listCall .crash) l' cs := by
  have := hops.trans
  obtain ⟨it, hit⟩ := (rangeIterator_ok (ops := ops) (runMap ops SortedMap.new os).1 none (some e)).mpr (by simp)
  obtain ⟨l, h1, h2⟩ := iter_refines hops ht os none (some e) it hit
  have h3 : rangeOut cmp none (some e) l = l.filter (fun x => cmp x.1 e = .lt) := by
    simp only [rangeOut]
    rw [below_eq_filter _ _ h1.1]
    apply List.filter_congr
    intro x _
    simp only [InRange, Bool.true_and]
    cases cmp x.1 e <;> rfl
  rw [h3] at h2
  refine ⟨it, l, _, hit, h1, rfl, ?_, h2⟩
  rw [h2, runCalls_list_drain]
  rfl

example : ∃ it, (runMap intOps SortedMap.new [.put 3 30, .put 1 10, .put 2 20, .put 4 40]).1.rangeIterator intOps none (some 3) = some it ∧
    runIter intOps it [.next, .next, .hasNext] = [.yield (1, 10), .yield (2, 20), .bool false] :=
  ⟨_, rfl, by decide +kernel⟩

/-! ### C26 Exhausted sorted iterators -/

/-- The claim of C26: once all entries have been returned, any further calls give "no" and nil. -/
def ExhaustedIterators : Prop :=
  ∀ (K V : Type) (ops : KeyOps K) (cmp : K → K → Ordering), LawfulKeys ops cmp → TotalKeys ops →
    ∀ (os : List (MapOp K V)), ∃ it l, (runMap ops SortedMap.new os).1.iterator ops = some it ∧
      Lists cmp (FMap.run cmp FMap.empty os).1 l ∧
      ∀ cs, runIter ops it (List.replicate l.length .next ++ cs)
        = l.map .yield ++ cs.map fun c => if c = .hasNext then .bool false else .nil

/-- The claim is false: `Next` on the iterator of an empty map panics. -/
theorem C26_refuted : ¬ ExhaustedIterators := by
  intro h
  obtain ⟨it, l, h1, h2, h3⟩ := h Int Int intOps compare intOps_lawful.1 intOps_lawful.2 []
  have hl : l = [] := by
    rcases l with - | ⟨⟨k, v⟩, l⟩
    · rfl
    · have := (h2.2 k v).mpr ⟨k, by simp, by simp⟩
      simp [FMap.run, FMap.empty] at this
  subst hl
  have := h3 [.next]
  have hit : it = ((runMap intOps (SortedMap.new : SortedMap Int Int) []).1.iterator intOps).get (by decide) := by
    simp only [h1, Option.get_some]
  rw [hit] at this
  revert this
  decide +kernel

/-- C26, what the code does: after the last entry `HasNext` is false forever, while every further `Next` or `Peek` panics;
such a panic changes nothing. -/
theorem C26_exhausted_partial (hops : LawfulKeys ops cmp) (ht : TotalKeys ops) (os : List (MapOp K V)) :
    ∃ it l, (runMap ops SortedMap.new os).1.iterator ops = some it ∧
      Lists cmp (FMap.run cmp FMap.empty os).1 l ∧
      ∀ cs, runIter ops it (List.replicate l.length .next ++ cs)
        = l.map .yield ++ cs.map fun c => if c = .hasNext then .bool false else .crash := by
  obtain ⟨it, l, h1, h2, h3⟩ := C21_refines_list hops ht os
  refine ⟨it, l, h1, h2, fun cs => ?_⟩
  rw [h3, runCalls_list_drain]
  congr 1
  induction cs with
  | nil => rfl
  | cons c cs ih => cases c <;> simpa [runCalls, listCall] using ih

example : ∃ it, (runMap intOps SortedMap.new [.put 3 30]).1.iterator intOps = some it ∧
    runIter intOps it [.next, .hasNext, .peek, .next, .hasNext] = [.yield (3, 30), .bool false, .crash, .crash, .bool false] :=
  ⟨_, rfl, by decide +kernel⟩

/-! ### C27 Iteration of a sorted set -/

/-- C27: iterating a reachable sorted set yields its elements in strictly increasing order, each once, for any interleaving
of calls, and then reports exhaustion. -/
theorem C27_set_iteration (hops : LawfulKeys ops cmp) (ht : TotalKeys ops) (os : List (SetOp K)) :
    ∃ it l, (runSet ops SortedMap.new os).1.iterator ops = some it ∧
      (l.map Prod.fst).Pairwise (fun a b => cmp a b = .lt) ∧
      (∀ k, (setRun cmp (fun _ => False) os).1 k ↔ ∃ k' ∈ l.map Prod.fst, cmp k k' = .eq) ∧
      runIter ops it (List.replicate l.length .next ++ [.hasNext]) = l.map .yield ++ [.bool false] ∧
      ∀ cs, runIter ops it cs = runCalls (listCall .crash) l cs := by
  have := hops.trans
  obtain ⟨h1, h2, -, -⟩ := runSet_spec hops ht os SortedMap.new (new_good (cmp := cmp))
  have e0 : (fun k => (contents cmp (SortedMap.new : SortedMap K Unit) k).isSome = true) = fun _ => False := by
    funext k; simp [contents_new, FMap.empty]
  rw [e0] at h2
  obtain ⟨it, hit⟩ := (rangeIterator_ok (ops := ops) (runSet ops SortedMap.new os).1 none none).mpr (by simp)
  obtain ⟨hw, ho⟩ := new_spec _ none none h1.increasing it hit
  have hl := lists_entries _ h1
  have hr : ∀ cs, runIter ops it cs = runCalls (listCall .crash) (entries (runSet ops SortedMap.new os).1.root) cs := by
    intro cs
    have := runCalls_sortedCall hops ht cs it hw
    rw [ho] at this
    exact this
  refine ⟨it, _, hit, ?_, fun k => ?_, ?_, hr⟩
  · rw [List.pairwise_map]; exact hl.1
  · rw [← h2]
    simp only [Option.isSome_iff_exists, hl.2, List.mem_map, Prod.exists]
    constructor
    · rintro ⟨a, k', h, hc⟩; exact ⟨k', ⟨k', a, h, rfl⟩, hc⟩
    · rintro ⟨k', ⟨_, a, h, rfl⟩, hc⟩; exact ⟨a, _, h, hc⟩
  · rw [hr, runCalls_list_drain]; rfl

example : ∃ it, (runSet intOps SortedMap.new [.put 3, .put 1, .put 2, .remove 3]).1.iterator intOps = some it ∧
    runIter intOps it [.next, .next, .hasNext] = [.yield (1, ()), .yield (2, ()), .bool false] :=
  ⟨_, rfl, by decide +kernel⟩

end Poodle.Props
