import Verif.Lemmas.RangePanic
import Verif.Props.KeyMaps

/-
Properties C213 and C214: iterators of sorted maps whose key comparisons may panic (/repo/src/collection/avl.go:323-500, sorted_map.go:47-75,
/repo/src/util/key_util.go).
-/

namespace Poodle.Props
open Poodle Poodle.Spec AvlIter

variable {K V : Type} {ops : KeyOps K} {cmp : K → K → Ordering}

/-! ### C213 Iterators that have panicked -/

/-- Results of a sequence of calls on an iterator; a call that panics leaves the iterator where it was at that moment. -/
def runIterH (ops : KeyOps K) (it : AvlIter K V) (cs : List IterCall) : List (IterRes (K × V)) := runCalls (fun s c => sortedCallH ops s c) it cs

theorem runIterH_jammed (j : AvlIter K V) (hj : Jammed ops j) (cs : List IterCall) : runIterH ops j cs = cs.map fun _ => .crash := by
  induction cs with
  | nil => rfl
  | cons c cs ih =>
    have hc : j.sortedCallH ops c = (j, .crash) := by simp [sortedCallH, advanceH_jammed j hj]
    simp only [runIterH, runCalls, hc, List.map_cons, List.cons.injEq, true_and]
    exact ih

theorem runIterH_eq (cs : List IterCall) (it : AvlIter K V) (hs : Shaped it) : runIterH ops it cs = runIter ops it cs := by
  induction cs generalizing it with
  | nil => rfl
  | cons c cs ih =>
    rcases sortedCall_cases (ops := ops) it hs c with ⟨j, h1, h2, h3, h4⟩ | ⟨h1, h2⟩
    · have hn : advance ops it = none := by simp [advance_eq, settled, h1]
      rw [AvlIter.runIter_stuck it hn]
      simp only [runIterH, runCalls, h4, List.map_cons, List.cons.injEq, true_and]
      exact runIterH_jammed j h2 cs
    · have h3 := ih _ h2
      simp only [runIterH, runIter, runCalls] at h3 ⊢
      rw [← h1, h3]

/-- C213: whatever the comparison function does and whatever the bounds are, the results of all calls are those of an iterator on which a call
that panics has no effect: no entry gets lost by a panic. -/
theorem C213_unmoved (m : SortedMap K V) (start stop : Option K) (it : AvlIter K V) (hit : m.rangeIterator ops start stop = some it)
    (cs : List IterCall) : runIterH ops it cs = runIter ops it cs :=
  runIterH_eq cs it (new_shaped _ _ _ _ hit)

/-- A comparison that panics on 5, in the tree with 3, 5 and 7. -/
example : let ops : KeyOps Nat := ⟨fun a b => a == b, fun a b => if a = 5 then none else some ((a : Int) - b)⟩
    let m : SortedMap Nat Nat := ⟨.node 5 50 0 (.node 3 30 0 .nil .nil) (.node 7 70 0 .nil .nil), 3⟩
    (m.rangeIterator ops none (some 9)).map (fun it => runIterH ops it [.next, .hasNext, .next, .peek]) =
      some [.yield (3, 30), .crash, .crash, .crash] := by decide +kernel

/-- A call that panicked left the iterator at the end, or where every call panics. -/
theorem crash_state (it : AvlIter K V) (hs : Shaped it) (c : IterCall) (h : (it.sortedCallH ops c).2 = .crash) :
    Jammed ops (it.sortedCallH ops c).1 ∨
      c ≠ .hasNext ∧ (it.sortedCallH ops c).1.curr = .nil ∧ (it.sortedCallH ops c).1.paths = [] := by
  unfold sortedCallH at h ⊢
  rcases ha : advanceH ops it with ⟨j, - | -⟩
  · exact .inl ((advanceH_spec it hs j _ ha).2.1 rfl)
  · right
    rw [ha] at h
    obtain ⟨paths, curr, pos, start, stop⟩ := j
    have hn := (advanceH_spec it hs _ _ ha).2.2
    cases curr with
    | nil =>
      have hp : paths = [] := hn rfl
      subst hp
      cases c <;> simp_all
    | node => cases c <;> simp_all

theorem runIterH_done (it : AvlIter K V) (hc : it.curr = .nil) (hp : it.paths = []) (cs : List IterCall) : ∀ x ∈ runIterH ops it cs, NoEntry x := by
  obtain ⟨paths, curr, pos, start, stop⟩ := it
  simp only at hc hp
  subst hc hp
  induction cs with
  | nil => simp [runIterH, runCalls]
  | cons c cs ih =>
    intro x hx
    cases c <;> simp only [runIterH, runCalls, sortedCallH, advanceH, List.mem_cons] at hx <;> rcases hx with rfl | hx
    all_goals first
      | exact ih x hx
      | simp [NoEntry]

theorem shaped_after (cs : List IterCall) (it : AvlIter K V) (hs : Shaped it) :
    Shaped (afterCalls (fun s c => sortedCallH ops s c) it cs) := by
  induction cs generalizing it with
  | nil => exact hs
  | cons c cs ih =>
    apply ih
    rcases sortedCall_cases (ops := ops) it hs c with ⟨j, h1, h2, h3, h4⟩ | ⟨h1, h2⟩
    · simp only [h4]
      exact (advanceH_spec it hs j _ h1).1
    · simp only [← h1]
      exact h2

/-- C213: once a call on an iterator has panicked, the iterator never returns an entry again; and if the call was `HasNext`, every later call
panics. -/
theorem C213_after_panic (m : SortedMap K V) (start stop : Option K) (it : AvlIter K V) (hit : m.rangeIterator ops start stop = some it)
    (before after : List IterCall) (c : IterCall) (A B : List (IterRes (K × V))) (hA : A.length = before.length)
    (h : runIterH ops it (before ++ c :: after) = A ++ .crash :: B) :
    (∀ x ∈ B, NoEntry x) ∧ (c = .hasNext → ∀ x ∈ B, x = .crash) := by
  have hs := shaped_after (ops := ops) before it (new_shaped _ _ _ _ hit)
  unfold runIterH at h
  rw [runCalls_append] at h
  obtain ⟨-, h2⟩ := List.append_inj h (by rw [runCalls_length, hA])
  simp only [runCalls, List.cons.injEq] at h2
  obtain ⟨h2, rfl⟩ := h2
  rcases crash_state _ hs c h2 with h3 | ⟨h3, h4, h5⟩
  · have h6 := runIterH_jammed _ h3 after
    unfold runIterH at h6
    rw [h6]
    simp [NoEntry]
  · exact ⟨runIterH_done _ h4 h5 after, fun h => absurd h h3⟩

example : let ops : KeyOps Nat := ⟨fun a b => a == b, fun a b => if a = 5 then none else some ((a : Int) - b)⟩
    let m : SortedMap Nat Nat := ⟨.node 5 50 0 (.node 3 30 0 .nil .nil) (.node 7 70 0 .nil .nil), 3⟩
    ∃ it, m.rangeIterator ops none (some 9) = some it ∧ runIterH ops it ([.next] ++ .hasNext :: [.next, .peek]) =
      [.yield (3, 30)] ++ .crash :: [.crash, .crash] := ⟨_, rfl, by decide +kernel⟩

/-- At the end `Next` panics; the iterator goes on saying that there is no further entry. -/
example : let m : SortedMap Int Nat := ⟨.node 5 50 0 .nil .nil, 1⟩
    ∃ it, m.rangeIterator intOps none none = some it ∧ runIterH intOps it ([.next] ++ .next :: [.hasNext, .peek]) =
      [.yield (5, 50)] ++ .crash :: [.bool false, .crash] := ⟨_, rfl, by decide +kernel⟩

/-! ### C214 Ranges of composite keys -/

/-- The full claim of C214: an iterator up to `e` returns the entries with keys below `e`, then reports the end. -/
def KeyRangeIsRight : Prop :=
  ∀ (V : Type) (os : List (MapOp KeyObj V)) (e : KeyObj),
    ∃ f : FMap (List Slice) V, FMap.Runs compare FMap.empty (os.map onSub) (runMap compositeKeyOps SortedMap.new os).2 f ∧
      ∃ it, ∃ l : List (KeyObj × V), (runMap compositeKeyOps SortedMap.new os).1.rangeIterator compositeKeyOps none (some e) = some it ∧
        (∀ s v, f s = some v ↔ ∃ k, (k, v) ∈ l ∧ k.subKeys = s) ∧
        ∀ cs, runIter compositeKeyOps it cs = runCalls (listCall .crash) (l.filter fun x => compare x.1.subKeys e.subKeys == .lt) cs

/-- C214 is refuted: with the one key `a/b`, `HasNext` of the iterator up to `a` panics. -/
theorem C214_refuted : ¬ KeyRangeIsRight := by
  intro h
  obtain ⟨f, -, it, l, h1, -, h3⟩ := h Unit [.put (.key ⟨false, [some [97], some [98]], none, 5⟩) ()] (.key (newSimpleKey (some [97])))
  have h4 : ((runMap compositeKeyOps (SortedMap.new : SortedMap KeyObj Unit) [.put (.key ⟨false, [some [97], some [98]], none, 5⟩) ()]).1.rangeIterator
      compositeKeyOps none (some (.key (newSimpleKey (some [97]))))).map (fun it => runIter compositeKeyOps it [.hasNext]) = some [.crash] := by
    decide +kernel
  rw [h1, Option.map_some, h3] at h4
  simp [runCalls, listCall] at h4

/-- A second claim: the results of an iterator up to `e` depend only on the entries. -/
def KeyRangeByEntries : Prop :=
  ∀ (V : Type) (os os' : List (MapOp KeyObj V)) (e : KeyObj),
    (∀ cs, ((runMap compositeKeyOps SortedMap.new os).1.iterator compositeKeyOps).map (fun it => runIter compositeKeyOps it cs) =
      ((runMap compositeKeyOps SortedMap.new os').1.iterator compositeKeyOps).map (fun it => runIter compositeKeyOps it cs)) →
    ∀ cs, ((runMap compositeKeyOps SortedMap.new os).1.rangeIterator compositeKeyOps none (some e)).map (fun it => runIter compositeKeyOps it cs) =
      ((runMap compositeKeyOps SortedMap.new os').1.rangeIterator compositeKeyOps none (some e)).map (fun it => runIter compositeKeyOps it cs)

theorem iter_entries (m : SortedMap KeyObj V) (hm : Increasing compositeCmp (entries m.root)) :
    ∃ it, m.iterator compositeKeyOps = some it ∧ ∀ cs, runIter compositeKeyOps it cs = runCalls (listCall .crash) (entries m.root) cs := by
  have := C24_composite_keys.1.trans
  obtain ⟨it, hit⟩ := (rangeIterator_ok (ops := compositeKeyOps) m none none).mpr (by simp)
  obtain ⟨hw, ho⟩ := new_spec (ops := compositeKeyOps) (cmp := compositeCmp) _ none none hm it hit
  have hn : it.start = none ∧ it.stop = none := by
    simp only [SortedMap.rangeIterator, AvlIter.new, Option.some.injEq] at hit
    subst hit
    exact ⟨rfl, rfl⟩
  refine ⟨it, hit, fun cs => ?_⟩
  rw [runIter_unbounded compositeKeyOps totalKeyOps cs it hn.1 hn.2]
  have := runCalls_sortedCall totalKeyOps_lawful.1 totalKeyOps_lawful.2 cs it hw
  rw [ho] at this
  exact this

/-- The keys `a`, `a/b` and `a/b/c`. -/
def keyA : KeyObj := .key (newSimpleKey (some [97]))
def keyAB : KeyObj := .key ⟨false, [some [97], some [98]], none, 5⟩
def keyABC : KeyObj := .key ⟨false, [some [97], some [98], some [99]], none, 7⟩

/-- The second claim is refuted too: with the entries for `a` and `a/b`, the iterator up to `a` is at its end; if `a/b/c` was put and removed
in between, its `HasNext` panics. -/
theorem C214_order_refuted : ¬ KeyRangeByEntries := by
  intro h
  let os : List (MapOp KeyObj Nat) := [.put keyA 1, .put keyAB 2]
  let os' : List (MapOp KeyObj Nat) := [.put keyA 1, .put keyAB 2, .put keyABC 3, .remove keyABC]
  have hm := (runMap_runs C24_composite_keys.1 C24_composite_keys.2 os SortedMap.new (new_good (cmp := compositeCmp))).1
  have hm' := (runMap_runs C24_composite_keys.1 C24_composite_keys.2 os' SortedMap.new (new_good (cmp := compositeCmp))).1
  have he : entries (runMap compositeKeyOps (SortedMap.new : SortedMap KeyObj Nat) os).1.root =
      entries (runMap compositeKeyOps (SortedMap.new : SortedMap KeyObj Nat) os').1.root := by decide +kernel
  have h1 := h Nat os os' keyA (by
    intro cs
    obtain ⟨it, e1, e2⟩ := iter_entries _ hm.increasing
    obtain ⟨it', e1', e2'⟩ := iter_entries _ hm'.increasing
    rw [e1, e1', Option.map_some, Option.map_some, e2, e2', he]) [.hasNext]
  revert h1
  decide +kernel

/-- All calls on a range iterator, where comparisons may panic if the receiver is greater. -/
theorem range_guarded (hops : LawfulKeys ops cmp) (hg : GuardedKeys ops cmp) (m : SortedMap K V) (hm : Increasing cmp (entries m.root))
    (start stop : Option K) (it : AvlIter K V) (hit : m.rangeIterator ops start stop = some it) :
    (∀ s x, start = some s → (entries m.root).head? = some x → ops.compare s x.1 = none → ∀ cs, runIter ops it cs = cs.map fun _ => .crash) ∧
    ((∀ s x, start = some s → (entries m.root).head? = some x → ops.compare s x.1 ≠ none) →
      ∃ bad, (∀ cs, runIter ops it cs = runCalls (tailCall bad) (codeRange cmp start stop (entries m.root)) cs) ∧
        (bad = true → ∃ e, stop = some e ∧ ∃ x ∈ entries m.root, ops.compare x.1 e = none) ∧
        ((∀ s x, start = some s → (entries m.root).head? = some x → cmp s x.1 ≠ .lt) →
          ∀ e y, stop = some e → (entries m.root).find? (fun x => cmp x.1 e ≠ .lt) = some y → ops.compare y.1 e = none → bad = true)) := by
  have := hops.trans
  obtain ⟨hw, ho⟩ := new_spec (cmp := cmp) _ _ _ hm it hit
  obtain ⟨h1, h2, h3⟩ := new_fields _ _ _ _ hit
  have hc : rangeOut cmp start stop (entries m.root) = codeRange cmp start stop (entries m.root) := by
    cases start with
    | none => simp [rangeOut, codeRange, below_eq_filter _ _ hm]
    | some s =>
      cases hl : entries m.root with
      | nil => cases stop <;> simp [rangeOut, codeRange]
      | cons x l =>
        rw [hl] at hm
        simp [rangeOut, codeRange, below_eq_filter _ _ hm]
  rw [← hc, ← ho]
  cases start with
  | none =>
    obtain ⟨bad, g1, g2, g3⟩ := upTo_guarded hops hg _ it rfl hw h1
    rw [h2, h3] at g2 g3
    exact ⟨by simp, fun _ => ⟨bad, g1, g2, fun _ => g3⟩⟩
  | some s =>
    have g := from_guarded hops hg it hw s h1
    rw [h2, h3] at g
    refine ⟨fun s' x hs' => ?_, fun h => ?_⟩
    · simp only [Option.some.injEq] at hs'
      subst hs'
      exact g.1 x
    · obtain ⟨bad, g1, g2, g3⟩ := g.2 fun x => h s x rfl
      exact ⟨bad, g1, g2, fun h => g3 fun x => h s x rfl⟩

/-- C214, what the code does, whatever calls were made before.  Constructing an iterator panics exactly if the start is greater than the end.
If the start continues the smallest key (in the sense of `BlockedBy`), every call panics.  Otherwise the entries come as for other keys (all
below the end, or none if the start is below the smallest key), and no call panics before the end.  `HasNext` at the end panics only if some
key continues the end, and does panic if the first key not below the end does. -/
theorem C214_range_partial (os : List (MapOp KeyObj V)) (start stop : Option KeyObj) :
    let m := (runMap compositeKeyOps SortedMap.new os).1
    ∃ f : FMap (List Slice) V, FMap.Runs compare FMap.empty (os.map onSub) (runMap compositeKeyOps SortedMap.new os).2 f ∧
      ∃ l : List (KeyObj × V), l.Pairwise (fun a b => compare a.1.subKeys b.1.subKeys = .lt) ∧
        (∀ s v, f s = some v ↔ ∃ k, (k, v) ∈ l ∧ k.subKeys = s) ∧
        (m.rangeIterator compositeKeyOps start stop = none ↔ ∃ s e, start = some s ∧ stop = some e ∧ compare s.subKeys e.subKeys = .gt) ∧
        ∀ it, m.rangeIterator compositeKeyOps start stop = some it →
          (∀ s x, start = some s → l.head? = some x → BlockedBy x.1.subKeys s.subKeys → ∀ cs, runIter compositeKeyOps it cs = cs.map fun _ => .crash) ∧
          ((∀ s x, start = some s → l.head? = some x → ¬ BlockedBy x.1.subKeys s.subKeys) →
            ∃ bad, (∀ cs, runIter compositeKeyOps it cs = runCalls (tailCall bad) (codeRange compositeCmp start stop l) cs) ∧
              (bad = true → ∃ e, stop = some e ∧ ∃ x ∈ l, BlockedBy e.subKeys x.1.subKeys) ∧
              ((∀ s x, start = some s → l.head? = some x → compare s.subKeys x.1.subKeys ≠ .lt) →
                ∀ e y, stop = some e → l.find? (fun x => compare x.1.subKeys e.subKeys ≠ .lt) = some y →
                  BlockedBy e.subKeys y.1.subKeys → bad = true)) := by
  obtain ⟨hl, hg⟩ := C24_composite_keys
  have := hl.trans
  obtain ⟨hm, hr⟩ := runMap_runs hl hg os SortedMap.new (new_good (cmp := compositeCmp))
  rw [contents_new] at hr
  obtain ⟨f, hf, hc⟩ := runs_sub hr FMap.empty rfl
  obtain ⟨hi, hv⟩ := lists_entries _ hm
  refine ⟨f, hf, entries (runMap compositeKeyOps (SortedMap.new : SortedMap KeyObj V) os).1.root, hi, fun s v => ?_, ?_, fun it hit => ?_⟩
  · have := hv (.key ⟨false, s, none, 0⟩) v
    rw [hc] at this
    refine this.trans (exists_congr fun k => and_congr_right fun _ => ?_)
    simp only [compositeCmp, Std.LawfulEqCmp.compare_eq_iff_eq]
    exact eq_comm
  · have hok := rangeIterator_ok (ops := compositeKeyOps) (runMap compositeKeyOps (SortedMap.new : SortedMap KeyObj V) os).1 start stop
    rw [← not_iff_not, ← ne_eq, Option.ne_none_iff_exists', hok]
    constructor
    · rintro h ⟨s, e, hs, he, hgt⟩
      obtain ⟨c, h1, h2⟩ := h s e hs he
      exact h2 ((hl.compare_sign _ _ _ h1).2.mpr hgt)
    · intro h s e hs he
      rcases hcc : compositeKeyOps.compare s e with - | c
      · exact absurd ⟨s, e, hs, he, hg _ _ hcc⟩ h
      · exact ⟨c, rfl, fun h0 => h ⟨s, e, hs, he, (hl.compare_sign _ _ _ hcc).2.mp h0⟩⟩
  · have h := range_guarded hl hg _ hm.increasing start stop it hit
    simp only [ne_eq, compare_none_iff] at h
    exact h

/-- The keys of the examples: with the end `a`, the map of `a/b` alone, and the two maps with the same entries. -/
example : let m := (runMap compositeKeyOps SortedMap.new [.put keyA 1, .put keyAB 2, .put keyABC (3 : Nat), .remove keyABC]).1
    (m.rangeIterator compositeKeyOps none (some keyA)).map (fun it => runIter compositeKeyOps it [.hasNext]) = some [.crash] ∧
    (m.rangeIterator compositeKeyOps none (some keyAB)).map (fun it => runIter compositeKeyOps it [.hasNext, .next, .hasNext]) =
      some [.bool true, .yield (keyA, 1), .bool false] ∧
    (m.rangeIterator compositeKeyOps (some keyAB) none).map (fun it => runIter compositeKeyOps it [.next, .hasNext]) = some [.crash, .crash] ∧
    (m.rangeIterator compositeKeyOps (some keyAB) (some keyA)) = none := by decide +kernel

theorem runs_from {f f' : FMap (List Slice) V} {ops : List (MapOp (List Slice) V)} {rs : List (Option (Option V))}
    (h : FMap.Runs compare f ops rs f') (s : List Slice) (hs : (f' s).isSome) : (f s).isSome ∨ ∃ o ∈ ops, opKey o = s := by
  induction h with
  | nil => exact .inl hs
  | crash _ _ _ _ _ _ ih =>
    rcases ih hs with h | ⟨o, ho, rfl⟩
    · exact .inl h
    · exact .inr ⟨o, by simp [ho], rfl⟩
  | put m k v ops rs m' _ ih =>
    rcases ih hs with h | ⟨o, ho, rfl⟩
    · by_cases hk : k = s
      · exact .inr ⟨.put k v, by simp, hk⟩
      · simp only [FMap.put, Std.LawfulEqCmp.compare_eq_iff_eq] at h
        rw [if_neg (by simpa [eq_comm] using hk)] at h
        exact .inl h
    · exact .inr ⟨o, by simp [ho], rfl⟩
  | remove m k ops rs m' _ ih =>
    rcases ih hs with h | ⟨o, ho, rfl⟩
    · by_cases hk : k = s
      · exact .inr ⟨.remove k, by simp, hk⟩
      · simp only [FMap.remove, Std.LawfulEqCmp.compare_eq_iff_eq] at h
        rw [if_neg (by simpa [eq_comm] using hk)] at h
        exact .inl h
    · exact .inr ⟨o, by simp [ho], rfl⟩

/-- C214 where it is right: if no key of the map continues `e`, the iterator up to `e` returns the entries below `e`, then reports the end. -/
theorem C214_upTo_partial (os : List (MapOp KeyObj V)) (e : KeyObj)
    (hos : ∀ o ∈ os, ¬ BlockedBy e.subKeys (opKey o).subKeys) :
    ∃ f : FMap (List Slice) V, FMap.Runs compare FMap.empty (os.map onSub) (runMap compositeKeyOps SortedMap.new os).2 f ∧
      ∃ it, ∃ l : List (KeyObj × V), (runMap compositeKeyOps SortedMap.new os).1.rangeIterator compositeKeyOps none (some e) = some it ∧
        (∀ s v, f s = some v ↔ ∃ k, (k, v) ∈ l ∧ k.subKeys = s) ∧
        ∀ cs, runIter compositeKeyOps it cs = runCalls (listCall .crash) (l.filter fun x => compare x.1.subKeys e.subKeys == .lt) cs := by
  obtain ⟨f, h1, l, h2, h3, h4, h5⟩ := C214_range_partial os none (some e)
  obtain ⟨it, hit⟩ := (rangeIterator_ok (ops := compositeKeyOps) (runMap compositeKeyOps (SortedMap.new : SortedMap KeyObj V) os).1 none (some e)).mpr
    (by simp)
  obtain ⟨bad, g1, g2, -⟩ := (h5 it hit).2 (by simp)
  have hb : bad = false := by
    rcases bad with - | -
    · rfl
    · obtain ⟨e', he', x, hx, hbl⟩ := g2 rfl
      simp only [Option.some.injEq] at he'
      subst he'
      have hfx : (f x.1.subKeys).isSome := by
        rw [(h3 x.1.subKeys x.2).mpr ⟨x.1, hx, rfl⟩]
        rfl
      rcases runs_from h1 _ hfx with h | ⟨o, ho, h⟩
      · simp [FMap.empty] at h
      · obtain ⟨o', ho', rfl⟩ := List.mem_map.mp ho
        rw [← h, show opKey (onSub o') = (opKey o').subKeys by cases o' <;> rfl] at hbl
        exact absurd hbl (hos o' ho')
  subst hb
  refine ⟨f, h1, it, l, hit, h3, fun cs => ?_⟩
  rw [g1, AvlIter.runCalls_tail_false]
  simp [codeRange, InRange, compositeCmp]

example : ∀ o ∈ ([.put keyA 1, .put keyAB 2, .remove keyA] : List (MapOp KeyObj Nat)), ¬ BlockedBy keyAB.subKeys (opKey o).subKeys := by
  intro o ho
  rw [← compare_none_iff]
  revert o
  decide +kernel

/-! ### C215 Ranges of byte string keys -/

/-- The full claim of C215: an iterator up to `e` returns the entries with keys below `e`, then reports the end. -/
def ByteRangeIsRight : Prop :=
  ∀ (V : Type) (os : List (MapOp Bytes V)) (e : Bytes),
    ∃ f : FMap Bytes V, FMap.Runs compare FMap.empty os (runMap bytesOps SortedMap.new os).2 f ∧
      ∃ it l, (runMap bytesOps SortedMap.new os).1.rangeIterator bytesOps none (some e) = some it ∧ Lists compare f l ∧
        ∀ cs, runIter bytesOps it cs = runCalls (listCall .crash) (l.filter fun x => compare x.1 e == .lt) cs

/-- C215 is refuted: with the one key "ab", `HasNext` of the iterator up to "a" panics. -/
theorem C215_refuted : ¬ ByteRangeIsRight := by
  intro h
  obtain ⟨f, -, it, l, h1, -, h3⟩ := h Unit [.put [97, 98] ()] [97]
  have h4 : ((runMap bytesOps (SortedMap.new : SortedMap Bytes Unit) [.put [97, 98] ()]).1.rangeIterator bytesOps none (some [97])).map
      (fun it => runIter bytesOps it [.hasNext]) = some [.crash] := by
    decide +kernel
  rw [h1, Option.map_some, h3] at h4
  simp [runCalls, listCall] at h4

/-- Between a string and one that continues it there are only continuations. -/
theorem prefix_between (e t y : Bytes) (h1 : compare y e ≠ .lt) (h2 : compare y (e ++ t) ≠ .gt) : e <+: y := by
  induction e generalizing y with
  | nil => simp
  | cons a e ih =>
    cases y with
    | nil => exact absurd rfl h1
    | cons b y =>
      rw [List.cons_append, List.compare_cons_cons] at h2
      rw [List.compare_cons_cons] at h1
      cases hb : compare b a with
      | lt => rw [hb] at h1; exact absurd rfl h1
      | gt => rw [hb] at h2; exact absurd rfl h2
      | eq =>
        rw [hb] at h1 h2
        rw [Std.LawfulEqCmp.compare_eq_iff_eq] at hb
        subst hb
        exact List.cons_prefix_cons.mpr ⟨rfl, ih y h1 h2⟩

theorem find_first {l : List (K × V)} (hl : Increasing cmp l) {p : K × V → Bool} {x y : K × V} (hy : l.find? p = some y) (hx : x ∈ l) (hp : p x = true) :
    y = x ∨ cmp y.1 x.1 = .lt := by
  obtain ⟨-, as, bs, rfl, h⟩ := List.find?_eq_some_iff_append.mp hy
  simp only [List.mem_append, List.mem_cons] at hx
  rcases hx with hx | rfl | hx
  · have := h x hx
    rw [hp] at this
    simp at this
  · exact .inl rfl
  · exact .inr ((incr_tail (incr_append_right hl)).2 x hx)

/-- C215, what the code does: the entries are right and no call panics before the end.  `HasNext` at the end panics only if a key continues
`e`; if `e` itself is not a key, exactly then. -/
theorem C215_upTo_partial (os : List (MapOp Bytes V)) (e : Bytes) :
    ∃ f : FMap Bytes V, FMap.Runs compare FMap.empty os (runMap bytesOps SortedMap.new os).2 f ∧
      ∃ it l bad, (runMap bytesOps SortedMap.new os).1.rangeIterator bytesOps none (some e) = some it ∧ Lists compare f l ∧
        (∀ cs, runIter bytesOps it cs = runCalls (tailCall bad) (l.filter fun x => compare x.1 e == .lt) cs) ∧
        (bad = true → ∃ k, (f k).isSome ∧ e <+: k ∧ e ≠ k) ∧
        (f e = none → (∃ k, (f k).isSome ∧ e <+: k ∧ e ≠ k) → bad = true) := by
  obtain ⟨hl, hg⟩ := bytesOps_lawful
  have := hl.trans
  obtain ⟨hm, hr⟩ := runMap_runs hl hg os SortedMap.new (new_good (cmp := compare))
  rw [contents_new] at hr
  obtain ⟨it, hit⟩ := (rangeIterator_ok (ops := bytesOps) (runMap bytesOps (SortedMap.new : SortedMap Bytes V) os).1 none (some e)).mpr (by simp)
  obtain ⟨bad, g1, g2, g3⟩ := (range_guarded hl hg _ hm.increasing none (some e) it hit).2 (by simp)
  have hlist := lists_entries _ hm
  have hmem : ∀ k, ((contents compare (runMap bytesOps (SortedMap.new : SortedMap Bytes V) os).1) k).isSome ↔
      ∃ v, (k, v) ∈ entries (runMap bytesOps (SortedMap.new : SortedMap Bytes V) os).1.root := by
    intro k
    rw [Option.isSome_iff_exists]
    refine exists_congr fun v => (hlist.2 k v).trans ?_
    simp only [Std.LawfulEqCmp.compare_eq_iff_eq]
    constructor
    · rintro ⟨k', h, rfl⟩; exact h
    · exact fun h => ⟨k, h, rfl⟩
  have hnone : ∀ a b, bytesOps.compare a b = none ↔ b <+: a ∧ b ≠ a := by
    intro a b
    rw [bytesOps_compare]
    split
    · simpa
    · rename_i h
      exact ⟨by simp, fun h' => absurd h' h⟩
  refine ⟨_, hr, it, entries _, bad, hit, hlist, fun cs => ?_, fun hb => ?_, ?_⟩
  · rw [g1]
    simp [codeRange, InRange]
  · obtain ⟨e', he', x, hx, hc⟩ := g2 hb
    simp only [Option.some.injEq] at he'
    subst he'
    exact ⟨x.1, (hmem _).mpr ⟨x.2, hx⟩, (hnone _ _).mp hc⟩
  · rintro hfe ⟨k, hk, ⟨t, rfl⟩, hne⟩
    obtain ⟨v, hv⟩ := (hmem _).mp hk
    have hgt : compare (e ++ t) e ≠ .lt := by
      rw [hg _ _ ((hnone (e ++ t) e).mpr ⟨⟨t, rfl⟩, hne⟩)]
      simp
    cases hfd : (entries (runMap bytesOps (SortedMap.new : SortedMap Bytes V) os).1.root).find? (fun x => compare x.1 e ≠ .lt) with
    | none =>
      rw [List.find?_eq_none] at hfd
      exact absurd (hfd _ hv) (by simpa using hgt)
    | some y =>
      refine g3 (by simp) e y rfl hfd ((hnone _ _).mpr ⟨prefix_between e t y.1 ?_ ?_, ?_⟩)
      · have := List.find?_some hfd
        simpa using this
      · have hp : decide (compare ((e ++ t, v) : Bytes × V).1 e ≠ .lt) = true := by simpa using hgt
        rcases find_first hm.increasing hfd hv hp with h | h
        · rw [h, Std.ReflOrd.compare_self]
          simp
        · rw [h]
          simp
      · intro heq
        have hy := List.mem_of_find?_eq_some hfd
        have : (contents compare (runMap bytesOps (SortedMap.new : SortedMap Bytes V) os).1 e).isSome := (hmem e).mpr ⟨y.2, by rw [heq]; exact hy⟩
        rw [hfe] at this
        simp at this

/-- The keys "a", "b", "ba", "c": up to "b" it depends on the tree, up to "ba" and "aa" all is right; without the key "b", the end panics. -/
example : let m := (runMap bytesOps SortedMap.new [.put [97] 1, .put [98] 2, .put [98, 97] 3, .put [99] (4 : Nat)]).1
    let m' := (m.remove bytesOps [98]).1
    (m.rangeIterator bytesOps none (some [98, 97])).map (fun it => runIter bytesOps it [.next, .next, .hasNext]) =
      some [.yield ([97], 1), .yield ([98], 2), .bool false] ∧
    (m.rangeIterator bytesOps none (some [97, 97])).map (fun it => runIter bytesOps it [.next, .hasNext]) = some [.yield ([97], 1), .bool false] ∧
    (m'.rangeIterator bytesOps none (some [98])).map (fun it => runIter bytesOps it [.next, .hasNext]) = some [.yield ([97], 1), .crash] := by
  decide +kernel

end Poodle.Props
