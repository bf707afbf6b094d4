import Verif.Lemmas.RangeEnd
import Verif.Props.RangePanic

/-
C214 and C215, exactly: the end of a range panics if and only if `Get` of the end does (/repo/src/collection/avl.go:265-278, :400-500).
-/

namespace Poodle.Props
open Poodle Poodle.Spec AvlIter

variable {K V : Type} {ops : KeyOps K} {cmp : K → K → Ordering}

theorem rangeEnd_get_none (m : SortedMap K V) (k : K) : m.get ops k = none ↔ m.root.getR ops k = none := by
  simp [SortedMap.get, SortedMap.getNode]

theorem itBad_new (start stop : Option K) (m : SortedMap K V) (hops : LawfulKeys ops cmp) (hg : GuardedKeys ops cmp) (hm : Increasing cmp (entries m.root))
    (it : AvlIter K V) (hit : m.rangeIterator ops start stop = some it) (e : K) : itBad cmp ops e it = true ↔ m.get ops e = none := by
  have := hops.trans
  rw [rangeEnd_get_none, ← searchBad_get hops hg e m.root hm]
  have h2 : it = ⟨(AvlIter.descend m.root []).2, (AvlIter.descend m.root []).1, 0, start, stop⟩ := by
    simp only [SortedMap.rangeIterator, AvlIter.new] at hit
    split at hit
    · split at hit
      · simp at hit
      · split at hit
        · simp at hit
        · simpa using hit.symm
    · simpa using hit.symm
  subst h2
  cases hr : m.root with
  | nil => simp [itBad, AvlIter.descend, searchBad]
  | node k v b l r =>
    rw [hr] at hm
    have h := descend_bad (ops := ops) e (.node k v b l r) (by simp) hm []
    obtain ⟨k', v', b', r', ps, h1, -, -⟩ := descend_spec (.node k v b l r) (by simp) [] (by simp)
    rw [h1] at h ⊢
    simp only [List.any_nil, Bool.or_false] at h
    rw [← h]
    simp [itBad]

/-- All calls on a range iterator, exactly. -/
theorem range_exact (hops : LawfulKeys ops cmp) (hg : GuardedKeys ops cmp) (m : SortedMap K V) (hm : Increasing cmp (entries m.root))
    (start stop : Option K) (it : AvlIter K V) (hit : m.rangeIterator ops start stop = some it)
    (hs : ∀ s x, start = some s → (entries m.root).head? = some x → ops.compare s x.1 ≠ none) :
    ∃ bad, (∀ cs, runIter ops it cs = runCalls (tailCall bad) (codeRange cmp start stop (entries m.root)) cs) ∧
      (bad = true ↔ (∃ e, stop = some e ∧ m.get ops e = none) ∧
        ∀ s x, start = some s → (entries m.root).head? = some x → cmp s x.1 ≠ .lt) := by
  have := hops.trans
  obtain ⟨bad, g1, g2, -⟩ := (range_guarded hops hg m hm start stop it hit).2 hs
  cases stop with
  | none =>
    refine ⟨false, fun cs => ?_, by simp⟩
    have hb : bad = false := by
      cases bad
      · rfl
      · obtain ⟨e, he, -⟩ := g2 rfl
        simp at he
    rw [g1, hb]
  | some e =>
    obtain ⟨hw, ho⟩ := new_spec (cmp := cmp) _ _ _ hm it hit
    obtain ⟨h1, h2, h3⟩ := new_fields _ _ _ _ hit
    have hbad := itBad_new start (some e) m hops hg hm it hit e
    have hc : ∀ st, rangeOut cmp st (some e) (entries m.root) = codeRange cmp st (some e) (entries m.root) := by
      intro st
      cases st with
      | none => simp [rangeOut, codeRange, below_eq_filter _ _ hm]
      | some s =>
        cases hl : entries m.root with
        | nil => simp [rangeOut, codeRange]
        | cons x l =>
          rw [hl] at hm
          simp [rangeOut, codeRange, below_eq_filter _ _ hm]
    cases start with
    | none =>
      refine ⟨itBad cmp ops e it, fun cs => ?_, by simpa using hbad⟩
      rw [← hc, ← ho]
      exact upTo_exact hops hg e _ it rfl hw h1 h2 cs
    | some s =>
      cases hh : (entries m.root).head? with
      | none =>
        have he : entries m.root = [] := by simpa using hh
        refine ⟨itBad cmp ops e it, fun cs => ?_, by simpa using hbad⟩
        have hf : itBad cmp ops e it = false := by
          rw [← Bool.not_eq_true, hbad, rangeEnd_get_none]
          have : m.root = .nil := by
            cases hr : m.root with
            | nil => rfl
            | node => rw [hr] at he; simp [entries] at he
          simp [this, Tree.getR]
        have hb : bad = false := by
          cases bad
          · rfl
          · obtain ⟨_, -, x, hx, -⟩ := g2 rfl
            rw [he] at hx
            simp at hx
        rw [hf, g1, hb]
      | some x =>
        by_cases hlt : cmp s x.1 = .lt
        · refine ⟨false, fun cs => ?_, ?_⟩
          · have hcr : codeRange cmp (some s) (some e) (entries m.root) = [] := by simp [codeRange, hh, hlt]
            rw [hcr]
            have hsh := new_shaped _ _ _ _ hit
            rcases advance_front it hsh with ⟨e1, q, s', e', e2⟩ | ⟨ps, k, v, b, l, r, e1, e2, e3⟩
            · rw [runCalls_tail_false]
              exact runIter_done it q s' e' (e2 ops) cs
            · have hx : x = (k, v) := by
                rw [← h3, e2] at hh
                simpa using hh.symm
              subst hx
              have e4 := e3 ops
              have hsrt : Increasing cmp ((k, v) :: entries r ++ pathOut ps) := by
                rw [← e2, h3]; exact hm
              rw [h1] at e4
              simp only [bounds, startLoop_guarded hops hg s ps e1 k v b l r 0 hsrt hlt] at e4
              rw [runCalls_tail_false]
              exact runIter_done it _ _ _ e4 cs
          · simp only [Bool.false_eq_true, false_iff, not_and]
            intro _ h
            exact h s x rfl rfl hlt
        · refine ⟨itBad cmp ops e it, fun cs => ?_, ?_⟩
          · rw [start_dropped hops it hw s h1 x (by rw [h3]; exact hh) (hs s x rfl hh) hlt cs]
            have hw' : WfIter cmp ({ it with start := none } : AvlIter K V) := ⟨hw.pos, hw.paths, hw.sorted, by simp⟩
            have := upTo_exact hops hg e _ { it with start := none } rfl hw' rfl h2 cs
            rw [this, ← hc, ← ho]
            have e1 : itBad cmp ops e ({ it with start := none } : AvlIter K V) = itBad cmp ops e it := rfl
            have e2 : out cmp ({ it with start := none } : AvlIter K V) = out cmp it := by
              cases hl : rem it with
              | nil => rw [h3] at hl; rw [hl] at hh; simp at hh
              | cons y ys =>
                have hy : y = x := by
                  rw [h3] at hl; rw [hl] at hh; simpa using hh
                subst hy
                have hl' : rem ({ it with start := none } : AvlIter K V) = y :: ys := hl
                simp only [out, hl, hl', h1, if_neg hlt]
            rw [e1, e2]
          · rw [hbad]
            constructor
            · intro h
              refine ⟨⟨e, rfl, h⟩, ?_⟩
              intro s' x' hs' hx'
              simp only [Option.some.injEq] at hs' hx'
              subst hs' hx'
              exact hlt
            · rintro ⟨⟨e', he', h⟩, -⟩
              simp only [Option.some.injEq] at he'
              subst he'
              exact h

/-- C214, exactly: `HasNext` at the end of a range panics if and only if `Get` of the end would (and the range is not empty because its start is
below the smallest key); all else is as for other keys. -/
theorem C214_exact_partial (os : List (MapOp KeyObj V)) (start stop : Option KeyObj) :
    let m := (runMap compositeKeyOps SortedMap.new os).1
    ∃ f : FMap (List Slice) V, FMap.Runs compare FMap.empty (os.map onSub) (runMap compositeKeyOps SortedMap.new os).2 f ∧
      ∃ l : List (KeyObj × V), l.Pairwise (fun a b => compare a.1.subKeys b.1.subKeys = .lt) ∧
        (∀ s v, f s = some v ↔ ∃ k, (k, v) ∈ l ∧ k.subKeys = s) ∧
        ∀ it, m.rangeIterator compositeKeyOps start stop = some it →
          (∀ s x, start = some s → l.head? = some x → ¬ BlockedBy x.1.subKeys s.subKeys) →
            ∃ bad, (∀ cs, runIter compositeKeyOps it cs = runCalls (tailCall bad) (codeRange compositeCmp start stop l) cs) ∧
              (bad = true ↔ (∃ e, stop = some e ∧ m.get compositeKeyOps e = none) ∧
                ∀ s x, start = some s → l.head? = some x → compare s.subKeys x.1.subKeys ≠ .lt) := by
  obtain ⟨hl, hg⟩ := C24_composite_keys
  have := hl.trans
  obtain ⟨hm, hr⟩ := runMap_runs hl hg os SortedMap.new (new_good (cmp := compositeCmp))
  rw [contents_new] at hr
  obtain ⟨f, hf, hc⟩ := runs_sub hr FMap.empty rfl
  obtain ⟨hi, hv⟩ := lists_entries _ hm
  refine ⟨f, hf, entries (runMap compositeKeyOps (SortedMap.new : SortedMap KeyObj V) os).1.root, hi, fun s v => ?_, fun it hit hs => ?_⟩
  · have := hv (.key ⟨false, s, none, 0⟩) v
    rw [hc] at this
    refine this.trans (exists_congr fun k => and_congr_right fun _ => ?_)
    simp only [compositeCmp, Std.LawfulEqCmp.compare_eq_iff_eq]
    exact eq_comm
  · exact range_exact hl hg _ hm.increasing start stop it hit fun s x h1 h2 h3 => hs s x h1 h2 ((compare_none_iff _ _).mp h3)

/-- The two maps with the entries for `a` and `a/b`: in one `Get` of `a` works and the range up to `a` ends, in the other both panic. -/
example : let m := (runMap compositeKeyOps SortedMap.new [.put keyA 1, .put keyAB (2 : Nat)]).1
    let m' := (runMap compositeKeyOps SortedMap.new [.put keyA 1, .put keyAB 2, .put keyABC (3 : Nat), .remove keyABC]).1
    m.get compositeKeyOps keyA = some (some 1) ∧ m'.get compositeKeyOps keyA = none ∧
    (m.rangeIterator compositeKeyOps none (some keyA)).map (fun it => runIter compositeKeyOps it [.hasNext]) = some [.bool false] ∧
    (m'.rangeIterator compositeKeyOps none (some keyA)).map (fun it => runIter compositeKeyOps it [.hasNext]) = some [.crash] := by decide +kernel

/-- C215, exactly, for an end without a start: `HasNext` at the end panics if and only if `Get` of the end would. -/
theorem C215_exact_partial (os : List (MapOp Bytes V)) (e : Bytes) :
    let m := (runMap bytesOps SortedMap.new os).1
    ∃ f : FMap Bytes V, FMap.Runs compare FMap.empty os (runMap bytesOps SortedMap.new os).2 f ∧
      ∃ it l bad, m.rangeIterator bytesOps none (some e) = some it ∧ Lists compare f l ∧
        (∀ cs, runIter bytesOps it cs = runCalls (tailCall bad) (l.filter fun x => compare x.1 e == .lt) cs) ∧
        (bad = true ↔ m.get bytesOps e = none) := by
  obtain ⟨hl, hg⟩ := bytesOps_lawful
  have := hl.trans
  obtain ⟨hm, hr⟩ := runMap_runs hl hg os SortedMap.new (new_good (cmp := compare))
  rw [contents_new] at hr
  obtain ⟨it, hit⟩ := (rangeIterator_ok (ops := bytesOps) (runMap bytesOps (SortedMap.new : SortedMap Bytes V) os).1 none (some e)).mpr (by simp)
  obtain ⟨bad, g1, g2⟩ := range_exact hl hg _ hm.increasing none (some e) it hit (by simp)
  refine ⟨_, hr, it, entries _, bad, hit, lists_entries _ hm, fun cs => ?_, by simpa using g2⟩
  rw [g1]
  simp [codeRange, InRange]

example : let m := (runMap bytesOps SortedMap.new [.put [97, 98] 1, .put [98] (3 : Nat)]).1
    m.get bytesOps [97] = none ∧ m.get bytesOps [98] = some (some 3) ∧
    (m.rangeIterator bytesOps none (some [98])).map (fun it => runIter bytesOps it [.next, .hasNext]) = some [.yield ([97, 98], 1), .bool false] := by
  decide +kernel

end Poodle.Props
