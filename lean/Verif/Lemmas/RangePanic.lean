import Verif.Lemmas.AvlIterHalf
import Verif.Spec.RangePanic
import Verif.Props.SortedIter

/-
Range iteration where comparisons may panic.
-/

namespace Poodle
open Poodle.Spec Poodle.Props

variable {K V : Type} {cmp : K → K → Ordering} {ops : KeyOps K}

namespace AvlIter

/-- Where `advance` starts to look at the bounds, for any comparison. -/
theorem advance_front (it : AvlIter K V) (hw : Shaped it) :
    (rem it = [] ∧ ∃ q s e, ∀ ops : KeyOps K, advance ops it = some ⟨[], .nil, q, s, e⟩) ∨
    ∃ ps k v b l r, (∀ p ∈ ps, p ≠ .nil) ∧ rem it = (k, v) :: entries r ++ pathOut ps ∧
      ∀ ops : KeyOps K, advance ops it = bounds ops ⟨ps, .node k v b l r, 0, it.start, it.stop⟩ := by
  obtain ⟨paths, curr, pos, start, stop⟩ := it
  obtain ⟨wpos, wp⟩ := hw
  simp only at wpos wp
  cases curr with
  | nil =>
    cases paths with
    | nil => exact .inl ⟨by simp [rem, pathOut], pos, start, stop, fun _ => rfl⟩
    | cons p ps =>
      cases p with
      | nil => exact absurd rfl (wp .nil (by simp))
      | node pk pv pb pl pr =>
        exact .inr ⟨ps, pk, pv, pb, pl, pr, fun x hx => wp x (by simp [hx]), by simp [rem, pathOut], fun _ => rfl⟩
  | node k v b l r =>
    rcases wpos with rfl | rfl
    · exact .inr ⟨paths, k, v, b, l, r, wp, by simp [rem], fun _ => rfl⟩
    · cases r with
      | nil =>
        cases paths with
        | nil => exact .inl ⟨by simp [rem, pathOut, entries], 1, none, none, fun _ => rfl⟩
        | cons p ps =>
          cases p with
          | nil => exact absurd rfl (wp .nil (by simp))
          | node pk pv pb pl pr =>
            exact .inr ⟨ps, pk, pv, pb, pl, pr, fun x hx => wp x (by simp [hx]), by simp [rem, pathOut, entries], fun _ => rfl⟩
      | node rk rv rb rl rr =>
        obtain ⟨k', v', b', r', ps, h1, h2, h3⟩ := descend_spec (.node rk rv rb rl rr) (by simp) paths wp
        refine .inr ⟨ps, k', v', b', .nil, r', h2, by rw [h3]; simp [rem], fun ops => ?_⟩
        simp only [AvlIter.advance, AvlIter.step]
        rw [h1]

theorem runIter_stuck (x : AvlIter K V) (hx : advance ops x = none) (cs : List IterCall) : runIter ops x cs = cs.map fun _ => .crash := by
  induction cs with
  | nil => rfl
  | cons c cs ih =>
    have hc : x.sortedCall ops c = (x, .crash) := by
      cases c <;> simp [sortedCall, call, next, hasNext, peek, hx]
    simp only [runIter, runCalls, hc, List.map_cons, List.cons.injEq, true_and]
    exact ih

/-- Calls on an exhausted iterator. -/
theorem runIter_done (x : AvlIter K V) (q : Nat) (s e : Option K) (hx : advance ops x = some ⟨[], .nil, q, s, e⟩) (cs : List IterCall) :
    runIter ops x cs = runCalls (listCall .crash) [] cs := by
  have h1 : ∀ cs, runIter ops (⟨[], .nil, q, s, e⟩ : AvlIter K V) cs = runCalls (listCall .crash) [] cs := by
    intro cs
    induction cs with
    | nil => rfl
    | cons c cs ih =>
      cases c <;> simp only [runIter, runCalls, sortedCall, call, next, hasNext, peek, advance, listCall, List.cons.injEq] <;>
        exact ⟨by simp, ih⟩
  cases cs with
  | nil => rfl
  | cons c cs =>
    cases c <;> simp only [runIter, runCalls, sortedCall, call, next, hasNext, peek, hx, listCall, List.cons.injEq] <;>
      exact ⟨by simp, h1 cs⟩

/-- Calls on an iterator that stands before an entry. -/
theorem runIter_at (x : AvlIter K V) (ps : List (Tree K V)) (k : K) (v : V) (b : Int) (l r : Tree K V) (stop : Option K)
    (hx : advance ops x = some ⟨ps, .node k v b l r, 0, none, stop⟩)
    (hy : advance ops ⟨ps, .node k v b l r, 0, none, stop⟩ = some ⟨ps, .node k v b l r, 0, none, stop⟩)
    (bad : Bool) (o : List (K × V))
    (hn : ∀ cs, runIter ops ⟨ps, .node k v b l r, 1, none, stop⟩ cs = runCalls (tailCall bad) o cs) (cs : List IterCall) :
    runIter ops x cs = runCalls (tailCall bad) ((k, v) :: o) cs := by
  induction cs generalizing x with
  | nil => rfl
  | cons c cs ih =>
    cases c
    · simp only [runIter, runCalls, sortedCall, call, next, hx, listCall, tailCall, List.isEmpty_cons, Bool.and_false, Bool.false_eq_true,
        if_false, List.cons.injEq, true_and]
      exact hn cs
    · simp only [runIter, runCalls, sortedCall, call, hasNext, hx, listCall, tailCall, List.isEmpty_cons, Bool.and_false, Bool.false_eq_true,
        if_false, List.cons.injEq]
      exact ⟨rfl, ih _ hy⟩
    · simp only [runIter, runCalls, sortedCall, call, peek, hx, listCall, tailCall, List.isEmpty_cons, Bool.and_false, Bool.false_eq_true,
        if_false, List.cons.injEq, true_and]
      exact ih _ hy

theorem runCalls_tail_false {α : Type} (l : List α) (cs : List IterCall) : runCalls (tailCall false) l cs = runCalls (listCall .crash) l cs := by
  have : (tailCall false : List α → _) = listCall .crash := by
    funext l c
    simp [tailCall]
  rw [this]

theorem runCalls_tail_true {α : Type} (cs : List IterCall) : runCalls (tailCall true) ([] : List α) cs = cs.map fun _ => .crash := by
  induction cs with
  | nil => rfl
  | cons c cs ih => simp [runCalls, tailCall, ih]

/-- The end loop where comparisons may panic. -/
theorem endLoop_guarded (hops : LawfulKeys ops cmp) (hg : GuardedKeys ops cmp) (e : K) (paths : List (Tree K V))
    (hp : ∀ x ∈ paths, x ≠ .nil) (k : K) (v : V) (b : Int) (l r : Tree K V) (pos : Nat)
    (hs : Increasing cmp ((k, v) :: entries r ++ pathOut paths)) :
    (cmp k e = .lt ∧ endLoop ops e paths (.node k v b l r) pos = some (some (.node k v b l r, paths, pos))) ∨
    (cmp k e ≠ .lt ∧ ops.compare k e ≠ none ∧ endLoop ops e paths (.node k v b l r) pos = some none) ∨
    (cmp k e ≠ .lt ∧ endLoop ops e paths (.node k v b l r) pos = none ∧
      ∃ x ∈ (k, v) :: entries r ++ pathOut paths, ops.compare x.1 e = none) := by
  have := hops.trans
  induction paths generalizing k v b l r pos with
  | nil =>
    unfold AvlIter.endLoop
    cases hc : ops.compare k e with
    | none => exact .inr (.inr ⟨by rw [hg _ _ hc]; simp, by simp [hc], (k, v), by simp, hc⟩)
    | some c =>
      have := (hops.compare_sign _ _ _ hc).1
      by_cases hlt : c < 0
      · left; exact ⟨this.mp hlt, by simp [hc, show ¬ 0 ≤ c by omega]⟩
      · right; left; exact ⟨fun h => hlt (this.mpr h), by simp, by simp [hc, show 0 ≤ c by omega]⟩
  | cons p ps ih =>
    unfold AvlIter.endLoop
    cases hc : ops.compare k e with
    | none => exact .inr (.inr ⟨by rw [hg _ _ hc]; simp, by simp [hc], (k, v), by simp, hc⟩)
    | some c =>
      have hsgn := (hops.compare_sign _ _ _ hc).1
      by_cases hlt : c < 0
      · left; exact ⟨hsgn.mp hlt, by simp [hc, show ¬ 0 ≤ c by omega]⟩
      · right
        have hnl : cmp k e ≠ .lt := fun h => hlt (hsgn.mpr h)
        cases p with
        | nil => exact absurd rfl (hp .nil (by simp))
        | node pk pv pb pl pr =>
          simp only [pathOut] at hs
          rw [List.cons_append] at hs
          have hpk : cmp k pk = .lt := (incr_tail hs).2 (pk, pv) (by simp)
          have hs2 : Increasing cmp ((pk, pv) :: entries pr ++ pathOut ps) := incr_append_right (A := entries r) (incr_tail hs).1
          simp only [hc, ge_iff_le, show 0 ≤ c by omega, if_true]
          rcases ih (fun x hx => hp x (by simp [hx])) pk pv pb pl pr 0 hs2 with ⟨h1, -⟩ | ⟨-, -, h2⟩ | ⟨-, h2, x, h3, h4⟩
          · exact absurd (cmp_lt_trans hpk h1) hnl
          · exact .inl ⟨hnl, by simp, h2⟩
          · refine .inr ⟨hnl, h2, x, ?_, h4⟩
            simp only [pathOut]
            simp only [List.mem_cons, List.mem_append, List.cons_append] at h3 ⊢
            tauto

/-- All calls on an iterator without start, by the entries to come. -/
theorem upTo_guarded (hops : LawfulKeys ops cmp) (hg : GuardedKeys ops cmp) (n : Nat) (it : AvlIter K V) (hn : (out cmp it).length = n)
    (hw : WfIter cmp it) (hst : it.start = none) :
    ∃ bad, (∀ cs, runIter ops it cs = runCalls (tailCall bad) (out cmp it) cs) ∧
      (bad = true → ∃ e, it.stop = some e ∧ ∃ x ∈ rem it, ops.compare x.1 e = none) ∧
      (∀ e y, it.stop = some e → (rem it).find? (fun x => cmp x.1 e ≠ .lt) = some y → ops.compare y.1 e = none → bad = true) := by
  have := hops.trans
  induction n generalizing it with
  | zero =>
    have ho : out cmp it = [] := List.eq_nil_of_length_eq_zero hn
    rw [ho]
    rcases advance_front it ⟨hw.pos, hw.paths⟩ with ⟨h1, q, s, e, h2⟩ | ⟨ps, k, v, b, l, r, h1, h2, h3⟩
    · refine ⟨false, fun cs => ?_, by simp, by simp [h1]⟩
      rw [runCalls_tail_false]
      exact runIter_done it q s e (h2 ops) cs
    · have h4 := h3 ops
      have ho2 := ho
      simp only [out, hst, h2] at ho2
      rw [List.cons_append, below_cons] at ho2
      split at ho2
      · simp at ho2
      · rename_i hne
        rcases hsp : it.stop with - | e
        · simp [hsp] at hne
        · simp only [hsp, Option.some.injEq, forall_eq'] at hne
          rw [hst, hsp] at h4
          simp only [bounds, boundEnd] at h4
          rcases endLoop_guarded hops hg e ps h1 k v b l r 0 (by rw [← h2]; exact hw.sorted) with ⟨g1, -⟩ | ⟨-, g2, g3⟩ | ⟨-, g2, g3⟩
          · exact absurd g1 hne
          · rw [g3] at h4
            simp only at h4
            refine ⟨false, fun cs => ?_, by simp, ?_⟩
            · rw [runCalls_tail_false]
              exact runIter_done it _ _ _ h4 cs
            · intro e' y he' hy
              simp only [Option.some.injEq] at he'
              subst he'
              rw [h2] at hy
              simp only [List.cons_append, List.find?_cons, ne_eq, hne, not_false_eq_true, decide_true, Option.some.injEq] at hy
              subst hy
              exact fun h => absurd h g2
          · rw [g2] at h4
            simp only at h4
            refine ⟨true, fun cs => ?_, fun _ => ⟨e, rfl, by rw [h2]; exact g3⟩, by simp⟩
            rw [runCalls_tail_true]
            exact runIter_stuck it h4 cs
  | succ n ih =>
    rcases advance_front it ⟨hw.pos, hw.paths⟩ with ⟨h1, q, s, e, h2⟩ | ⟨ps, k, v, b, l, r, h1, h2, h3⟩
    · have : out cmp it = [] := by
        simp only [out, hst, h1]
        cases it.stop <;> simp [below]
      rw [this] at hn
      simp at hn
    · have ho : out cmp it = below cmp it.stop ((k, v) :: (entries r ++ pathOut ps)) := by simp only [out, hst, h2, List.cons_append]
      have hs := hw.sorted
      rw [h2] at hs
      rw [below_cons] at ho
      split at ho
      · rename_i hlt
        have hy : advance ops (⟨ps, .node k v b l r, 0, none, it.stop⟩ : AvlIter K V) = some ⟨ps, .node k v b l r, 0, none, it.stop⟩ := by
          simp only [advance, step, bounds, boundEnd]
          rcases hsp : it.stop with - | e
          · rfl
          · rcases endLoop_guarded hops hg e ps h1 k v b l r 0 hs with ⟨-, g1⟩ | ⟨g2, -⟩ | ⟨g2, -⟩
            · simp only [g1]
            · exact absurd (hlt e hsp) g2
            · exact absurd (hlt e hsp) g2
        have hx : advance ops it = some ⟨ps, .node k v b l r, 0, none, it.stop⟩ := by
          rw [h3 ops, hst]
          exact hy
        have hr : rem (⟨ps, .node k v b l r, 1, none, it.stop⟩ : AvlIter K V) = entries r ++ pathOut ps := by simp [rem]
        have ho1 : out cmp (⟨ps, .node k v b l r, 1, none, it.stop⟩ : AvlIter K V) = below cmp it.stop (entries r ++ pathOut ps) := by
          simp [out, hr]
        obtain ⟨bad, g1, g2, g3⟩ := ih ⟨ps, .node k v b l r, 1, none, it.stop⟩ (by
            rw [ho] at hn
            rw [ho1]
            simpa using hn)
          ⟨.inr rfl, h1, by rw [hr]; exact (incr_tail hs).1, by simp⟩ rfl
        rw [ho1] at g1
        rw [hr] at g2 g3
        refine ⟨bad, fun cs => ?_, fun hb => ?_, fun e y he hy2 => ?_⟩
        · rw [ho]
          exact runIter_at it ps k v b l r it.stop hx hy bad _ g1 cs
        · obtain ⟨e, he, x, hx1, hx2⟩ := g2 hb
          exact ⟨e, he, x, by rw [h2]; simp only [List.cons_append, List.mem_cons]; exact .inr hx1, hx2⟩
        · apply g3 e y he
          rw [h2] at hy2
          simpa [List.find?_cons, hlt e he] using hy2
      · rw [ho] at hn
        simp at hn

theorem startSpine_guarded (hops : LawfulKeys ops cmp) (hg : GuardedKeys ops cmp) (s : K) (k : K) (v : V) (b : Int) (l r : Tree K V)
    (hk : cmp s k = .lt) (h : ∀ e ∈ entries r, cmp s e.1 = .lt) : startSpine ops s (.node k v b l r) = some none := by
  induction r generalizing k v b l with
  | nil =>
    unfold startSpine
    cases hc : ops.compare s k with
    | none => rw [hg _ _ hc] at hk; simp at hk
    | some c => simp [(hops.compare_sign _ _ _ hc).1.mpr hk]
  | node rk rv rb rl rr _ ih =>
    unfold startSpine
    cases hc : ops.compare s k with
    | none => rw [hg _ _ hc] at hk; simp at hk
    | some c =>
      simp only [(hops.compare_sign _ _ _ hc).1.mpr hk, if_true]
      exact ih rk rv rb rl (h (rk, rv) (by simp [entries])) fun e he => h e (by simp [entries, he])

theorem startLoop_guarded (hops : LawfulKeys ops cmp) (hg : GuardedKeys ops cmp) (s : K) (paths : List (Tree K V))
    (hp : ∀ x ∈ paths, x ≠ .nil) (k : K) (v : V) (b : Int) (l r : Tree K V) (pos : Nat)
    (hs : Increasing cmp ((k, v) :: entries r ++ pathOut paths)) (hlt : cmp s k = .lt) :
    startLoop ops s paths (.node k v b l r) pos = some none := by
  have := hops.trans
  induction paths generalizing k v b l r pos with
  | nil =>
    unfold startLoop
    rw [List.cons_append] at hs
    rw [startSpine_guarded hops hg s k v b l r hlt fun e he => cmp_lt_trans hlt ((incr_tail hs).2 e (by simp [he]))]
  | cons p ps ih =>
    unfold startLoop
    rw [List.cons_append] at hs
    rw [startSpine_guarded hops hg s k v b l r hlt fun e he => cmp_lt_trans hlt ((incr_tail hs).2 e (by simp [he]))]
    cases p with
    | nil => exact absurd rfl (hp .nil (by simp))
    | node pk pv pb pl pr =>
      simp only [pathOut] at hs
      have hpk : cmp k pk = .lt := (incr_tail hs).2 (pk, pv) (by simp)
      exact ih (fun x hx => hp x (by simp [hx])) pk pv pb pl pr 0
        (incr_append_right (A := entries r) (incr_tail hs).1) (cmp_lt_trans hlt hpk)

/-- All calls on an iterator with a start. -/
theorem from_guarded (hops : LawfulKeys ops cmp) (hg : GuardedKeys ops cmp) (it : AvlIter K V) (hw : WfIter cmp it) (s : K) (hst : it.start = some s) :
    (∀ x, (rem it).head? = some x → ops.compare s x.1 = none → ∀ cs, runIter ops it cs = cs.map fun _ => .crash) ∧
    ((∀ x, (rem it).head? = some x → ops.compare s x.1 ≠ none) →
      ∃ bad, (∀ cs, runIter ops it cs = runCalls (tailCall bad) (out cmp it) cs) ∧
        (bad = true → ∃ e, it.stop = some e ∧ ∃ x ∈ rem it, ops.compare x.1 e = none) ∧
        ((∀ x, (rem it).head? = some x → cmp s x.1 ≠ .lt) →
          ∀ e y, it.stop = some e → (rem it).find? (fun x => cmp x.1 e ≠ .lt) = some y → ops.compare y.1 e = none → bad = true)) := by
  have := hops.trans
  rcases advance_front it ⟨hw.pos, hw.paths⟩ with ⟨h1, q, s', e, h2⟩ | ⟨ps, k, v, b, l, r, h1, h2, h3⟩
  · refine ⟨by simp [h1], fun _ => ⟨false, fun cs => ?_, by simp, by simp [h1]⟩⟩
    rw [runCalls_tail_false, runIter_done it q s' e (h2 ops) cs]
    simp [out, hst, h1]
  · have h4 := h3 ops
    rw [hst] at h4
    simp only [bounds] at h4
    have hs := hw.sorted
    rw [h2] at hs
    rw [h2]
    simp only [List.cons_append, List.head?_cons, Option.some.injEq, forall_eq']
    constructor
    · intro hc cs
      refine runIter_stuck it ?_ cs
      rw [h4]
      unfold startLoop startSpine
      simp [hc]
    · intro hc
      by_cases hlt : cmp s k = .lt
      · rw [startLoop_guarded hops hg s ps h1 k v b l r 0 hs hlt] at h4
        refine ⟨false, fun cs => ?_, by simp, fun h => absurd hlt h⟩
        rw [runCalls_tail_false, runIter_done it _ _ _ h4 cs]
        simp [out, hst, h2, hlt]
      · have hsl : startLoop ops s ps (.node k v b l r) 0 = some (some (.node k v b l r, ps, 0)) := by
          rcases hcc : ops.compare s k with - | c
          · exact absurd hcc hc
          · have hn : ¬ c < 0 := fun h => hlt ((hops.compare_sign _ _ _ hcc).1.mp h)
            unfold startLoop startSpine
            simp [hcc, hn]
        rw [hsl] at h4
        simp only at h4
        have hw2 : WfIter cmp (⟨ps, .node k v b l r, 0, none, it.stop⟩ : AvlIter K V) := ⟨.inl rfl, h1, by simpa [rem] using hs, by simp⟩
        obtain ⟨bad, g1, g2, g3⟩ := upTo_guarded hops hg _ ⟨ps, .node k v b l r, 0, none, it.stop⟩ rfl hw2 rfl
        have hr : rem (⟨ps, .node k v b l r, 0, none, it.stop⟩ : AvlIter K V) = (k, v) :: (entries r ++ pathOut ps) := by simp [rem]
        have ho : out cmp (⟨ps, .node k v b l r, 0, none, it.stop⟩ : AvlIter K V) = out cmp it := by
          simp [out, hst, h2, hlt, hr]
        rw [hr] at g2 g3
        rw [ho] at g1
        refine ⟨bad, fun cs => ?_, g2, fun _ => g3⟩
        rw [← g1]
        have ha : advance ops it = advance ops (⟨ps, .node k v b l r, 0, none, it.stop⟩ : AvlIter K V) := h4
        have hsh := fun j o h => advanceH_spec (ops := ops) (⟨ps, .node k v b l r, 0, none, it.stop⟩ : AvlIter K V) ⟨.inl rfl, h1⟩ j o h
        rcases hj : advanceH ops (⟨ps, .node k v b l r, 0, none, it.stop⟩ : AvlIter K V) with ⟨j, - | -⟩
        · have hn : advance ops (⟨ps, .node k v b l r, 0, none, it.stop⟩ : AvlIter K V) = none := by simp [advance_eq, settled, hj]
          rw [runIter_stuck _ hn, runIter_stuck _ (ha.trans hn)]
        · have hn : advance ops (⟨ps, .node k v b l r, 0, none, it.stop⟩ : AvlIter K V) = some j := by simp [advance_eq, settled, hj]
          have hnil := (hsh j true hj).2.2
          cases cs with
          | nil => rfl
          | cons c cs =>
            have : it.sortedCall ops c = (⟨ps, .node k v b l r, 0, none, it.stop⟩ : AvlIter K V).sortedCall ops c := by
              rw [hn] at ha
              obtain ⟨paths, curr, pos, start, stop⟩ := j
              cases curr with
              | nil =>
                have hpn : paths = [] := hnil rfl
                subst hpn
                cases c <;> simp only [sortedCall, call, next, hasNext, peek, ha, hn]
              | node => cases c <;> simp only [sortedCall, call, next, hasNext, peek, ha, hn]
            simp only [runIter, runCalls, this]

/-- Iteration over everything compares nothing. -/
theorem all_entries (n : Nat) (it : AvlIter K V) (hn : (rem it).length = n) (hs : Shaped it) (h1 : it.start = none) (h2 : it.stop = none)
    (cs : List IterCall) : runIter ops it cs = runCalls (listCall .crash) (rem it) cs := by
  induction n generalizing it cs with
  | zero =>
    have hr : rem it = [] := List.eq_nil_of_length_eq_zero hn
    rcases advance_front it hs with ⟨-, q, s, e, h⟩ | ⟨ps, k, v, b, l, r, -, h, -⟩
    · rw [hr]
      exact runIter_done it q s e (h ops) cs
    · rw [hr] at h
      simp at h
  | succ n ih =>
    rcases advance_front it hs with ⟨h, -⟩ | ⟨ps, k, v, b, l, r, h3, h4, h5⟩
    · rw [h] at hn
      simp at hn
    · have h6 := h5 ops
      rw [h1, h2] at h6
      rw [h4, List.cons_append, ← runCalls_tail_false]
      refine runIter_at it ps k v b l r none h6 rfl false _ (fun cs => ?_) cs
      have hr : rem (⟨ps, .node k v b l r, 1, none, none⟩ : AvlIter K V) = entries r ++ pathOut ps := by simp [rem]
      rw [runCalls_tail_false, ← hr]
      exact ih _ (by rw [h4] at hn; rw [hr]; simpa using hn) ⟨.inr rfl, h3⟩ rfl rfl cs

/-- What a new iterator consists of. -/
theorem new_fields (root : Tree K V) (start stop : Option K) (it : AvlIter K V) (h : AvlIter.new ops root start stop = some it) :
    it.start = start ∧ it.stop = stop ∧ rem it = entries root := by
  have h2 : it = ⟨(AvlIter.descend root []).2, (AvlIter.descend root []).1, 0, start, stop⟩ := by
    simp only [AvlIter.new] at h
    split at h
    · split at h
      · simp at h
      · split at h
        · simp at h
        · simpa using h.symm
    · simpa using h.symm
  subst h2
  refine ⟨rfl, rfl, ?_⟩
  cases root with
  | nil => simp [AvlIter.descend, rem, pathOut, entries]
  | node k v b l r =>
    obtain ⟨k', v', b', r', ps, h1, h2, h3⟩ := descend_spec (.node k v b l r) (by simp) [] (by simp)
    rw [h1]
    simp only [pathOut, List.append_nil] at h3
    simp [rem, h3]

end AvlIter

end Poodle
