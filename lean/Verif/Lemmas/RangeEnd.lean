import Verif.Lemmas.RangePanic

/-
When the walk to the end of a range panics: exactly if the search for the end does.
-/

namespace Poodle
open Poodle.Spec Poodle.Props

variable {K V : Type} {cmp : K → K → Ordering} {ops : KeyOps K}

namespace AvlIter

/-- The search for `e` meets a key that cannot be compared. -/
def searchBad (cmp : K → K → Ordering) (ops : KeyOps K) (e : K) : Tree K V → Bool
  | .nil => false
  | .node k _ _ l r => if cmp k e = .lt then searchBad cmp ops e r else (ops.compare k e).isNone || searchBad cmp ops e l

/-- The walk from a node on, without its left sub tree. -/
def nodeBad (cmp : K → K → Ordering) (ops : KeyOps K) (e : K) : Tree K V → Bool
  | .nil => false
  | .node k _ _ _ r => if cmp k e = .lt then searchBad cmp ops e r else (ops.compare k e).isNone

/-- The walk of an iterator. -/
def itBad (cmp : K → K → Ordering) (ops : KeyOps K) (e : K) (it : AvlIter K V) : Bool :=
  (match it.curr with
    | .nil => false
    | .node k v b l r => if it.pos = 0 then nodeBad cmp ops e (.node k v b l r) else searchBad cmp ops e r) || it.paths.any (nodeBad cmp ops e)

theorem searchBad_below (e : K) (t : Tree K V) (h : ∀ x ∈ entries t, cmp x.1 e = .lt) : searchBad cmp ops e t = false := by
  induction t with
  | nil => rfl
  | node k v b l r _ ihr =>
    simp only [searchBad, h (k, v) (by simp [entries]), if_true]
    exact ihr fun x hx => h x (by simp [entries, hx])

theorem descend_bad [Std.TransCmp cmp] (e : K) (t : Tree K V) (ht : t ≠ .nil) (hs : Increasing cmp (entries t)) (p : List (Tree K V)) :
    (nodeBad cmp ops e (descend t p).1 || (descend t p).2.any (nodeBad cmp ops e)) = (searchBad cmp ops e t || p.any (nodeBad cmp ops e)) := by
  induction t generalizing p with
  | nil => exact absurd rfl ht
  | node k v b l r ihl _ =>
    cases l with
    | nil =>
      simp only [descend, nodeBad, searchBad, Bool.or_false]
    | node lk lv lb ll lr =>
      have hs' : Increasing cmp (entries (.node lk lv lb ll lr) ++ (k, v) :: entries r) := by simpa [entries] using hs
      unfold Increasing at hs'
      rw [List.pairwise_append] at hs'
      rw [descend]
      rotate_left
      · simp
      rw [ihl (by simp) hs'.1]
      simp only [List.any_cons]
      rw [show nodeBad cmp ops e (.node k v b (.node lk lv lb ll lr) r) = if cmp k e = .lt then searchBad cmp ops e r else (ops.compare k e).isNone from rfl,
        show searchBad cmp ops e (.node k v b (.node lk lv lb ll lr) r) = if cmp k e = .lt then searchBad cmp ops e r else
          ((ops.compare k e).isNone || searchBad cmp ops e (.node lk lv lb ll lr)) from rfl]
      by_cases hk : cmp k e = .lt
      · rw [if_pos hk, if_pos hk, searchBad_below e _ fun x hx => cmp_lt_trans (hs'.2.2 x hx (k, v) (by simp)) hk]
        simp
      · rw [if_neg hk, if_neg hk]
        cases searchBad cmp ops e (.node lk lv lb ll lr) <;> cases (ops.compare k e).isNone <;> simp

/-- Where `advance` starts to look at the bounds, with the walk that remains. -/
theorem advance_front_bad [Std.TransCmp cmp] (it : AvlIter K V) (hw : Shaped it) (hi : Increasing cmp (rem it)) :
    (rem it = [] ∧ (∀ (ops : KeyOps K) e, itBad cmp ops e it = false) ∧ ∃ q s e, ∀ ops : KeyOps K, advance ops it = some ⟨[], .nil, q, s, e⟩) ∨
    ∃ ps k v b l r, (∀ p ∈ ps, p ≠ .nil) ∧ rem it = (k, v) :: entries r ++ pathOut ps ∧
      (∀ (ops : KeyOps K) e, (nodeBad cmp ops e (.node k v b l r) || ps.any (nodeBad cmp ops e)) = itBad cmp ops e it) ∧
      ∀ ops : KeyOps K, advance ops it = bounds ops ⟨ps, .node k v b l r, 0, it.start, it.stop⟩ := by
  obtain ⟨paths, curr, pos, start, stop⟩ := it
  obtain ⟨wpos, wp⟩ := hw
  simp only at wpos wp
  cases curr with
  | nil =>
    cases paths with
    | nil => exact .inl ⟨by simp [rem, pathOut], fun _ _ => rfl, pos, start, stop, fun _ => rfl⟩
    | cons p ps =>
      cases p with
      | nil => exact absurd rfl (wp .nil (by simp))
      | node pk pv pb pl pr =>
        exact .inr ⟨ps, pk, pv, pb, pl, pr, fun x hx => wp x (by simp [hx]), by simp [rem, pathOut], fun _ _ => by simp [itBad], fun _ => rfl⟩
  | node k v b l r =>
    rcases wpos with rfl | rfl
    · exact .inr ⟨paths, k, v, b, l, r, wp, by simp [rem], fun _ _ => by simp [itBad], fun _ => rfl⟩
    · cases r with
      | nil =>
        cases paths with
        | nil => exact .inl ⟨by simp [rem, pathOut, entries], fun _ _ => rfl, 1, none, none, fun _ => rfl⟩
        | cons p ps =>
          cases p with
          | nil => exact absurd rfl (wp .nil (by simp))
          | node pk pv pb pl pr =>
            exact .inr ⟨ps, pk, pv, pb, pl, pr, fun x hx => wp x (by simp [hx]), by simp [rem, pathOut, entries],
              fun _ _ => by simp [itBad, searchBad], fun _ => rfl⟩
      | node rk rv rb rl rr =>
        obtain ⟨k', v', b', r', ps, h1, h2, h3⟩ := descend_spec (.node rk rv rb rl rr) (by simp) paths wp
        have hir : Increasing cmp (entries (.node rk rv rb rl rr)) := by
          have : Increasing cmp (entries (.node rk rv rb rl rr) ++ pathOut paths) := by simpa [rem] using hi
          unfold Increasing at this ⊢
          exact (List.pairwise_append.mp this).1
        refine .inr ⟨ps, k', v', b', .nil, r', h2, by rw [h3]; simp [rem], fun ops e => ?_, fun ops => ?_⟩
        · have := descend_bad (ops := ops) e (.node rk rv rb rl rr) (by simp) hir paths
          rw [h1] at this
          rw [this]
          simp [itBad]
        · simp only [AvlIter.advance, AvlIter.step]
          rw [h1]

/-- The end loop, exactly. -/
theorem endLoop_exact (hops : LawfulKeys ops cmp) (e : K) (paths : List (Tree K V))
    (hp : ∀ x ∈ paths, x ≠ .nil) (k : K) (v : V) (b : Int) (l r : Tree K V) (pos : Nat)
    (hs : Increasing cmp ((k, v) :: entries r ++ pathOut paths)) (hk : cmp k e ≠ .lt) :
    endLoop ops e paths (.node k v b l r) pos =
      if nodeBad cmp ops e (.node k v b l r) || paths.any (nodeBad cmp ops e) then none else some none := by
  have := hops.trans
  induction paths generalizing k v b l r pos with
  | nil =>
    unfold AvlIter.endLoop
    cases hc : ops.compare k e with
    | none => simp [nodeBad, hk, hc]
    | some c =>
      have : 0 ≤ c := by
        have := (hops.compare_sign _ _ _ hc).1
        by_contra h
        exact hk (this.mp (by omega))
      simp [nodeBad, hk, hc, this]
  | cons p ps ih =>
    unfold AvlIter.endLoop
    cases hc : ops.compare k e with
    | none => simp [nodeBad, hk, hc]
    | some c =>
      have h0 : 0 ≤ c := by
        have := (hops.compare_sign _ _ _ hc).1
        by_contra h
        exact hk (this.mp (by omega))
      cases p with
      | nil => exact absurd rfl (hp .nil (by simp))
      | node pk pv pb pl pr =>
        simp only [pathOut] at hs
        rw [List.cons_append] at hs
        have hpk : cmp k pk = .lt := (incr_tail hs).2 (pk, pv) (by simp)
        have hs2 : Increasing cmp ((pk, pv) :: entries pr ++ pathOut ps) := incr_append_right (A := entries r) (incr_tail hs).1
        simp only [hc, ge_iff_le, h0, if_true]
        rw [ih (fun x hx => hp x (by simp [hx])) pk pv pb pl pr 0 hs2 fun h => hk (cmp_lt_trans hpk h)]
        rw [show nodeBad cmp ops e (.node k v b l r) = false by simp [nodeBad, hk, hc]]
        simp

/-- All calls on an iterator without start: at the end `HasNext` panics exactly if the walk meets a key that cannot be compared. -/
theorem upTo_exact (hops : LawfulKeys ops cmp) (hg : GuardedKeys ops cmp) (e : K) (n : Nat) (it : AvlIter K V) (hn : (out cmp it).length = n)
    (hw : WfIter cmp it) (hst : it.start = none) (hsp : it.stop = some e) (cs : List IterCall) :
    runIter ops it cs = runCalls (tailCall (itBad cmp ops e it)) (out cmp it) cs := by
  have := hops.trans
  induction n generalizing it cs with
  | zero =>
    have ho : out cmp it = [] := List.eq_nil_of_length_eq_zero hn
    rw [ho]
    rcases advance_front_bad it ⟨hw.pos, hw.paths⟩ hw.sorted with ⟨h1, hb, q, s, e', h2⟩ | ⟨ps, k, v, b, l, r, h1, h2, hb, h3⟩
    · rw [hb, runCalls_tail_false]
      exact runIter_done it q s e' (h2 ops) cs
    · have h4 := h3 ops
      rw [← hb]
      have ho2 := ho
      simp only [out, hst, h2] at ho2
      rw [List.cons_append, below_cons] at ho2
      split at ho2
      · simp at ho2
      · rename_i hne
        simp only [hsp, Option.some.injEq, forall_eq'] at hne
        rw [hst, hsp] at h4
        simp only [bounds, boundEnd] at h4
        rw [endLoop_exact hops e ps h1 k v b l r 0 (by rw [← h2]; exact hw.sorted) hne] at h4
        cases hbad : (nodeBad cmp ops e (.node k v b l r) || ps.any (nodeBad cmp ops e))
        · rw [hbad] at h4
          simp only [Bool.false_eq_true, if_false] at h4
          rw [runCalls_tail_false]
          exact runIter_done it _ _ _ h4 cs
        · rw [hbad] at h4
          simp only [if_true] at h4
          rw [runCalls_tail_true]
          exact runIter_stuck it h4 cs
  | succ n ih =>
    rcases advance_front_bad it ⟨hw.pos, hw.paths⟩ hw.sorted with ⟨h1, -⟩ | ⟨ps, k, v, b, l, r, h1, h2, hb, h3⟩
    · have : out cmp it = [] := by
        simp only [out, hst, h1]
        cases it.stop <;> simp [below]
      rw [this] at hn
      simp at hn
    · have ho : out cmp it = below cmp it.stop ((k, v) :: (entries r ++ pathOut ps)) := by simp only [out, hst, h2, List.cons_append]
      have hs := hw.sorted
      rw [h2] at hs
      rw [below_cons] at ho
      split at ho
      · rename_i hlt
        have hke := hlt e hsp
        have hy : advance ops (⟨ps, .node k v b l r, 0, none, it.stop⟩ : AvlIter K V) = some ⟨ps, .node k v b l r, 0, none, it.stop⟩ := by
          simp only [advance, step, bounds, boundEnd, hsp]
          rcases endLoop_guarded hops hg e ps h1 k v b l r 0 hs with ⟨-, g1⟩ | ⟨g2, -⟩ | ⟨g2, -⟩
          · simp only [g1]
          · exact absurd hke g2
          · exact absurd hke g2
        have hx : advance ops it = some ⟨ps, .node k v b l r, 0, none, it.stop⟩ := by
          rw [h3 ops, hst]
          exact hy
        have hr : rem (⟨ps, .node k v b l r, 1, none, it.stop⟩ : AvlIter K V) = entries r ++ pathOut ps := by simp [rem]
        have ho1 : out cmp (⟨ps, .node k v b l r, 1, none, it.stop⟩ : AvlIter K V) = below cmp it.stop (entries r ++ pathOut ps) := by
          simp [out, hr]
        have hbe : itBad cmp ops e (⟨ps, .node k v b l r, 1, none, it.stop⟩ : AvlIter K V) = itBad cmp ops e it := by
          rw [← hb]
          simp [itBad, nodeBad, hke]
        rw [ho]
        refine runIter_at it ps k v b l r it.stop hx hy _ _ (fun cs => ?_) cs
        rw [← hbe, ← ho1]
        exact ih ⟨ps, .node k v b l r, 1, none, it.stop⟩ (by
            rw [ho] at hn
            rw [ho1]
            simpa using hn)
          ⟨.inr rfl, h1, by rw [hr]; exact (incr_tail hs).1, by simp⟩ rfl hsp cs
      · rw [ho] at hn
        simp at hn

/-- The walk meets such a key exactly if the lookup of the end does. -/
theorem searchBad_get (hops : LawfulKeys ops cmp) (hg : GuardedKeys ops cmp) (e : K) (t : Tree K V) (hs : Increasing cmp (entries t)) :
    searchBad cmp ops e t = true ↔ t.getR ops e = none := by
  have := hops.trans
  induction t with
  | nil => simp [searchBad, Tree.getR]
  | node k v b l r ihl ihr =>
    have hs' : Increasing cmp (entries l ++ (k, v) :: entries r) := by simpa [entries] using hs
    have hs2 := hs'
    unfold Increasing at hs2
    rw [List.pairwise_append] at hs2
    have ihl := ihl hs2.1
    have ihr := ihr (incr_tail (incr_append_right hs')).1
    unfold Tree.getR searchBad
    by_cases he : ops.equal k e = true
    · have heq := (hops.equal_iff k e).mp he
      have hc : ops.compare k e ≠ none := fun h => by rw [hg _ _ h] at heq; simp at heq
      rw [if_neg (by rw [heq]; simp), if_pos he, searchBad_below e l fun x hx => by
        have h1 : cmp x.1 k = .lt := hs2.2.2 x hx (k, v) (by simp)
        rw [← Std.TransCmp.congr_right heq]; exact h1]
      simpa [Option.isNone_iff_eq_none] using hc
    · rw [if_neg he]
      cases hc : ops.compare k e with
      | none =>
        rw [if_neg (by rw [hg _ _ hc]; simp)]
        simp
      | some c =>
        have hsg := hops.compare_sign _ _ _ hc
        by_cases h0 : c < 0
        · rw [if_pos (hsg.1.mp h0)]
          simp only [h0, if_true]
          refine ihr.trans ?_
          cases r.getR ops e <;> simp
        · rw [if_neg fun h => h0 (hsg.1.mpr h)]
          simp only [h0, if_false]
          simp only [Option.isNone_some, Bool.false_or]
          refine ihl.trans ?_
          cases l.getR ops e <;> simp

/-- Calls on an iterator see only what `advance` makes of it. -/
theorem runIter_congr (a b : AvlIter K V) (hb : Shaped b) (h : advance ops a = advance ops b) (cs : List IterCall) :
    runIter ops a cs = runIter ops b cs := by
  rcases hj : advanceH ops b with ⟨j, - | -⟩
  · have hn : advance ops b = none := by simp [advance_eq, settled, hj]
    rw [runIter_stuck _ hn, runIter_stuck _ (h.trans hn)]
  · have hn : advance ops b = some j := by simp [advance_eq, settled, hj]
    have hnil := (advanceH_spec b hb j true hj).2.2
    cases cs with
    | nil => rfl
    | cons c cs =>
      have : a.sortedCall ops c = b.sortedCall ops c := by
        rw [hn] at h
        obtain ⟨paths, curr, pos, start, stop⟩ := j
        cases curr with
        | nil =>
          have hpn : paths = [] := hnil rfl
          subst hpn
          cases c <;> simp only [sortedCall, call, next, hasNext, peek, h, hn]
        | node => cases c <;> simp only [sortedCall, call, next, hasNext, peek, h, hn]
      simp only [runIter, runCalls, this]

/-- A start that is not below the first entry, and can be compared with it, is no start. -/
theorem start_dropped (hops : LawfulKeys ops cmp) (it : AvlIter K V) (hw : WfIter cmp it) (s : K) (hst : it.start = some s) (x : K × V)
    (hx : (rem it).head? = some x) (hc : ops.compare s x.1 ≠ none) (hlt : cmp s x.1 ≠ .lt) (cs : List IterCall) :
    runIter ops it cs = runIter ops { it with start := none } cs := by
  have hsh : Shaped ({ it with start := none } : AvlIter K V) := ⟨hw.pos, hw.paths⟩
  refine runIter_congr it _ hsh ?_ cs
  obtain ⟨paths, curr, pos, start, stop⟩ := it
  simp only at hst
  subst hst
  have key : ∀ (ps : List (Tree K V)) (k : K) (v : V) (b : Int) (l r : Tree K V), x = (k, v) →
      bounds ops ⟨ps, .node k v b l r, 0, some s, stop⟩ = bounds ops ⟨ps, .node k v b l r, 0, none, stop⟩ := by
    rintro ps k v b l r rfl
    have hsl : startLoop ops s ps (.node k v b l r) 0 = some (some (.node k v b l r, ps, 0)) := by
      rcases hcc : ops.compare s k with - | c
      · exact absurd hcc hc
      · have hn : ¬ c < 0 := fun h => hlt ((hops.compare_sign _ _ _ hcc).1.mp h)
        unfold startLoop startSpine
        simp [hcc, hn]
    simp only [bounds, hsl]
  cases curr with
  | nil =>
    cases paths with
    | nil => simp [rem, pathOut] at hx
    | cons p ps =>
      cases p with
      | nil => exact absurd rfl (hw.paths .nil (by simp))
      | node k v b l r => exact key ps k v b l r (by simpa [rem, pathOut] using hx.symm)
  | node k v b l r =>
    have hp : pos = 0 := by
      rcases hw.start rfl with h | h
      · exact h
      · simp at h
    subst hp
    exact key paths k v b l r (by simpa [rem] using hx.symm)

end AvlIter

end Poodle
