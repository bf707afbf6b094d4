import Verif.Lemmas.AvlOps
import Verif.Spec.Iter

namespace Poodle
open Poodle.Spec

set_option linter.unusedSectionVars false
set_option linter.unusedSimpArgs false

variable {K V : Type} {cmp : K → K → Ordering} {ops : KeyOps K}

/-- Entries still to come from the stack. -/
def pathOut : List (Tree K V) → List (K × V)
  | [] => []
  | .nil :: ps => pathOut ps
  | .node k v _ _ r :: ps => (k, v) :: entries r ++ pathOut ps

/-- Entries still to come, ignoring the bounds. -/
def rem (it : AvlIter K V) : List (K × V) :=
  match it.curr with
  | .nil => pathOut it.paths
  | .node k v _ _ r => if it.pos = 0 then (k, v) :: entries r ++ pathOut it.paths else entries r ++ pathOut it.paths

/-- Upper bound. -/
def below (cmp : K → K → Ordering) (stop : Option K) (l : List (K × V)) : List (K × V) :=
  match stop with
  | none => l
  | some e => l.takeWhile fun x => cmp x.1 e = .lt

/-- Entries still to come. -/
def out (cmp : K → K → Ordering) (it : AvlIter K V) : List (K × V) :=
  match it.start, rem it with
  | none, l => below cmp it.stop l
  | some _, [] => []
  | some s, x :: l => if cmp s x.1 = .lt then [] else below cmp it.stop (x :: l)

/-- Shape of reachable iterators. -/
structure WfIter (cmp : K → K → Ordering) (it : AvlIter K V) : Prop where
  pos : it.pos = 0 ∨ it.pos = 1
  paths : ∀ p ∈ it.paths, p ≠ .nil
  sorted : Increasing cmp (rem it)
  start : it.start.isSome → it.pos = 0 ∨ it.curr = .nil

theorem descend_spec (t : Tree K V) (ht : t ≠ .nil) (p : List (Tree K V)) (hp : ∀ x ∈ p, x ≠ .nil) :
    ∃ k v b r ps, AvlIter.descend t p = (.node k v b .nil r, ps) ∧ (∀ x ∈ ps, x ≠ .nil) ∧
      (k, v) :: entries r ++ pathOut ps = entries t ++ pathOut p := by
  induction t generalizing p with
  | nil => exact absurd rfl ht
  | node k v b l r ihl _ =>
    cases l with
    | nil => exact ⟨k, v, b, r, p, rfl, hp, by simp [entries]⟩
    | node lk lv lb ll lr =>
      obtain ⟨k', v', b', r', ps, h1, h2, h3⟩ := ihl (by simp) (.node k v b (.node lk lv lb ll lr) r :: p)
        (by intro x hx; simp at hx; rcases hx with rfl | hx; simp; exact hp x hx)
      refine ⟨k', v', b', r', ps, ?_, h2, ?_⟩
      · rw [AvlIter.descend]
        · exact h1
        · simp
      · rw [h3]; simp [pathOut, entries]

theorem incr_tail {x : K × V} {l : List (K × V)} (h : Increasing cmp (x :: l)) : Increasing cmp l ∧ ∀ y ∈ l, cmp x.1 y.1 = .lt := by
  unfold Increasing at *
  rw [List.pairwise_cons] at h
  exact ⟨h.2, h.1⟩

theorem incr_append_right {A B : List (K × V)} (h : Increasing cmp (A ++ B)) : Increasing cmp B := by
  unfold Increasing at *
  exact (List.pairwise_append.mp h).2.1

section
variable [Std.TransCmp cmp]

/-- The end loop. -/
theorem endLoop_spec (hops : LawfulKeys ops cmp) (ht : TotalKeys ops) (e : K) (paths : List (Tree K V))
    (hp : ∀ x ∈ paths, x ≠ .nil) (k : K) (v : V) (b : Int) (l r : Tree K V) (pos : Nat)
    (hs : Increasing cmp ((k, v) :: entries r ++ pathOut paths)) :
    (cmp k e = .lt ∧ AvlIter.endLoop ops e paths (.node k v b l r) pos = some (some (.node k v b l r, paths, pos))) ∨
    (cmp k e ≠ .lt ∧ AvlIter.endLoop ops e paths (.node k v b l r) pos = some none) := by
  induction paths generalizing k v b l r pos with
  | nil =>
    unfold AvlIter.endLoop
    cases hc : ops.compare k e with
    | none => exact absurd hc (ht _ _)
    | some c =>
      have := (hops.compare_sign _ _ _ hc).1
      by_cases hlt : c < 0
      · left; exact ⟨this.mp hlt, by simp [hc, show ¬ 0 ≤ c by omega]⟩
      · right; exact ⟨fun h => hlt (this.mpr h), by simp [hc, show 0 ≤ c by omega]⟩
  | cons p ps ih =>
    unfold AvlIter.endLoop
    cases hc : ops.compare k e with
    | none => exact absurd hc (ht _ _)
    | some c =>
      have hsgn := (hops.compare_sign _ _ _ hc).1
      by_cases hlt : c < 0
      · left; exact ⟨hsgn.mp hlt, by simp [hc, show ¬ 0 ≤ c by omega]⟩
      · right
        have hnl : cmp k e ≠ .lt := fun h => hlt (hsgn.mpr h)
        refine ⟨hnl, ?_⟩
        cases p with
        | nil => exact absurd rfl (hp .nil (by simp))
        | node pk pv pb pl pr =>
          simp only [pathOut] at hs
          rw [List.cons_append] at hs
          have hpk : cmp k pk = .lt := (incr_tail hs).2 (pk, pv) (by simp)
          have hs2 : Increasing cmp ((pk, pv) :: entries pr ++ pathOut ps) := incr_append_right (A := entries r) (incr_tail hs).1
          rcases ih (fun x hx => hp x (by simp [hx])) pk pv pb pl pr 0 hs2 with ⟨h1, -⟩ | ⟨-, h2⟩
          · exact absurd (cmp_lt_trans hpk h1) hnl
          · simp only [hc, ge_iff_le, show 0 ≤ c by omega, if_true]
            exact h2

theorem startSpine_ge (hops : LawfulKeys ops cmp) (ht : TotalKeys ops) (s : K) (k : K) (v : V) (b : Int) (l r : Tree K V)
    (h : cmp s k ≠ .lt) : AvlIter.startSpine ops s (.node k v b l r) = some (some (.node k v b l r)) := by
  unfold AvlIter.startSpine
  cases hc : ops.compare s k with
  | none => exact absurd hc (ht _ _)
  | some c =>
    have := (hops.compare_sign _ _ _ hc).1
    have hn : ¬ c < 0 := fun hlt => h (this.mp hlt)
    simp [hn]

theorem startSpine_lt (hops : LawfulKeys ops cmp) (ht : TotalKeys ops) (s : K) (t : Tree K V) (hne : t ≠ .nil)
    (h : ∀ e ∈ entries t, cmp s e.1 = .lt) : AvlIter.startSpine ops s t = some none := by
  induction t with
  | nil => exact absurd rfl hne
  | node k v b l r _ ihr =>
    unfold AvlIter.startSpine
    cases hc : ops.compare s k with
    | none => exact absurd hc (ht _ _)
    | some c =>
      have := (hops.compare_sign _ _ _ hc).1
      have hlt := this.mpr (h (k, v) (by simp [entries]))
      simp only [hlt, if_true]
      cases r with
      | nil => rfl
      | node rk rv rb rl rr => exact ihr (by simp) fun e he => h e (by rw [entries]; simp [he])

/-- Only the node and its right sub tree matter for the spine. -/
theorem startSpine_lt' (hops : LawfulKeys ops cmp) (ht : TotalKeys ops) (s : K) (k : K) (v : V) (b : Int) (l r : Tree K V)
    (hk : cmp s k = .lt) (h : ∀ e ∈ entries r, cmp s e.1 = .lt) : AvlIter.startSpine ops s (.node k v b l r) = some none := by
  unfold AvlIter.startSpine
  cases hc : ops.compare s k with
  | none => exact absurd hc (ht _ _)
  | some c =>
    have := (hops.compare_sign _ _ _ hc).1
    simp only [this.mpr hk, if_true]
    cases r with
    | nil => rfl
    | node rk rv rb rl rr => exact startSpine_lt hops ht s _ (by simp) h

theorem startLoop_spec (hops : LawfulKeys ops cmp) (ht : TotalKeys ops) (s : K) (paths : List (Tree K V))
    (hp : ∀ x ∈ paths, x ≠ .nil) (k : K) (v : V) (b : Int) (l r : Tree K V) (pos : Nat)
    (hs : Increasing cmp ((k, v) :: entries r ++ pathOut paths)) :
    (cmp s k ≠ .lt ∧ AvlIter.startLoop ops s paths (.node k v b l r) pos = some (some (.node k v b l r, paths, pos))) ∨
    (cmp s k = .lt ∧ AvlIter.startLoop ops s paths (.node k v b l r) pos = some none) := by
  by_cases hlt : cmp s k = .lt
  · right
    refine ⟨hlt, ?_⟩
    induction paths generalizing k v b l r pos with
    | nil =>
      unfold AvlIter.startLoop
      rw [List.cons_append] at hs
      rw [startSpine_lt' hops ht s k v b l r hlt fun e he => cmp_lt_trans hlt ((incr_tail hs).2 e (by simp [he]))]
    | cons p ps ih =>
      unfold AvlIter.startLoop
      rw [List.cons_append] at hs
      rw [startSpine_lt' hops ht s k v b l r hlt fun e he => cmp_lt_trans hlt ((incr_tail hs).2 e (by simp [he]))]
      cases p with
      | nil => exact absurd rfl (hp .nil (by simp))
      | node pk pv pb pl pr =>
        simp only [pathOut] at hs
        have hpk : cmp k pk = .lt := (incr_tail hs).2 (pk, pv) (by simp)
        exact ih (fun x hx => hp x (by simp [hx])) pk pv pb pl pr 0
          (incr_append_right (A := entries r) (incr_tail hs).1) (cmp_lt_trans hlt hpk)
  · left
    refine ⟨hlt, ?_⟩
    unfold AvlIter.startLoop
    rw [startSpine_ge hops ht s k v b l r hlt]

theorem below_cons (stop : Option K) (x : K × V) (l : List (K × V)) :
    below cmp stop (x :: l) = if (∀ e, stop = some e → cmp x.1 e = .lt) then x :: below cmp stop l else [] := by
  cases stop with
  | none => simp [below]
  | some e => simp [below, List.takeWhile_cons]

/-- What `advance` establishes: the same entries are to come; either there are none and the iterator is exhausted, or the
current node is the next entry. -/
def Advanced (cmp : K → K → Ordering) (o : List (K × V)) (it : AvlIter K V) : Prop :=
  WfIter cmp it ∧ out cmp it = o ∧
    ((it.curr = .nil ∧ it.paths = [] ∧ o = []) ∨
     ∃ k v b l r, it.curr = .node k v b l r ∧ it.pos = 0 ∧ it.start = none ∧
      o = (k, v) :: below cmp it.stop (entries r ++ pathOut it.paths))

theorem exhausted_advanced (pos : Nat) (hpos : pos = 0 ∨ pos = 1) (start stop : Option K) :
    Advanced cmp [] (⟨[], .nil, pos, start, stop⟩ : AvlIter K V) := by
  refine ⟨⟨hpos, by simp, by simp [rem, pathOut, Increasing], by simp⟩, ?_, .inl ⟨rfl, rfl, rfl⟩⟩
  cases start <;> cases stop <;> simp [out, rem, pathOut, below]

theorem boundEnd_spec (hops : LawfulKeys ops cmp) (ht : TotalKeys ops) (paths : List (Tree K V))
    (hp : ∀ x ∈ paths, x ≠ .nil) (k : K) (v : V) (b : Int) (l r : Tree K V) (stop : Option K)
    (hs : Increasing cmp ((k, v) :: entries r ++ pathOut paths)) :
    ∃ it, AvlIter.boundEnd ops ⟨paths, .node k v b l r, 0, none, stop⟩ = some it ∧
      Advanced cmp (below cmp stop ((k, v) :: entries r ++ pathOut paths)) it := by
  have hwf : WfIter cmp (⟨paths, .node k v b l r, 0, none, stop⟩ : AvlIter K V) :=
    ⟨.inl rfl, hp, by simpa [rem] using hs, by simp⟩
  have hout : out cmp (⟨paths, .node k v b l r, 0, none, stop⟩ : AvlIter K V)
      = below cmp stop ((k, v) :: entries r ++ pathOut paths) := by simp [out, rem]
  cases stop with
  | none =>
    refine ⟨_, rfl, hwf, hout, .inr ⟨k, v, b, l, r, rfl, rfl, rfl, ?_⟩⟩
    simp [below]
  | some e =>
    unfold AvlIter.boundEnd
    rcases endLoop_spec hops ht e paths hp k v b l r 0 hs with ⟨h1, h2⟩ | ⟨h1, h2⟩
    · simp only [h2]
      refine ⟨_, rfl, hwf, hout, .inr ⟨k, v, b, l, r, rfl, rfl, rfl, ?_⟩⟩
      rw [List.cons_append, below_cons]
      simp [h1]
    · simp only [h2]
      refine ⟨_, rfl, ?_⟩
      rw [List.cons_append, below_cons, if_neg (by simpa using h1)]
      simpa using exhausted_advanced 0 (.inl rfl) none none

theorem bounds_spec (hops : LawfulKeys ops cmp) (ht : TotalKeys ops) (paths : List (Tree K V))
    (hp : ∀ x ∈ paths, x ≠ .nil) (k : K) (v : V) (b : Int) (l r : Tree K V) (start stop : Option K)
    (hs : Increasing cmp ((k, v) :: entries r ++ pathOut paths)) :
    ∃ it, AvlIter.bounds ops ⟨paths, .node k v b l r, 0, start, stop⟩ = some it ∧
      Advanced cmp (out cmp ⟨paths, .node k v b l r, 0, start, stop⟩) it := by
  unfold AvlIter.bounds
  cases start with
  | none =>
    have hout : out cmp (⟨paths, .node k v b l r, 0, none, stop⟩ : AvlIter K V)
      = below cmp stop ((k, v) :: entries r ++ pathOut paths) := by simp [out, rem]
    rw [hout]
    exact boundEnd_spec hops ht paths hp k v b l r stop hs
  | some s =>
    have hout : out cmp (⟨paths, .node k v b l r, 0, some s, stop⟩ : AvlIter K V)
      = if cmp s k = .lt then [] else below cmp stop ((k, v) :: entries r ++ pathOut paths) := by simp [out, rem]
    rw [hout]
    rcases startLoop_spec hops ht s paths hp k v b l r 0 hs with ⟨h1, h2⟩ | ⟨h1, h2⟩
    · simp only [h2, if_neg h1]
      exact boundEnd_spec hops ht paths hp k v b l r stop hs
    · simp only [h2, if_pos h1]
      exact ⟨_, rfl, by simpa using exhausted_advanced 0 (.inl rfl) (some s) stop⟩

theorem advance_spec (hops : LawfulKeys ops cmp) (ht : TotalKeys ops) (it : AvlIter K V) (hw : WfIter cmp it) :
    ∃ it', it.advance ops = some it' ∧ Advanced cmp (out cmp it) it' := by
  obtain ⟨paths, curr, pos, start, stop⟩ := it
  obtain ⟨wpos, wp, ws, wst⟩ := hw
  simp only at wpos wp wst
  cases curr with
  | nil =>
    cases paths with
    | nil =>
      refine ⟨_, rfl, ?_⟩
      have : out cmp (⟨[], .nil, pos, start, stop⟩ : AvlIter K V) = [] := by
        cases start <;> cases stop <;> simp [out, rem, pathOut, below]
      rw [this]
      exact exhausted_advanced pos wpos start stop
    | cons p ps =>
      cases p with
      | nil => exact absurd rfl (wp .nil (by simp))
      | node pk pv pb pl pr =>
        have hs : Increasing cmp ((pk, pv) :: entries pr ++ pathOut ps) := by simpa [rem, pathOut] using ws
        have hout : out cmp (⟨.node pk pv pb pl pr :: ps, .nil, pos, start, stop⟩ : AvlIter K V)
            = out cmp ⟨ps, .node pk pv pb pl pr, 0, start, stop⟩ := by
          cases start <;> simp [out, rem, pathOut]
        rw [hout]
        exact bounds_spec hops ht ps (fun x hx => wp x (by simp [hx])) pk pv pb pl pr start stop hs
  | node k v b l r =>
    rcases wpos with rfl | rfl
    · have hs : Increasing cmp ((k, v) :: entries r ++ pathOut paths) := by simpa [rem] using ws
      exact bounds_spec hops ht paths wp k v b l r start stop hs
    · have hst : start = none := by
        rcases hc : start with - | s
        · rfl
        · rcases wst (by simp [hc]) with h | h
          · simp at h
          · simp at h
      subst hst
      have hs : Increasing cmp (entries r ++ pathOut paths) := by simpa [rem] using ws
      cases r with
      | nil =>
        cases paths with
        | nil =>
          refine ⟨_, rfl, ?_⟩
          have : out cmp (⟨[], .node k v b l .nil, 1, none, stop⟩ : AvlIter K V) = [] := by
            cases stop <;> simp [out, rem, pathOut, below, entries]
          rw [this]
          exact exhausted_advanced 1 (.inr rfl) none none
        | cons p ps =>
          cases p with
          | nil => exact absurd rfl (wp .nil (by simp))
          | node pk pv pb pl pr =>
            have hs' : Increasing cmp ((pk, pv) :: entries pr ++ pathOut ps) := by simpa [entries, pathOut] using hs
            have hout : out cmp (⟨.node pk pv pb pl pr :: ps, .node k v b l .nil, 1, none, stop⟩ : AvlIter K V)
                = out cmp ⟨ps, .node pk pv pb pl pr, 0, none, stop⟩ := by
              simp [out, rem, pathOut, entries]
            rw [hout]
            exact bounds_spec hops ht ps (fun x hx => wp x (by simp [hx])) pk pv pb pl pr none stop hs'
      | node rk rv rb rl rr =>
        obtain ⟨k', v', b', r', ps, h1, h2, h3⟩ := descend_spec (.node rk rv rb rl rr) (by simp) paths wp
        have hout : out cmp (⟨paths, .node k v b l (.node rk rv rb rl rr), 1, none, stop⟩ : AvlIter K V)
            = out cmp ⟨ps, .node k' v' b' .nil r', 0, none, stop⟩ := by
          simp only [out, rem, if_true]
          rw [h3]; rfl
        rw [hout]
        have : AvlIter.advance ops (⟨paths, .node k v b l (.node rk rv rb rl rr), 1, none, stop⟩ : AvlIter K V)
            = AvlIter.bounds ops ⟨ps, .node k' v' b' .nil r', 0, none, stop⟩ := by
          simp only [AvlIter.advance, AvlIter.step]
          rw [h1]
        rw [this]
        exact bounds_spec hops ht ps h2 k' v' b' .nil r' none stop (by rw [h3]; exact hs)

/-- Each call on the tree iterator is the corresponding call on the list of entries to come. -/
theorem call_spec (hops : LawfulKeys ops cmp) (ht : TotalKeys ops) (it : AvlIter K V) (hw : WfIter cmp it) (c : IterCall) :
    WfIter cmp (it.call ops c).1 ∧ (out cmp (it.call ops c).1, (it.call ops c).2) = listCall .nil (out cmp it) c := by
  obtain ⟨it', h1, ⟨w1, w2, w3⟩⟩ := advance_spec hops ht it hw
  obtain ⟨paths, curr, pos, start, stop⟩ := it'
  simp only at w3
  cases c with
  | next =>
    simp only [AvlIter.call, AvlIter.next, h1]
    rcases w3 with ⟨rfl, rfl, h4⟩ | ⟨k, v, b, l, r, rfl, rfl, rfl, h4⟩
    · simp only [listCall, h4]
      rw [h4] at w2
      exact ⟨w1, by rw [w2]⟩
    · simp only [listCall, h4]
      refine ⟨⟨.inr rfl, w1.paths, ?_, by simp⟩, ?_⟩
      · have := w1.sorted
        simp only [rem, if_true] at this
        rw [List.cons_append] at this
        simpa [rem] using (incr_tail this).1
      · simp [out, rem]
  | hasNext =>
    simp only [AvlIter.call, AvlIter.hasNext, h1]
    rcases w3 with ⟨rfl, rfl, h4⟩ | ⟨k, v, b, l, r, rfl, rfl, rfl, h4⟩
    · rw [h4] at w2 ⊢
      exact ⟨w1, by simp [listCall, w2]⟩
    · rw [h4] at w2 ⊢
      exact ⟨w1, by simp [listCall, w2]⟩
  | peek =>
    simp only [AvlIter.call, AvlIter.peek, h1]
    rcases w3 with ⟨rfl, rfl, h4⟩ | ⟨k, v, b, l, r, rfl, rfl, rfl, h4⟩
    · rw [h4] at w2 ⊢
      exact ⟨w1, by simp [listCall, w2]⟩
    · rw [h4] at w2 ⊢
      exact ⟨w1, by simp [listCall, w2]⟩

theorem sortedCall_spec (hops : LawfulKeys ops cmp) (ht : TotalKeys ops) (it : AvlIter K V) (hw : WfIter cmp it) (c : IterCall) :
    WfIter cmp (it.sortedCall ops c).1 ∧
      (out cmp (it.sortedCall ops c).1, (it.sortedCall ops c).2) = listCall .crash (out cmp it) c := by
  obtain ⟨h1, h2⟩ := call_spec hops ht it hw c
  unfold AvlIter.sortedCall
  rcases hc : it.call ops c with ⟨it', r⟩
  rw [hc] at h1 h2
  simp only at h1 h2
  cases c with
  | next =>
    simp only [listCall] at h2 ⊢
    rcases ho : out cmp it with - | ⟨x, xs⟩ <;> rw [ho] at h2 <;> simp only [Prod.mk.injEq] at h2 <;>
      obtain ⟨h2, rfl⟩ := h2 <;> exact ⟨h1, by simp [h2]⟩
  | hasNext =>
    simp only [listCall] at h2 ⊢
    simp only [Prod.mk.injEq] at h2
    obtain ⟨h2, rfl⟩ := h2
    exact ⟨h1, by simp [h2]⟩
  | peek =>
    simp only [listCall] at h2 ⊢
    rcases ho : out cmp it with - | ⟨x, xs⟩ <;> rw [ho] at h2 <;> simp only [Prod.mk.injEq] at h2 <;>
      obtain ⟨h2, rfl⟩ := h2 <;> exact ⟨h1, by simp [h2]⟩

theorem runCalls_call (hops : LawfulKeys ops cmp) (ht : TotalKeys ops) (cs : List IterCall) (it : AvlIter K V) (hw : WfIter cmp it) :
    runCalls (fun s c => AvlIter.call ops s c) it cs = runCalls (listCall .nil) (out cmp it) cs := by
  induction cs generalizing it with
  | nil => rfl
  | cons c cs ih =>
    obtain ⟨h1, h2⟩ := call_spec hops ht it hw c
    simp only [runCalls]
    rw [← h2, ih _ h1]

theorem runCalls_sortedCall (hops : LawfulKeys ops cmp) (ht : TotalKeys ops) (cs : List IterCall) (it : AvlIter K V)
    (hw : WfIter cmp it) :
    runCalls (fun s c => AvlIter.sortedCall ops s c) it cs = runCalls (listCall .crash) (out cmp it) cs := by
  induction cs generalizing it with
  | nil => rfl
  | cons c cs ih =>
    obtain ⟨h1, h2⟩ := sortedCall_spec hops ht it hw c
    simp only [runCalls]
    rw [← h2, ih _ h1]

/-- What a new range iterator yields. -/
def rangeOut (cmp : K → K → Ordering) (start stop : Option K) (l : List (K × V)) : List (K × V) :=
  match start, l with
  | none, l => below cmp stop l
  | some _, [] => []
  | some s, x :: l => if cmp s x.1 = .lt then [] else below cmp stop (x :: l)

/-- A new iterator. -/
theorem new_spec (root : Tree K V) (start stop : Option K) (hs : Increasing cmp (entries root)) (it : AvlIter K V)
    (h : AvlIter.new ops root start stop = some it) :
    WfIter cmp it ∧ out cmp it = rangeOut cmp start stop (entries root) := by
  have hit : it = ⟨(AvlIter.descend root []).2, (AvlIter.descend root []).1, 0, start, stop⟩ := by
    simp only [AvlIter.new] at h
    split at h
    · split at h
      · simp at h
      · split at h
        · simp at h
        · simpa using h.symm
    · simpa using h.symm
  clear h
  subst hit
  cases root with
  | nil =>
    refine ⟨⟨.inl rfl, by simp [AvlIter.descend], by simp [AvlIter.descend, rem, pathOut, Increasing], by simp⟩, ?_⟩
    cases start <;> simp [out, AvlIter.descend, rem, pathOut, entries, rangeOut]
  | node k v b l r =>
    obtain ⟨k', v', b', r', ps, h1, h2, h3⟩ := descend_spec (.node k v b l r) (by simp) [] (by simp)
    rw [h1]
    simp only [pathOut, List.append_nil] at h3
    have hrem : rem (⟨ps, .node k' v' b' .nil r', 0, start, stop⟩ : AvlIter K V) = entries (.node k v b l r) := by
      rw [← h3]; simp [rem]
    refine ⟨⟨.inl rfl, h2, by rw [hrem]; exact hs, by simp⟩, ?_⟩
    unfold out
    simp only [hrem]
    cases start <;> rfl

end

end Poodle
