import Verif.Model.AvlIterHalf
import Verif.Lemmas.AvlIter

/-
The two models of the tree iterator agree, and a half advanced iterator cannot go on.
-/

namespace Poodle
open Poodle.Spec

variable {K V : Type} {ops : KeyOps K}

namespace AvlIter

/-- The result, without the state after a panic. -/
def settled (r : AvlIter K V × Bool) : Option (AvlIter K V) := if r.2 then some r.1 else none

theorem startSpine_eq (s : K) (t : Tree K V) : startSpine ops s t =
    match startSpineH ops s t with
    | (_, none) => none
    | (t, some true) => some (some t)
    | (_, some false) => some none := by
  induction t with
  | nil => rfl
  | node k v b l r _ ih =>
    unfold startSpine startSpineH
    cases ops.compare s k with
    | none => rfl
    | some c =>
      simp only
      by_cases hc : c < 0
      · simp only [if_pos hc]
        cases r with
        | nil => rfl
        | node rk rv rb rl rr => exact ih
      · simp only [if_neg hc]

theorem startLoop_eq (s : K) (paths : List (Tree K V)) (curr : Tree K V) (pos : Nat) :
    (startLoopH ops s paths curr pos).2 = none ∧ startLoop ops s paths curr pos = none ∨
    (∃ p c q, startLoopH ops s paths curr pos = ((p, c, q), some true) ∧ startLoop ops s paths curr pos = some (some (c, p, q))) ∨
    startLoopH ops s paths curr pos = (([], .nil, if paths = [] then pos else 0), some false) ∧ startLoop ops s paths curr pos = some none := by
  induction paths generalizing curr pos with
  | nil =>
    unfold startLoop startLoopH
    rw [startSpine_eq]
    rcases startSpineH ops s curr with ⟨t, - | - | -⟩ <;> simp
  | cons p ps ih =>
    unfold startLoop startLoopH
    rw [startSpine_eq]
    rcases startSpineH ops s curr with ⟨t, - | - | -⟩
    · simp
    · simp only [reduceCtorEq, if_false]
      rcases ih p 0 with h | h | ⟨h1, h2⟩
      · exact .inl h
      · exact .inr (.inl h)
      · refine .inr (.inr ⟨?_, h2⟩)
        rw [h1]
        simp
    · simp

theorem endLoop_eq (e : K) (paths : List (Tree K V)) (curr : Tree K V) (pos : Nat) :
    (endLoopH ops e paths curr pos).2 = none ∧ endLoop ops e paths curr pos = none ∨
    (∃ p c q, endLoopH ops e paths curr pos = ((p, c, q), some true) ∧ endLoop ops e paths curr pos = some (some (c, p, q))) ∨
    endLoopH ops e paths curr pos = (([], .nil, if paths = [] then pos else 0), some false) ∧ endLoop ops e paths curr pos = some none := by
  induction paths generalizing curr pos with
  | nil =>
    unfold endLoop endLoopH
    cases curr with
    | nil => simp
    | node k v b l r =>
      simp only
      cases ops.compare k e with
      | none => simp
      | some c =>
        simp only
        by_cases hc : c ≥ 0
        · simp only [if_pos hc]
          simp
        · simp only [if_neg hc]
          simp
  | cons p ps ih =>
    unfold endLoop endLoopH
    cases curr with
    | nil => simp
    | node k v b l r =>
      simp only
      cases ops.compare k e with
      | none => simp
      | some c =>
        simp only
        by_cases hc : c ≥ 0
        · simp only [if_pos hc, reduceCtorEq, if_false]
          rcases ih p 0 with h | h | ⟨h1, h2⟩
          · exact .inl h
          · exact .inr (.inl h)
          · refine .inr (.inr ⟨?_, h2⟩)
            rw [h1]
            simp
        · simp only [if_neg hc]
          simp

theorem boundEnd_eq (it : AvlIter K V) : boundEnd ops it = settled (boundEndH ops it) := by
  unfold boundEnd boundEndH
  rcases it with ⟨paths, curr, pos, start, - | e⟩
  · rfl
  · simp only
    rcases endLoop_eq (ops := ops) e paths curr pos with ⟨h1, h2⟩ | ⟨p, c, q, h1, h2⟩ | ⟨h1, h2⟩
    · rw [h2]
      rcases h : endLoopH ops e paths curr pos with ⟨⟨p, c, q⟩, o⟩
      rw [h] at h1
      simp only at h1
      subst h1
      rfl
    · rw [h1, h2]
      rfl
    · rw [h1, h2]
      rfl

theorem bounds_eq (it : AvlIter K V) : bounds ops it = settled (boundsH ops it) := by
  unfold bounds boundsH
  rcases it with ⟨paths, curr, pos, - | s, stop⟩
  · exact boundEnd_eq _
  · simp only
    rcases startLoop_eq (ops := ops) s paths curr pos with ⟨h1, h2⟩ | ⟨p, c, q, h1, h2⟩ | ⟨h1, h2⟩
    · rw [h2]
      rcases h : startLoopH ops s paths curr pos with ⟨⟨p, c, q⟩, o⟩
      rw [h] at h1
      simp only at h1
      subst h1
      rfl
    · rw [h1, h2]
      exact boundEnd_eq _
    · rw [h1, h2]
      rfl

theorem step_eq (it : AvlIter K V) : step ops it = settled (stepH ops it) := by
  unfold step stepH
  rcases it with ⟨paths, curr, - | - | pos, start, stop⟩
  · exact bounds_eq _
  · simp only
    rcases curr with - | ⟨k, v, b, l, r⟩
    · rfl
    · cases r with
      | nil =>
        cases paths with
        | nil => rfl
        | cons p ps => exact bounds_eq _
      | node rk rv rb rl rr => exact bounds_eq _
  · rfl

theorem advance_eq (it : AvlIter K V) : advance ops it = settled (advanceH ops it) := by
  unfold advance advanceH
  rcases it with ⟨- | ⟨p, ps⟩, - | ⟨k, v, b, l, r⟩, pos, start, stop⟩
  · rfl
  · exact step_eq _
  · exact step_eq _
  · exact step_eq _

/-- Shape of reachable iterators, whatever the comparisons answer. -/
structure Shaped (it : AvlIter K V) : Prop where
  pos : it.pos = 0 ∨ it.pos = 1
  paths : ∀ p ∈ it.paths, p ≠ .nil

/-- A node that cannot be compared. -/
structure Jammed (ops : KeyOps K) (it : AvlIter K V) : Prop where
  stays : boundsH ops it = (it, false)
  curr : it.curr ≠ .nil
  pos : it.pos = 0

theorem startSpineH_jam (s : K) (t t' : Tree K V) (ht : t ≠ .nil) (h : startSpineH ops s t = (t', none)) :
    t' ≠ .nil ∧ startSpineH ops s t' = (t', none) := by
  induction t with
  | nil => exact absurd rfl ht
  | node k v b l r _ ih =>
    unfold startSpineH at h
    cases hc : ops.compare s k with
    | none =>
      rw [hc] at h
      simp only [Prod.mk.injEq, and_true] at h
      subst h
      exact ⟨by simp, by unfold startSpineH; simp [hc]⟩
    | some c =>
      rw [hc] at h
      simp only at h
      by_cases hlt : c < 0
      · simp only [if_pos hlt] at h
        cases r with
        | nil => simp at h
        | node rk rv rb rl rr => exact ih (by simp) h
      · simp [if_neg hlt] at h

theorem startSpineH_found (s : K) (t t' : Tree K V) (h : startSpineH ops s t = (t', some true)) : t' ≠ .nil := by
  induction t with
  | nil => simp [startSpineH] at h
  | node k v b l r _ ih =>
    unfold startSpineH at h
    cases hc : ops.compare s k with
    | none => simp [hc] at h
    | some c =>
      rw [hc] at h
      simp only at h
      by_cases hlt : c < 0
      · simp only [if_pos hlt] at h
        cases r with
        | nil => simp at h
        | node rk rv rb rl rr => exact ih h
      · simp only [if_neg hlt, Prod.mk.injEq, and_true] at h
        subst h
        simp

theorem startLoopH_spec (s : K) (paths : List (Tree K V)) (curr : Tree K V) (hp : ∀ p ∈ paths, p ≠ .nil) (hc : curr ≠ .nil)
    (p : List (Tree K V)) (c : Tree K V) (q : Nat) (o : Option Bool) (h : startLoopH ops s paths curr 0 = ((p, c, q), o)) :
    q = 0 ∧ (∀ x ∈ p, x ≠ .nil) ∧ (o ≠ some false → c ≠ .nil) ∧ (o = some false → p = []) ∧ (o = none → startLoopH ops s p c 0 = ((p, c, 0), none)) := by
  induction paths generalizing curr with
  | nil =>
    unfold startLoopH at h
    rcases hs : startSpineH ops s curr with ⟨t, - | - | -⟩ <;> rw [hs] at h <;> simp only [Prod.mk.injEq] at h <;>
      obtain ⟨⟨rfl, rfl, rfl⟩, rfl⟩ := h
    · obtain ⟨h1, h2⟩ := startSpineH_jam s curr _ hc hs
      exact ⟨rfl, by simp, fun _ => h1, by simp, fun _ => by unfold startLoopH; rw [h2]⟩
    · simp
    · exact ⟨rfl, by simp, fun _ => startSpineH_found s _ _ hs, by simp, by simp⟩
  | cons a ps ih =>
    unfold startLoopH at h
    rcases hs : startSpineH ops s curr with ⟨t, - | - | -⟩ <;> rw [hs] at h <;> simp only at h
    · simp only [Prod.mk.injEq] at h
      obtain ⟨⟨rfl, rfl, rfl⟩, rfl⟩ := h
      obtain ⟨h1, h2⟩ := startSpineH_jam s curr _ hc hs
      exact ⟨rfl, hp, fun _ => h1, by simp, fun _ => by unfold startLoopH; rw [h2]⟩
    · exact ih a (fun x hx => hp x (by simp [hx])) (hp a (by simp)) h
    · simp only [Prod.mk.injEq] at h
      obtain ⟨⟨rfl, rfl, rfl⟩, rfl⟩ := h
      exact ⟨rfl, hp, fun _ => startSpineH_found s _ _ hs, by simp, by simp⟩

theorem endLoopH_spec (e : K) (paths : List (Tree K V)) (curr : Tree K V) (hp : ∀ p ∈ paths, p ≠ .nil) (hc : curr ≠ .nil)
    (p : List (Tree K V)) (c : Tree K V) (q : Nat) (o : Option Bool) (h : endLoopH ops e paths curr 0 = ((p, c, q), o)) :
    q = 0 ∧ (∀ x ∈ p, x ≠ .nil) ∧ (o ≠ some false → c ≠ .nil) ∧ (o = some false → p = []) ∧ (o = none → endLoopH ops e p c 0 = ((p, c, 0), none)) := by
  induction paths generalizing curr with
  | nil =>
    cases curr with
    | nil => exact absurd rfl hc
    | node k v b l r =>
      unfold endLoopH at h
      simp only at h
      cases hk : ops.compare k e with
      | none =>
        rw [hk] at h
        simp only [Prod.mk.injEq] at h
        obtain ⟨⟨rfl, rfl, rfl⟩, rfl⟩ := h
        exact ⟨rfl, by simp, fun _ => by simp, by simp, fun _ => by unfold endLoopH; simp [hk]⟩
      | some d =>
        rw [hk] at h
        simp only at h
        by_cases hd : d ≥ 0
        · simp only [if_pos hd, Prod.mk.injEq] at h
          obtain ⟨⟨rfl, rfl, rfl⟩, rfl⟩ := h
          simp
        · simp only [if_neg hd, Prod.mk.injEq] at h
          obtain ⟨⟨rfl, rfl, rfl⟩, rfl⟩ := h
          simp
  | cons a ps ih =>
    cases curr with
    | nil => exact absurd rfl hc
    | node k v b l r =>
      unfold endLoopH at h
      simp only at h
      cases hk : ops.compare k e with
      | none =>
        rw [hk] at h
        simp only [Prod.mk.injEq] at h
        obtain ⟨⟨rfl, rfl, rfl⟩, rfl⟩ := h
        exact ⟨rfl, hp, fun _ => by simp, by simp, fun _ => by unfold endLoopH; simp [hk]⟩
      | some d =>
        rw [hk] at h
        simp only at h
        by_cases hd : d ≥ 0
        · simp only [if_pos hd] at h
          exact ih a (fun x hx => hp x (by simp [hx])) (hp a (by simp)) h
        · simp only [if_neg hd, Prod.mk.injEq] at h
          obtain ⟨⟨rfl, rfl, rfl⟩, rfl⟩ := h
          exact ⟨rfl, hp, fun _ => by simp, by simp, by simp⟩

theorem boundEndH_spec (paths : List (Tree K V)) (curr : Tree K V) (stop : Option K) (hp : ∀ p ∈ paths, p ≠ .nil) (hc : curr ≠ .nil)
    (j : AvlIter K V) (o : Bool) (h : boundEndH ops ⟨paths, curr, 0, none, stop⟩ = (j, o)) : Shaped j ∧ (o = false → Jammed ops j) ∧ (j.curr = .nil → j.paths = []) := by
  unfold boundEndH at h
  cases stop with
  | none =>
    simp only [Prod.mk.injEq] at h
    obtain ⟨rfl, rfl⟩ := h
    exact ⟨⟨.inl rfl, hp⟩, by simp, fun h => absurd h hc⟩
  | some e =>
    simp only at h
    rcases he : endLoopH ops e paths curr 0 with ⟨⟨p, c, q⟩, - | - | -⟩ <;> rw [he] at h <;> simp only [Prod.mk.injEq] at h <;>
      obtain ⟨rfl, rfl⟩ := h <;> obtain ⟨rfl, h2, h3, h5, h4⟩ := endLoopH_spec e paths curr hp hc _ _ _ _ he
    · refine ⟨⟨.inl rfl, h2⟩, fun _ => ⟨?_, h3 (by simp), rfl⟩, fun h => absurd h (h3 (by simp))⟩
      simp only [boundsH, boundEndH, h4 rfl]
    · exact ⟨⟨.inl rfl, h2⟩, by simp, fun _ => h5 rfl⟩
    · exact ⟨⟨.inl rfl, h2⟩, by simp, fun h => absurd h (h3 (by simp))⟩

theorem boundsH_spec (paths : List (Tree K V)) (curr : Tree K V) (start stop : Option K) (hp : ∀ p ∈ paths, p ≠ .nil) (hc : curr ≠ .nil)
    (j : AvlIter K V) (o : Bool) (h : boundsH ops ⟨paths, curr, 0, start, stop⟩ = (j, o)) : Shaped j ∧ (o = false → Jammed ops j) ∧ (j.curr = .nil → j.paths = []) := by
  unfold boundsH at h
  cases start with
  | none => exact boundEndH_spec paths curr stop hp hc j o h
  | some s =>
    simp only at h
    rcases he : startLoopH ops s paths curr 0 with ⟨⟨p, c, q⟩, - | - | -⟩ <;> rw [he] at h <;> simp only [Prod.mk.injEq] at h <;>
      obtain ⟨rfl, h2, h3, h5, h4⟩ := startLoopH_spec s paths curr hp hc _ _ _ _ he
    · obtain ⟨rfl, rfl⟩ := h
      refine ⟨⟨.inl rfl, h2⟩, fun _ => ⟨?_, h3 (by simp), rfl⟩, fun h => absurd h (h3 (by simp))⟩
      simp only [boundsH, h4 rfl]
    · obtain ⟨rfl, rfl⟩ := h
      exact ⟨⟨.inl rfl, h2⟩, by simp, fun _ => h5 rfl⟩
    · exact boundEndH_spec p c stop h2 (h3 (by simp)) j o h

theorem stepH_spec (it : AvlIter K V) (hs : Shaped it) (hc : it.curr ≠ .nil) (j : AvlIter K V) (o : Bool) (h : stepH ops it = (j, o)) :
    Shaped j ∧ (o = false → Jammed ops j) ∧ (j.curr = .nil → j.paths = []) := by
  obtain ⟨paths, curr, pos, start, stop⟩ := it
  obtain ⟨hpos, hp⟩ := hs
  simp only at hpos hp hc
  unfold stepH at h
  rcases hpos with rfl | rfl
  · exact boundsH_spec paths curr start stop hp hc j o h
  · cases curr with
    | nil => exact absurd rfl hc
    | node k v b l r =>
      cases r with
      | nil =>
        cases paths with
        | nil =>
          simp only [Prod.mk.injEq] at h
          obtain ⟨rfl, rfl⟩ := h
          exact ⟨⟨.inr rfl, hp⟩, by simp, by simp⟩
        | cons p ps => exact boundsH_spec ps p start stop (fun x hx => hp x (by simp [hx])) (hp p (by simp)) j o h
      | node rk rv rb rl rr =>
        obtain ⟨k', v', b', r', ps, h1, h2, -⟩ := descend_spec (.node rk rv rb rl rr) (by simp) paths hp
        simp only [h1] at h
        exact boundsH_spec ps _ start stop h2 (by simp) j o h

theorem advanceH_spec (it : AvlIter K V) (hs : Shaped it) (j : AvlIter K V) (o : Bool) (h : advanceH ops it = (j, o)) :
    Shaped j ∧ (o = false → Jammed ops j) ∧ (j.curr = .nil → j.paths = []) := by
  obtain ⟨paths, curr, pos, start, stop⟩ := it
  obtain ⟨hpos, hp⟩ := hs
  cases curr with
  | nil =>
    cases paths with
    | nil =>
      simp only [advanceH, Prod.mk.injEq] at h
      obtain ⟨rfl, rfl⟩ := h
      exact ⟨⟨hpos, hp⟩, by simp, by simp⟩
    | cons p ps =>
      exact stepH_spec ⟨ps, p, 0, start, stop⟩ ⟨.inl rfl, fun x hx => hp x (by simp [hx])⟩ (hp p (by simp)) j o h
  | node k v b l r => exact stepH_spec _ ⟨hpos, hp⟩ (by simp) j o h

theorem advanceH_jammed (j : AvlIter K V) (hj : Jammed ops j) : advanceH ops j = (j, false) := by
  obtain ⟨paths, curr, pos, start, stop⟩ := j
  obtain ⟨h1, h2, h3⟩ := hj
  simp only at h2 h3
  subst h3
  cases curr with
  | nil => exact absurd rfl h2
  | node k v b l r => exact h1

theorem new_shaped (root : Tree K V) (start stop : Option K) (it : AvlIter K V) (h : AvlIter.new ops root start stop = some it) : Shaped it := by
  have hit : it = ⟨(AvlIter.descend root []).2, (AvlIter.descend root []).1, 0, start, stop⟩ := by
    simp only [AvlIter.new] at h
    split at h
    · split at h
      · simp at h
      · split at h
        · simp at h
        · simpa using h.symm
    · simpa using h.symm
  subst hit
  refine ⟨.inl rfl, ?_⟩
  cases root with
  | nil => simp [descend]
  | node k v b l r =>
    obtain ⟨k', v', b', r', ps, h1, h2, -⟩ := descend_spec (.node k v b l r) (by simp) [] (by simp)
    simpa [h1] using h2

/-- A call on the simpler model, in terms of `advance`. -/
theorem sortedCall_cases (it : AvlIter K V) (hs : Shaped it) (c : IterCall) :
    (∃ j, advanceH ops it = (j, false) ∧ Jammed ops j ∧ it.sortedCall ops c = (it, .crash) ∧ it.sortedCallH ops c = (j, .crash)) ∨
    it.sortedCall ops c = it.sortedCallH ops c ∧ Shaped (it.sortedCall ops c).1 := by
  rcases h : advanceH ops it with ⟨j, - | -⟩
  · refine .inl ⟨j, rfl, (advanceH_spec it hs j _ h).2.1 rfl, ?_, by simp [sortedCallH, h]⟩
    cases c <;> simp [sortedCall, call, next, hasNext, peek, advance_eq, settled, h]
  · right
    obtain ⟨⟨hpos, hp⟩, -, hnil⟩ := advanceH_spec it hs j _ h
    have ha : advance ops it = some j := by simp [advance_eq, settled, h]
    unfold sortedCallH
    simp only [h]
    obtain ⟨paths, curr, pos, start, stop⟩ := j
    cases curr with
    | nil =>
      cases paths with
      | nil => cases c <;> simp [sortedCall, call, next, hasNext, peek, ha] <;> exact ⟨hpos, hp⟩
      | cons p ps =>
        exact absurd (hnil rfl) (by simp)
    | node k v b l r =>
      cases c <;> simp [sortedCall, call, next, hasNext, peek, ha]
      · exact ⟨.inr rfl, hp⟩
      · exact ⟨hpos, hp⟩
      · exact ⟨hpos, hp⟩

end AvlIter

end Poodle
