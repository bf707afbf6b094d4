import Verif.Props.SortedHeap
import Verif.Lemmas.AvlSafe

/-
Properties C149-C151: iterators of a sorted map that is changed in any way, with any comparisons
(/repo/src/collection/avl.go, sorted_map.go).
-/

namespace Poodle.Props
open Poodle Poodle.Spec

variable {K V : Type}

/-- The maps for which the iterators of a program were made, in the order in which they were made. -/
def itersOf : List (KeyOps K × Cmd K V) → List (Out K V) → List Nat
  | (_, .iter i _ _) :: cs, .done :: os => i :: itersOf cs os
  | _ :: cs, _ :: os => itersOf cs os
  | _, _ => []

theorem itersOf_cons (I : List Nat) (c : KeyOps K × Cmd K V) (cs : List (KeyOps K × Cmd K V)) (o : Out K V) (os : List (Out K V)) :
    itersAfter I c.2 o ++ itersOf cs os = I ++ itersOf (c :: cs) (o :: os) := by
  obtain ⟨ops, c⟩ := c
  cases c <;> cases o <;> simp [itersAfter, itersOf]

/-! ### C149 Iterators do not crash -/

/-- C149.  In every program, whatever the comparisons answer and however the maps are changed: a call on an iterator panics only if a
comparison made in that call panics, or it is `Next` or `Peek` and `HasNext` would have returned false instead. -/
theorem C149_iterators_survive (cs : List (KeyOps K × Cmd K V)) (t j : Nat) (kops : KeyOps K) (c : IterCall)
    (hc : cs[t]? = some (kops, .call j c)) (ho : (runWith World.new cs).2[t]? = some .crash) :
    (∃ a b, kops.compare a b = none) ∨
      (c ≠ .hasNext ∧ (runWith World.new (cs.take t ++ [(kops, .call j .hasNext)])).2[t]? = some (.iter (.bool false))) := by
  suffices h : ∀ (w : World K V) Ss D I, Safe w Ss D (fun _ _ => True) I → (runWith w cs).2[t]? = some .crash →
      (∃ a b, kops.compare a b = none) ∨
        (c ≠ .hasNext ∧ (runWith w (cs.take t ++ [(kops, .call j .hasNext)])).2[t]? = some (.iter (.bool false))) from
    h _ _ _ _ (Safe.new _) ho
  clear ho
  induction cs generalizing t with
  | nil => simp at hc
  | cons d cs ih =>
    intro w Ss D I S ho
    cases t with
    | zero =>
      simp only [List.getElem?_cons_zero, Option.some.injEq] at hc
      subst hc
      simp only [runWith, List.getElem?_cons_zero, Option.some.injEq] at ho
      rcases e2 : w.iters[j]? with - | it
      · simp [World.exec, e2] at ho
      · obtain ⟨i, -, P, n, hi, hit⟩ := forall₂_get S.iters e2
        obtain ⟨ρ, hρ⟩ := S.ranked hi
        have hw := (sortedCall_works (ops := kops) hρ it hit c).2.1
        have hcr : (it.sortedCall kops w.heap c).2 = .crash := by
          simp only [World.exec, e2] at ho
          rcases hx : it.sortedCall kops w.heap c with ⟨it', r⟩
          rw [hx] at ho
          cases r <;> simp_all
        rcases hw hcr with h | ⟨h1, h2⟩
        · exact .inl h
        · refine .inr ⟨h1, ?_⟩
          simp only [List.take_zero, List.nil_append, runWith, List.getElem?_cons_zero, Option.some.injEq, World.exec, e2]
          rcases hx : it.sortedCall kops w.heap .hasNext with ⟨it', r⟩
          rw [hx] at h2
          simp only at h2
          subst h2
          rfl
    | succ t =>
      simp only [List.getElem?_cons_succ] at hc
      obtain ⟨Ss', D', S', -⟩ := S.exec (ops := d.1) d.2 (fun _ _ _ _ _ _ => trivial)
      exact ih t hc _ Ss' D' _ S' (by simpa only [runWith, List.getElem?_cons_succ] using ho)

/-- C149.  Making an iterator panics only if there are two bounds and the comparison of them panics or says that the first is larger. -/
theorem C149_new_iterators (cs : List (KeyOps K × Cmd K V)) (t i : Nat) (kops : KeyOps K) (start stop : Option K)
    (hc : cs[t]? = some (kops, .iter i start stop)) (ho : (runWith World.new cs).2[t]? = some .crash) :
    ∃ s e, start = some s ∧ stop = some e ∧ ∀ c, kops.compare s e = some c → c > 0 := by
  suffices h : ∀ (w : World K V) Ss D I, Safe w Ss D (fun _ _ => True) I → (runWith w cs).2[t]? = some .crash →
      ∃ s e, start = some s ∧ stop = some e ∧ ∀ c, kops.compare s e = some c → c > 0 from
    h _ _ _ _ (Safe.new _) ho
  clear ho
  induction cs generalizing t with
  | nil => simp at hc
  | cons d cs ih =>
    intro w Ss D I S ho
    cases t with
    | zero =>
      simp only [List.getElem?_cons_zero, Option.some.injEq] at hc
      subst hc
      simp only [runWith, List.getElem?_cons_zero, Option.some.injEq] at ho
      rcases S.links.look i with ⟨e1, e2, e3⟩ | ⟨P, n, e1, e2, e3⟩
      · simp [World.exec, e2] at ho
      · obtain ⟨ρ, hρ⟩ := S.ranked e1
        simp only [World.exec, e2] at ho
        rcases hnew : HIter.new kops w.heap (hmap P n).root start stop with - | it
        · exact new_crash hρ (hmap P n).root (fun a ha => List.mem_append_left _ (ptr_mem ha)) start stop hnew
        · simp [hnew] at ho
    | succ t =>
      simp only [List.getElem?_cons_succ] at hc
      obtain ⟨Ss', D', S', -⟩ := S.exec (ops := d.1) d.2 (fun _ _ _ _ _ _ => trivial)
      exact ih t hc _ Ss' D' _ S' (by simpa only [runWith, List.getElem?_cons_succ] using ho)

/-- Keys are removed and added while two iterators are used, one at a node that is removed; at the end, one of them is exhausted. -/
def changedProgram : List (KeyOps Int × Cmd Int Int) :=
  [.newMap, .put 0 2 20, .put 0 1 10, .put 0 3 30, .put 0 4 40, .iter 0 none none, .iter 0 (some 5) (some 9), .call 0 .next, .call 0 .peek,
   .remove 0 2, .remove 0 1, .put 0 5 50, .remove 0 3, .call 0 .next, .call 0 .next, .call 0 .next, .call 0 .hasNext, .call 0 .next,
   .iter 0 (some 9) (some 5)].map fun c => (intOps, c)

/-- C149: the hypotheses of `C149_iterators_survive`. -/
example := C149_iterators_survive changedProgram 15 0 intOps .next rfl (by decide +kernel)

example : (runWith World.new changedProgram).2 = [.done, .val none, .val none, .val none, .val none, .done, .done, .iter (.yield (1, 10)),
    .iter (.yield (2, 20)), .val (some 20), .val (some 10), .val none, .val (some 30), .iter (.yield (1, 10)), .crash, .crash,
    .iter (.bool false), .crash, .crash] := by decide +kernel

example : changedProgram[15]? = some (intOps, .call 0 .next) ∧ (runWith World.new changedProgram).2[15]? = some .crash ∧
    changedProgram[18]? = some (intOps, .iter 0 (some 9) (some 5)) ∧ (runWith World.new changedProgram).2[18]? = some .crash :=
  ⟨rfl, by decide +kernel, rfl, by decide +kernel⟩

/-! ### C150 Iterators return what was put -/

/-- C150.  In every program, whatever the comparisons answer and however the maps are changed: the key and the value that an iterator
returns were put together, by one call of `Put` before, into the map for which the iterator was made. -/
theorem C150_entries_were_put (cs : List (KeyOps K × Cmd K V)) (t j : Nat) (kops : KeyOps K) (c : IterCall) (k : K) (v : V)
    (hc : cs[t]? = some (kops, .call j c)) (ho : (runWith World.new cs).2[t]? = some (.iter (.yield (k, v)))) :
    ∃ i s kops' o, (itersOf (cs.take t) ((runWith World.new cs).2.take t))[j]? = some i ∧ s < t ∧ cs[s]? = some (kops', .put i k v) ∧
      (runWith World.new cs).2[s]? = some (.val o) := by
  suffices h : ∀ (w : World K V) Ss D (E : Nat → K × V → Prop) I, Safe w Ss D E I → (runWith w cs).2[t]? = some (.iter (.yield (k, v))) →
      ∃ i, (I ++ itersOf (cs.take t) ((runWith w cs).2.take t))[j]? = some i ∧ (E i (k, v) ∨ ∃ s kops' o, s < t ∧
        cs[s]? = some (kops', .put i k v) ∧ (runWith w cs).2[s]? = some (.val o)) by
    obtain ⟨i, h1, h2 | ⟨s, ops', o, h2⟩⟩ := h _ _ _ (fun _ _ => False) _ (Safe.new _) ho
    · exact h2.elim
    · exact ⟨i, s, ops', o, by simpa using h1, h2⟩
  clear ho
  induction cs generalizing t with
  | nil => simp at hc
  | cons d cs ih =>
    intro w Ss D E I S ho
    cases t with
    | zero =>
      simp only [List.getElem?_cons_zero, Option.some.injEq] at hc
      subst hc
      simp only [runWith, List.getElem?_cons_zero, Option.some.injEq] at ho
      rcases e2 : w.iters[j]? with - | it
      · simp [World.exec, e2] at ho
      · obtain ⟨i, hI, P, n, hi, hit⟩ := forall₂_get S.iters e2
        obtain ⟨ρ, hρ⟩ := S.ranked hi
        have hw := (sortedCall_works (ops := kops) hρ it hit c).2.2
        have hy : (it.sortedCall kops w.heap c).2 = .yield (k, v) := by
          simp only [World.exec, e2] at ho
          rcases hx : it.sortedCall kops w.heap c with ⟨it', r⟩
          rw [hx] at ho
          cases r <;> simp_all
        obtain ⟨⟨a, ha, m, m1, m2⟩, -⟩ := hw _ hy
        refine ⟨i, by simpa [itersOf] using hI, .inl ?_⟩
        rw [m2]
        exact S.entry hi ha m1
    | succ t =>
      simp only [List.getElem?_cons_succ] at hc
      obtain ⟨Ss', D', S', -⟩ := (S.mono (E' := fun i e => E i e ∨ ∃ o, d.2 = .put i e.1 e.2 ∧ (w.exec d.1 d.2).2 = .val o)
        fun i e h => .inl h).exec (ops := d.1) d.2 (fun i k v o h1 h2 => .inr ⟨o, h1, h2⟩)
      obtain ⟨i, h1, h2⟩ := ih t hc _ Ss' D' _ _ S' (by simpa only [runWith, List.getElem?_cons_succ] using ho)
      refine ⟨i, ?_, ?_⟩
      · simp only [runWith, List.take_succ_cons]
        rw [← itersOf_cons]
        exact h1
      · rcases h2 with (h2 | ⟨o, h2, h3⟩) | ⟨s, ops', o, h2, h3, h4⟩
        · exact .inl h2
        · refine .inr ⟨0, d.1, o, by omega, ?_, ?_⟩
          · rw [← h2]; rfl
          · simp [runWith, h3]
        · exact .inr ⟨s + 1, ops', o, by omega, h3, by simpa [runWith] using h4⟩

example : changedProgram[13]? = some (intOps, .call 0 .next) ∧ (runWith World.new changedProgram).2[13]? = some (.iter (.yield (1, 10))) ∧
    (itersOf (changedProgram.take 13) ((runWith World.new changedProgram).2.take 13)) = [0, 0] :=
  ⟨rfl, by decide +kernel, by decide +kernel⟩

/-- Claim of C150 that is false of the code: `Next` returns an entry that the map has at that time. -/
def ReturnsPresent : Prop := ∀ (ops : KeyOps Int), LawfulKeys ops compare → TotalKeys ops → ∀ (cs : List (Cmd Int Int)) (i j : Nat) (k v : Int),
  (itersOf (cs.map fun c => (ops, c)) (World.run ops World.new cs).2)[j]? = some i →
  (World.run ops World.new (cs ++ [.call j .next])).2.getLast? = some (.iter (.yield (k, v))) →
  (World.run ops World.new (cs ++ [.get i k])).2.getLast? = some (.val (some v))

/-- An entry is returned a second time, after it was removed: `Remove` moves the entry of another node into the node that the iterator
has yet to visit. -/
theorem C150_refuted : ¬ ReturnsPresent := by
  intro h
  have := h intOps intOps_lawful.1 intOps_lawful.2 [.newMap, .put 0 2 20, .put 0 1 10, .put 0 3 30, .put 0 4 40, .iter 0 none none,
    .call 0 .next, .remove 0 2, .remove 0 1] 0 0 1 10 (by decide +kernel) (by decide +kernel)
  revert this
  decide +kernel

/-! ### C151 Iterators end -/

/-- The entries returned by `Next` on iterator `j`. -/
def nextEntries (j : Nat) : List (KeyOps K × Cmd K V) → List (Out K V) → List (K × V)
  | (_, .call j' .next) :: cs, .iter (.yield e) :: os => if j' = j then e :: nextEntries j cs os else nextEntries j cs os
  | _ :: cs, _ :: os => nextEntries j cs os
  | _, _ => []

/-- The program does not put into map `i` or remove from it. -/
def LeavesAlone (i : Nat) (ds : List (KeyOps K × Cmd K V)) : Prop :=
  ∀ d ∈ ds, (∀ k v, d.2 ≠ .put i k v) ∧ ∀ k, d.2 ≠ .remove i k

theorem nextEntries_other {j : Nat} {d : KeyOps K × Cmd K V} {o : Out K V} {ds : List (KeyOps K × Cmd K V)} {os : List (Out K V)}
    (h : d.2 ≠ .call j .next) : nextEntries j (d :: ds) (o :: os) = nextEntries j ds os := by
  obtain ⟨ops, c⟩ := d
  rcases c with _ | _ | _ | _ | _ | _ | ⟨j', c⟩ <;> try rfl
  cases c <;> try rfl
  rcases o with _ | _ | _ | r | _ | _ <;> try rfl
  cases r <;> try rfl
  have hne : j' ≠ j := by
    rintro rfl
    exact h rfl
  simp [nextEntries, hne]

theorem nextEntries_none {j : Nat} {d : KeyOps K × Cmd K V} {o : Out K V} {ds : List (KeyOps K × Cmd K V)} {os : List (Out K V)}
    (h : ∀ e, o ≠ .iter (.yield e)) : nextEntries j (d :: ds) (o :: os) = nextEntries j ds os := by
  obtain ⟨ops, c⟩ := d
  rcases c with _ | _ | _ | _ | _ | _ | ⟨j', c⟩ <;> try rfl
  cases c <;> try rfl
  rcases o with _ | _ | _ | r | _ | _ <;> try rfl
  cases r <;> try rfl
  exact absurd rfl (h _)

theorem runWith_append (w : World K V) (cs ds : List (KeyOps K × Cmd K V)) :
    runWith w (cs ++ ds) = ((runWith (runWith w cs).1 ds).1, (runWith w cs).2 ++ (runWith (runWith w cs).1 ds).2) := by
  induction cs generalizing w with
  | nil => rfl
  | cons c cs ih => simp [runWith, ih]

theorem runWith_length (w : World K V) (cs : List (KeyOps K × Cmd K V)) : (runWith w cs).2.length = cs.length := by
  induction cs generalizing w with
  | nil => rfl
  | cons c cs ih => simp [runWith, ih]

theorem runWith_safe (cs : List (KeyOps K × Cmd K V)) (w : World K V) (Ss : List (PTree K V × Int)) (D : Nat → List Nat) (I : List Nat)
    (S : Safe w Ss D (fun _ _ => True) I) :
    ∃ Ss' D', Safe (runWith w cs).1 Ss' D' (fun _ _ => True) (I ++ itersOf cs (runWith w cs).2) := by
  induction cs generalizing w Ss D I with
  | nil => exact ⟨Ss, D, by simpa [runWith, itersOf] using S⟩
  | cons c cs ih =>
    obtain ⟨Ss', D', S', -⟩ := S.exec (ops := c.1) c.2 (fun _ _ _ _ _ _ => trivial)
    obtain ⟨Ss2, D2, S2⟩ := ih _ _ _ _ S'
    rw [itersOf_cons] at S2
    exact ⟨Ss2, D2, S2⟩

theorem exec_iters (w : World K V) (ops : KeyOps K) (c : Cmd K V) (j : Nat) (it : HIter K) (hj : w.iters[j]? = some it)
    (hc : ∀ x, c ≠ .call j x) : (w.exec ops c).1.iters[j]? = some it := by
  have hlt := (List.getElem?_eq_some_iff.mp hj).1
  cases c with
  | newMap => exact hj
  | get i k => simp only [World.exec]; split <;> [exact hj; split <;> exact hj]
  | put i k v => simp only [World.exec]; split <;> [exact hj; split <;> exact hj]
  | remove i k => simp only [World.exec]; split <;> [exact hj; split <;> exact hj]
  | size i => simp only [World.exec]; split <;> exact hj
  | iter i s e =>
    simp only [World.exec]
    split
    · exact hj
    · split
      · exact hj
      · simp only
        rw [List.getElem?_append_left hlt]
        exact hj
  | call j' x =>
    have hne : j' ≠ j := by
      rintro rfl
      exact hc x rfl
    simp only [World.exec]
    split
    · exact hj
    · split <;> simp only [List.getElem?_set_ne hne] <;> exact hj

theorem next_bound (ds : List (KeyOps K × Cmd K V)) (j i : Nat) (hds : LeavesAlone i ds) (w : World K V) (Ss : List (PTree K V × Int))
    (D : Nat → List Nat) (I : List Nat) (S : Safe w Ss D (fun _ _ => True) I) (P : PTree K V) (n : Int) (hi : Ss[i]? = some (P, n))
    (ρ : Nat → Nat) (hρ : Ranked w.heap (P.addrs ++ D i) ρ) (it : HIter K) (hj : w.iters[j]? = some it) (hit : IterOk (P.addrs ++ D i) it) :
    (nextEntries j ds (runWith w ds).2).length ≤ pot ρ it := by
  induction ds generalizing w Ss D I it with
  | nil => simp [nextEntries]
  | cons d ds ih =>
    obtain ⟨Ss', D', S', hlen, U⟩ := S.exec (ops := d.1) d.2 (fun _ _ _ _ _ _ => trivial)
    have hd := hds d (by simp)
    obtain ⟨u1, u2, u3⟩ := U i P n hi (by
      rintro (⟨k, v, h⟩ | ⟨k, h⟩)
      · exact hd.1 k v h
      · exact hd.2 k h)
    have hρ' : Ranked (w.exec d.1 d.2).1.heap (P.addrs ++ D' i) ρ := by
      rw [u2]
      intro a ha
      obtain ⟨m, m1, m2, m3⟩ := hρ a ha
      exact ⟨m, by rw [u3 a ha]; exact m1, by omega, m3⟩
    have go := fun it' => ih (fun x hx => hds x (by simp [hx])) _ Ss' D' _ S' u1 hρ' it'
    rw [u2] at go
    by_cases hc : ∃ x, d.2 = .call j x
    · obtain ⟨x, hx⟩ := hc
      obtain ⟨w1, w2, w3⟩ := sortedCall_works (ops := d.1) hρ it hit x
      have hex : (w.exec d.1 d.2).1.iters[j]? = some (it.sortedCall d.1 w.heap x).1 := by
        rw [hx]
        have hlt := (List.getElem?_eq_some_iff.mp hj).1
        simp only [World.exec, hj]
        rcases it.sortedCall d.1 w.heap x with ⟨it', r⟩
        cases r <;> simp only [List.getElem?_set_self hlt]
      have := go _ hex w1.ok
      simp only [runWith]
      by_cases hn : x = .next ∧ ∃ e, (it.sortedCall d.1 w.heap x).2 = .yield e
      · obtain ⟨rfl, e, he⟩ := hn
        have hout : (w.exec d.1 d.2).2 = .iter (.yield e) := by
          rw [hx]
          simp only [World.exec, hj]
          rcases hy : it.sortedCall d.1 w.heap .next with ⟨it', r⟩
          rw [hy] at he
          simp only at he
          subst he
          rfl
        have h2 := (w3 e he).2 rfl
        rw [hout]
        obtain ⟨ops, c⟩ := d
        simp only at hx
        subst hx
        simp only [nextEntries, if_true, List.length_cons]
        simp only at this h2
        omega
      · have hsame : nextEntries j (d :: ds) ((w.exec d.1 d.2).2 :: (runWith (w.exec d.1 d.2).1 ds).2) =
            nextEntries j ds (runWith (w.exec d.1 d.2).1 ds).2 := by
          by_cases hxn : x = .next
          · subst hxn
            have hout : ∀ e, (w.exec d.1 d.2).2 ≠ .iter (.yield e) := by
              intro e he
              rw [hx] at he
              simp only [World.exec, hj] at he
              rcases hy : it.sortedCall d.1 w.heap .next with ⟨it', r⟩
              rw [hy] at he
              refine hn ⟨rfl, e, ?_⟩
              rw [hy]
              cases r <;> simp_all
            exact nextEntries_none hout
          · refine nextEntries_other ?_
            rw [hx]
            simpa using hxn
        rw [hsame]
        exact Nat.le_trans this w1.le
    · have hx : ∀ x, d.2 ≠ .call j x := fun x h => hc ⟨x, h⟩
      have := go it (exec_iters w d.1 d.2 j it hj hx) hit
      simp only [runWith]
      rw [nextEntries_other (hx .next)]
      exact this

/-- C151.  After every program, whatever the comparisons answered and however the maps were changed, there is a number such that `Next` of
an iterator returns at most that many entries as long as its map is left alone, whatever else is done. -/
theorem C151_bounded (cs : List (KeyOps K × Cmd K V)) (j i : Nat) (hj : (itersOf cs (runWith World.new cs).2)[j]? = some i) :
    ∃ N, ∀ ds, LeavesAlone i ds → (nextEntries j ds ((runWith World.new (cs ++ ds)).2.drop cs.length)).length ≤ N := by
  obtain ⟨Ss, D, S⟩ := runWith_safe cs World.new [] _ [] (Safe.new _)
  rw [List.nil_append] at S
  obtain ⟨it, h1, P, n, h2, h3⟩ := forall₂_get S.iters.flip hj
  obtain ⟨ρ, hρ⟩ := S.ranked h2
  refine ⟨pot ρ it, fun ds hds => ?_⟩
  have : (runWith World.new (cs ++ ds)).2.drop cs.length = (runWith (runWith World.new cs).1 ds).2 := by
    rw [runWith_append]
    simp only
    rw [List.drop_append_of_le_length (by rw [runWith_length]), List.drop_of_length_le (by rw [runWith_length]), List.nil_append]
  rw [this]
  exact next_bound ds j i hds _ Ss D _ S P n h2 ρ hρ it h1 h3

example := C151_bounded (changedProgram.take 13) 0 0 (by decide +kernel)

/-- `n` rounds of `for it.HasNext() { it.Next() }`, with the comparisons `f`. -/
def rounds (f : Nat → KeyOps K) (j : Nat) : Nat → List (KeyOps K × Cmd K V)
  | 0 => []
  | n + 1 => rounds f j n ++ [(f n, .call j .hasNext), (f n, .call j .next)]

theorem nextEntries_append (j : Nat) (ds ds' : List (KeyOps K × Cmd K V)) (os os' : List (Out K V)) (h : ds.length = os.length) :
    nextEntries j (ds ++ ds') (os ++ os') = nextEntries j ds os ++ nextEntries j ds' os' := by
  induction ds generalizing os with
  | nil =>
    cases os with
    | nil => simp [nextEntries]
    | cons o os => simp at h
  | cons d ds ih =>
    cases os with
    | nil => simp at h
    | cons o os =>
      have ih := ih os (by simpa using h)
      simp only [List.cons_append]
      by_cases h1 : d.2 = .call j .next
      · by_cases h2 : ∃ e, o = .iter (.yield e)
        · obtain ⟨e, rfl⟩ := h2
          obtain ⟨ops, c⟩ := d
          simp only at h1
          subst h1
          simp [nextEntries, ih]
        · have h2 : ∀ e, o ≠ .iter (.yield e) := fun e he => h2 ⟨e, he⟩
          rw [nextEntries_none h2, nextEntries_none h2, ih]
      · rw [nextEntries_other h1, nextEntries_other h1, ih]

theorem rounds_alone (f : Nat → KeyOps K) (i j n : Nat) : LeavesAlone i (rounds f j n : List (KeyOps K × Cmd K V)) := by
  induction n with
  | zero => simp [rounds, LeavesAlone]
  | succ n ih =>
    intro d hd
    simp only [rounds, List.mem_append, List.mem_cons, List.not_mem_nil, or_false] at hd
    rcases hd with hd | rfl | rfl
    · exact ih d hd
    · simp
    · simp

theorem runWith_snoc (w : World K V) (cs : List (KeyOps K × Cmd K V)) (c : KeyOps K × Cmd K V) :
    (runWith w (cs ++ [c])).2.getLast? = some ((runWith w cs).1.exec c.1 c.2).2 := by
  rw [runWith_append]
  simp [runWith]

/-- C151.  After every program, whatever the comparisons answered and however the maps were changed, the loop
`for it.HasNext() { it.Next() }` ends if no comparison made in it panics, whatever the comparisons answer. -/
theorem C151_loop_ends (cs : List (KeyOps K × Cmd K V)) (j i : Nat) (hj : (itersOf cs (runWith World.new cs).2)[j]? = some i)
    (f : Nat → KeyOps K) (hf : ∀ n, TotalKeys (f n)) :
    ∃ n, (runWith World.new (cs ++ rounds f j n ++ [(f n, .call j .hasNext)])).2.getLast? = some (.iter (.bool false)) := by
  by_contra hcon
  simp only [not_exists] at hcon
  obtain ⟨N, hN⟩ := C151_bounded cs j i hj
  suffices h : ∀ n, (nextEntries j (rounds f j n) ((runWith World.new (cs ++ rounds f j n)).2.drop cs.length)).length = n by
    have h1 := hN (rounds f j (N + 1)) (rounds_alone f i j (N + 1))
    rw [h (N + 1)] at h1
    omega
  have hdrop : ∀ ds, (runWith World.new (cs ++ ds)).2.drop cs.length = (runWith (runWith World.new cs).1 ds).2 := by
    intro ds
    rw [runWith_append]
    simp only
    rw [List.drop_append_of_le_length (by rw [runWith_length]), List.drop_of_length_le (by rw [runWith_length]), List.nil_append]
  intro n
  induction n with
  | zero => simp [rounds, nextEntries]
  | succ n ih =>
    rw [hdrop] at ih ⊢
    simp only [rounds]
    rw [runWith_append, nextEntries_append _ _ _ _ _ (runWith_length _ _).symm, List.length_append, ih]
    congr 1
    have hend := hcon (n + 1)
    rw [runWith_snoc, runWith_append] at hend
    simp only [rounds] at hend
    rw [runWith_append] at hend
    simp only at hend
    -- the iterator before the round
    obtain ⟨Ss, D, S⟩ := runWith_safe (cs ++ rounds f j n ++ [(f n, .call j .hasNext)]) World.new [] _ [] (Safe.new _)
    have hI : ∃ it, (runWith World.new (cs ++ rounds f j n ++ [(f n, .call j .hasNext)])).1.iters[j]? = some it := by
      obtain ⟨Ss0, D0, S0⟩ := runWith_safe cs World.new [] _ [] (Safe.new _)
      rw [List.nil_append] at S0
      obtain ⟨it, h1, -⟩ := forall₂_get S0.iters.flip hj
      have hlen : ∀ (ds : List (KeyOps K × Cmd K V)) (w : World K V), w.iters.length ≤ (runWith w ds).1.iters.length := by
        intro ds
        induction ds with
        | nil => exact fun w => Nat.le_refl _
        | cons d ds ihd =>
          intro w
          refine Nat.le_trans ?_ (ihd _)
          by_cases hw : ∃ x y, d.2 = .call x y
          · obtain ⟨x, y, hd⟩ := hw
            rw [hd]
            simp only [World.exec]
            split
            · exact Nat.le_refl _
            · split <;> simp
          · by_contra hlt
            simp only [Nat.not_le] at hlt
            have hg := List.getElem?_eq_getElem hlt
            have := exec_iters w d.1 d.2 _ _ hg (fun x h => hw ⟨_, x, h⟩)
            have := (List.getElem?_eq_some_iff.mp this).1
            omega
      have hl := hlen (rounds f j n ++ [(f n, .call j .hasNext)]) (runWith World.new cs).1
      have hlt := (List.getElem?_eq_some_iff.mp h1).1
      rw [List.append_assoc, runWith_append]
      exact ⟨_, List.getElem?_eq_getElem (Nat.lt_of_lt_of_le hlt hl)⟩
    obtain ⟨it, hit⟩ := hI
    obtain ⟨i', -, P, m, hi', hok⟩ := forall₂_get S.iters hit
    obtain ⟨ρ, hρ⟩ := S.ranked hi'
    have hnext := next_end (ops := f n) hρ it hok (hf n)
    -- the same world, as the result of the round
    have hw : (runWith World.new (cs ++ rounds f j n ++ [(f n, .call j .hasNext)])).1 =
        ((runWith (runWith World.new cs).1 (rounds f j n)).1.exec (f n) (.call j .hasNext)).1 := by
      rw [runWith_append, runWith_append]
      rfl
    rw [hw] at hit hnext
    generalize (runWith (runWith World.new cs).1 (rounds f j n)).1 = w0 at hit hnext hend ⊢
    simp only [runWith] at hend ⊢
    generalize (w0.exec (f n) (.call j .hasNext)).1 = w1 at hit hnext hend ⊢
    rw [nextEntries_other (by simp)]
    have hlt := (List.getElem?_eq_some_iff.mp hit).1
    rcases hx : it.sortedCall (f n) w1.heap .next with ⟨it', r⟩
    rw [hx] at hnext
    rcases hnext with ⟨e, he⟩ | ⟨h1, h2⟩
    · simp only at he
      subst he
      simp [World.exec, hit, hx, nextEntries]
    · exfalso
      apply hend
      have h3 : (w1.exec (f n) (.call j .next)).1.iters[j]? = some it' := by
        simp only [World.exec, hit, hx]
        cases r <;> simp [hlt]
      generalize (w1.exec (f n) (.call j .next)).1 = w2 at h3 ⊢
      have h4 := hasNext_end (ops := f (n + 1)) (h := w2.heap) h1 h2
      rcases hy : it'.sortedCall (f (n + 1)) w2.heap .hasNext with ⟨it2, r2⟩
      rw [hy] at h4
      simp only at h4
      subst h4
      simp [World.exec, h3, hy]

/-- The iterator after the changes, and a loop over it. -/
example : (itersOf (changedProgram.take 13) (runWith World.new (changedProgram.take 13)).2)[0]? = some 0 ∧
    (∀ n : Nat, TotalKeys ((fun _ => intOps) n)) ∧
    (runWith World.new (changedProgram.take 13 ++ rounds (fun _ => intOps) 0 1 ++ [(intOps, .call 0 .hasNext)])).2.drop 13 =
      [.iter (.bool true), .iter (.yield (1, 10)), .iter (.bool false)] :=
  ⟨by decide +kernel, fun _ => intOps_lawful.2, by decide +kernel⟩

end Poodle.Props
