import Verif.Props.TrieStart

/-
Property C178: range iterators with any start and any end (/repo/src/util/trie_util.go:1123-1468).
-/

namespace Poodle.Props

open Spec

variable {α : Type}

/-- Every path has a longest beginning in the trie. -/
theorem reaches_exists (ks : List Bytes) : ∀ root : UNode α, ∃ q rest n, Reaches root ks q rest n := by
  induction ks with
  | nil => exact fun root => ⟨[], [], root, rfl, .here _, by simp⟩
  | cons k ks ih =>
    intro root
    by_cases h : ∃ c ∈ root.kids, c.nodeKey = k
    · obtain ⟨c, hc, rfl⟩ := h
      obtain ⟨q, rest, n, h1, h2, h3⟩ := ih c
      exact ⟨c.nodeKey :: q, rest, n, by rw [h1]; rfl, .child root c n q hc h2, h3⟩
    · refine ⟨[], k :: ks, root, rfl, .here _, ?_⟩
      intro k' hk' c hc hck
      obtain rfl : k = k' := by simpa using hk'
      exact h ⟨c, hc, hck⟩

/-- Different elements are told apart by the calls. -/
theorem rangeRun_inj {β : Type} (l l' : List β) (h : ∀ cs, rangeRun l cs = rangeRun l' cs) : l = l' := by
  induction l generalizing l' with
  | nil =>
    rcases l' with - | ⟨b, l'⟩
    · rfl
    · simpa [rangeRun] using h [.next]
  | cons a l ih =>
    rcases l' with - | ⟨b, l'⟩
    · simpa [rangeRun] using h [.next]
    · obtain rfl : a = b := by simpa [rangeRun] using h [.next]
      rw [ih l' fun cs => by simpa [rangeRun] using h (.next :: cs)]

/-- The nodes in the iterators are as deep as there are iterators up to theirs. -/
def Levels (root : UNode α) : List (List (UNode α)) → Prop
  | [] => True
  | l :: ps => (∀ n ∈ l, ∃ ks, At root ks n ∧ ks.length = ps.length + 1) ∧ Levels root ps

theorem Stack.levels {root : UNode α} {ps : List (List (UNode α))} {q : List Bytes} (h : Stack root ps q) : Levels root ps := by
  induction h with
  | base l h => exact ⟨fun n hn => ⟨[n.nodeKey], .child root n n [] (h.subset hn) (.here n), rfl⟩, trivial⟩
  | up l l' ps q k m h1 h2 h3 h4 ih =>
    refine ⟨fun n hn => ⟨(q ++ [k]) ++ [n.nodeKey], at_append h3 (.child m n n [] (h4.subset hn) (.here n)), ?_⟩, ih⟩
    have := h1.length
    simp at this ⊢
    omega

theorem Levels.push {root n : UNode α} {l : List (UNode α)} {ps : List (List (UNode α))} (h : Levels root ((n :: l) :: ps)) :
    Levels root (KeyIter.push n (l :: ps)) := by
  obtain ⟨h1, h2⟩ := h
  have h3 : Levels root (l :: ps) := ⟨fun m hm => h1 m (List.mem_cons_of_mem _ hm), h2⟩
  unfold KeyIter.push
  split
  · refine ⟨fun m hm => ?_, h3⟩
    obtain ⟨ks, hks, hlen⟩ := h1 n (by simp)
    exact ⟨ks ++ [m.nodeKey], at_append hks (.child n m m [] hm (.here m)), by simp [hlen]⟩
  · exact h3

theorem mem_walkAll {l : List (UNode α)} {c m : UNode α} (hc : c ∈ l) (hm : m ∈ descend c) : m ∈ descendAll l := by
  induction l with
  | nil => cases hc
  | cons d l ih =>
    rw [walkAll_cons, List.mem_append]
    rcases List.mem_cons.mp hc with rfl | hc
    · exact .inl hm
    · exact .inr (ih hc)

theorem Levels.drop {root : UNode α} (ps0 ps : List (List (UNode α))) (h : Levels root (ps0 ++ ps)) : Levels root ps := by
  induction ps0 with
  | nil => exact h
  | cons l ps0 ih => exact ih h.2

/-- The node of a given depth above one of the nodes left. -/
theorem Levels.ancestor {root n : UNode α} {ps : List (List (UNode α))} (h : Levels root ps) (hn : n ∈ ps.flatMap descendAll) (d : Nat)
    (hd : ps.length ≤ d) : ∃ c x y, At root x c ∧ x.length ≤ d ∧ At c y n ∧ ∀ m z, At c z m → m ∈ ps.flatMap descendAll := by
  induction ps with
  | nil => cases hn
  | cons l ps ih =>
    rw [List.flatMap_cons, List.mem_append] at hn
    rcases hn with hn | hn
    · obtain ⟨c, hc, y, hy⟩ := mem_walk_aux.2 l hn
      obtain ⟨x, hx, hlen⟩ := h.1 c hc
      refine ⟨c, x, y, hx, by simpa [hlen] using hd, hy, fun m z hm => ?_⟩
      rw [List.flatMap_cons, List.mem_append]
      exact .inl (mem_walkAll hc (at_mem_walk hm))
    · obtain ⟨c, x, y, h1, h2, h3, h4⟩ := ih h.2 hn (by simp at hd; omega)
      refine ⟨c, x, y, h1, h2, h3, fun m z hm => ?_⟩
      rw [List.flatMap_cons, List.mem_append]
      exact .inr (h4 m z hm)

theorem mem_left_child {root n c : UNode α} {ps : List (List (UNode α))} (h : Levels root ps) (hn : n ∈ ps.flatMap descendAll) (hc : c ∈ n.kids) :
    c ∈ ps.flatMap descendAll := by
  obtain ⟨x, _, y, -, -, h3, h4⟩ := h.ancestor hn _ le_rfl
  exact h4 c _ (at_append h3 (.child n c c [] hc (.here c)))

theorem mem_left_at {root n : UNode α} {ps : List (List (UNode α))} (h : Levels root ps) (hn : n ∈ ps.flatMap descendAll) : ∃ ks, At root ks n := by
  obtain ⟨x, a, y, h1, -, h3, -⟩ := h.ancestor hn _ le_rfl
  exact ⟨_, at_append h1 h3⟩

/-! ### Below the first key of the end -/

theorem quiet_done (en : List (UNode α)) (ec : Option Bytes) (r : List (UNode α)) (ms : List Bool) : ∀ ps : List (List (UNode α)),
    ps.length + 1 ≤ en.length → ps.flatMap descendAll = [] → RangeIter.endLoop en ec (ps ++ [r]) ms = RangeIter.endLoop en ec [r] ms := by
  intro ps
  induction ps with
  | nil => intros; rfl
  | cons l ps ih =>
    intro hlen h
    simp only [List.length_cons] at hlen
    obtain ⟨e, he⟩ : ∃ e, en[(ps ++ [r]).length]? = some e := ⟨_, List.getElem?_eq_getElem (by simp; omega)⟩
    rw [List.flatMap_cons, List.append_eq_nil_iff] at h
    rcases l with - | ⟨n, l⟩
    · rw [List.cons_append, RangeIter.endLoop, he]
      exact ih (by omega) h.2
    · rw [walkAll_cons, walk_eq] at h
      simp at h

theorem ended_run (root : UNode α) (en : List (UNode α)) (ec : Option Bytes) (ms : List Bool) (cs : List IterCall) :
    RangeIter.run (⟨root, false, en, ec, [], ms⟩ : RangeIter α) cs = rangeRun [] cs := by
  have hce : RangeIter.checkEnd (⟨root, false, en, ec, [], ms⟩ : RangeIter α) = some ⟨root, false, en, ec, [], ms⟩ :=
    baseCheckEnd_skip _ (.inr (.inr (.inl rfl)))
  induction cs with
  | nil => rfl
  | cons c cs ih =>
    cases c <;>
      simp [RangeIter.run, RangeIter.call, RangeIter.next, RangeIter.nextBody, RangeIter.peek, RangeIter.peekBody, RangeIter.hasNext, hce, rangeRun, ih]

/-- Below the first key of the end, the end is not looked at. -/
theorem quiet_suffix (en : List (UNode α)) (ec : Option Bytes) (r : List (UNode α)) (ms : List Bool) (hms : ∀ j : Nat, ms[j]? ≠ some true) :
    ∀ ps : List (List (UNode α)), ps.length + 1 ≤ en.length → ps.flatMap descendAll = [] ∨ ∃ n l ps1 ps0, ps = ps0 ++ (n :: l) :: ps1 ∧
      RangeIter.endLoop en ec (ps ++ [r]) ms = some (((n :: l) :: ps1) ++ [r], ms) ∧ ((n :: l) :: ps1).flatMap descendAll = ps.flatMap descendAll := by
  intro ps
  induction ps with
  | nil => simp
  | cons l ps ih =>
    intro hlen
    simp only [List.length_cons] at hlen
    obtain ⟨e, he⟩ : ∃ e, en[(ps ++ [r]).length]? = some e := ⟨_, List.getElem?_eq_getElem (by simp; omega)⟩
    rw [List.cons_append, RangeIter.endLoop, he]
    rcases l with - | ⟨n, l⟩
    · simp only [List.flatMap_cons, walkAll_nil, List.nil_append]
      rcases ih (by omega) with h | ⟨n, l, ps1, ps0, h1, h2, h3⟩
      · exact .inl h
      · exact .inr ⟨n, l, ps1, [] :: ps0, by rw [h1]; rfl, h2, h3⟩
    · right
      refine ⟨n, l, ps, [], rfl, ?_, rfl⟩
      simp only
      rw [if_pos ⟨by simp, hms _⟩]
      rfl

section
variable {root : UNode α} {en : List (UNode α)} {ec : Option Bytes} {r : List (UNode α)} {ms ms' : List Bool}

/-- `checkEnd` below the first key of the end. -/
theorem quiet_check (hms : ∀ j : Nat, ms[j]? ≠ some true) (hr : RangeIter.endLoop en ec [r] ms = some ([], ms')) (ps : List (List (UNode α)))
    (hlen : ps.length + 1 ≤ en.length) (hlev : Levels root (ps ++ [r])) :
    (ps.flatMap descendAll = [] ∧ RangeIter.checkEnd (⟨root, false, en, ec, ps ++ [r], ms⟩ : RangeIter α) = some ⟨root, false, en, ec, [], ms'⟩) ∨
    ∃ n l ps1, RangeIter.checkEnd (⟨root, false, en, ec, ps ++ [r], ms⟩ : RangeIter α) = some ⟨root, false, en, ec, ((n :: l) :: ps1) ++ [r], ms⟩ ∧
      ((n :: l) :: ps1).flatMap descendAll = ps.flatMap descendAll ∧ Levels root (((n :: l) :: ps1) ++ [r]) ∧ ps1.length + 2 ≤ en.length := by
  have hen : en.length ≠ 0 := by omega
  rcases quiet_suffix en ec r ms hms ps hlen with h | ⟨n, l, ps1, ps0, h1, h2, h3⟩
  · exact .inl ⟨h, by simp [RangeIter.checkEnd, hen, quiet_done en ec r ms ps hlen h, hr]⟩
  · refine .inr ⟨n, l, ps1, by simp [RangeIter.checkEnd, hen, h2], h3, ?_, ?_⟩
    · rw [h1, List.append_assoc] at hlev
      exact hlev.drop
    · rw [h1] at hlen
      simp at hlen
      omega

theorem push_append (n : UNode α) (l : List (UNode α)) (ps : List (List (UNode α))) (r : List (UNode α)) :
    KeyIter.push n (l :: (ps ++ [r])) = KeyIter.push n (l :: ps) ++ [r] := by
  unfold KeyIter.push
  split <;> rfl

theorem push_length (n : UNode α) (l : List (UNode α)) (ps : List (List (UNode α))) :
    (KeyIter.push n (l :: ps)).length = ps.length + 1 + if n.kids = [] then 0 else 1 := by
  unfold KeyIter.push
  by_cases h : n.kids = [] <;> simp [h]

theorem level_depth (hf : FullKeysArePaths root) {n : UNode α} {l : List (UNode α)} {ps : List (List (UNode α))} (h : Levels root (((n :: l) :: ps) ++ [r])) :
    n.full.length = ps.length + 2 := by
  obtain ⟨ks, h1, h2⟩ := h.1 n (by simp)
  rw [hf _ _ h1, h2]
  simp

/-- What an iterator does below the first key of the end, when it has not looked at the end. -/
theorem quiet_exact (hf : FullKeysArePaths root) (hms : ∀ j : Nat, ms[j]? ≠ some true) (hr : RangeIter.endLoop en ec [r] ms = some ([], ms'))
    (cs : List IterCall) : ∀ ps : List (List (UNode α)), ps.length + 1 ≤ en.length → Levels root (ps ++ [r]) →
      (∀ n ∈ ps.flatMap descendAll, n.kids ≠ [] → n.full.length < en.length) →
      RangeIter.run ⟨root, false, en, ec, ps ++ [r], ms⟩ cs = rangeRun ((ps.flatMap descendAll).map UNode.entry) cs := by
  induction cs with
  | nil => intro ps _ _ _; rcases (ps.flatMap descendAll).map UNode.entry with - | ⟨a, b⟩ <;> rfl
  | cons c cs ih =>
    intro ps hlen hlev hsh
    rcases quiet_check hms hr ps hlen hlev with ⟨h, hce⟩ | ⟨n, l, ps1, hce, h2, h3, h4⟩
    · rw [h]
      have he := ended_run root en ec ms' cs
      cases c <;>
        simp [RangeIter.run, RangeIter.call, RangeIter.next, RangeIter.nextBody, RangeIter.peek, RangeIter.peekBody, RangeIter.hasNext, hce, rangeRun, he]
    · rw [← h2] at hsh ⊢
      have hn : n ∈ ((n :: l) :: ps1).flatMap descendAll := by rw [List.flatMap_cons, walkAll_cons, walk_eq]; simp
      have hleft : ((n :: l) :: ps1).flatMap descendAll = n :: (KeyIter.push n (l :: ps1)).flatMap descendAll := by
        rw [push_walk, List.flatMap_cons, List.flatMap_cons, walkAll_cons, walk_eq]
        simp
      have hsame := ih ((n :: l) :: ps1) (by simpa using h4) h3 hsh
      cases c
      · have hl1 : (KeyIter.push n (l :: ps1)).length + 1 ≤ en.length := by
          rw [push_length]
          split
          · omega
          · rename_i hk
            have := hsh n hn hk
            rw [level_depth hf h3] at this
            omega
        have hlev' : Levels root (KeyIter.push n (l :: ps1) ++ [r]) := by
          rw [← push_append]
          exact h3.push
        have hsh' : ∀ m ∈ (KeyIter.push n (l :: ps1)).flatMap descendAll, m.kids ≠ [] → m.full.length < en.length :=
          fun m hm => hsh m (by rw [hleft]; exact List.mem_cons_of_mem _ hm)
        rw [hleft, List.map_cons, rangeRun, ← ih _ hl1 hlev' hsh']
        have hrun : ∀ b : RangeIter α, RangeIter.checkEnd ⟨root, false, en, ec, KeyIter.push n (l :: ps1) ++ [r], ms⟩ = some b →
            RangeIter.run (⟨root, false, en, ec, ps ++ [r], ms⟩ : RangeIter α) (.next :: cs) = .yield n.entry :: b.run cs := by
          intro b hb
          simp only [RangeIter.run, RangeIter.call, RangeIter.next, hce, RangeIter.nextBody, Bool.false_eq_true, if_false, List.cons_append, push_append,
            RangeIter.finish, hb]
        rcases quiet_check hms hr _ hl1 hlev' with ⟨g, hce'⟩ | ⟨n', l', ps2, hce', g2, g3, g4⟩
        · rw [hrun _ hce', ended_run, ih _ hl1 hlev' hsh', g]
          rfl
        · rw [hrun _ hce', ih _ hl1 hlev' hsh', ih _ (by simpa using g4) g3 (by rw [g2]; exact hsh'), g2]
      · rw [hleft] at hsame ⊢
        simp only [RangeIter.run, RangeIter.call, RangeIter.hasNext, hce, List.map_cons, rangeRun, hsame]
        simp
      · rw [hleft, List.cons_append] at hsame
        rw [hleft]
        simp only [RangeIter.run, RangeIter.call, RangeIter.peek, hce, RangeIter.peekBody, Bool.false_eq_true, if_false, List.cons_append, List.map_cons,
          rangeRun, hsame]

/-- An iterator that comes to an end has no node too deep below the first key of the end. -/
theorem quiet_shallow (hf : FullKeysArePaths root) (hms : ∀ j : Nat, ms[j]? ≠ some true) (hr : RangeIter.endLoop en ec [r] ms = some ([], ms'))
    (k : Nat) : ∀ ps : List (List (UNode α)), ps.length + 1 ≤ en.length → Levels root (ps ++ [r]) →
      WalkRes.nil ∈ RangeIter.run ⟨root, false, en, ec, ps ++ [r], ms⟩ (List.replicate k .next) →
      ∀ n ∈ ps.flatMap descendAll, n.kids ≠ [] → n.full.length < en.length := by
  induction k with
  | zero => intro ps _ _ h; simp [RangeIter.run] at h
  | succ k ih =>
    intro ps hlen hlev hnil
    rw [List.replicate_succ] at hnil
    rcases quiet_check hms hr ps hlen hlev with ⟨h, hce⟩ | ⟨n, l, ps1, hce, h2, h3, h4⟩
    · rw [h]
      simp
    · rw [← h2]
      have hleft : ((n :: l) :: ps1).flatMap descendAll = n :: (KeyIter.push n (l :: ps1)).flatMap descendAll := by
        rw [push_walk, List.flatMap_cons, List.flatMap_cons, walkAll_cons, walk_eq]
        simp
      have hrun : ∀ b : RangeIter α, RangeIter.checkEnd ⟨root, false, en, ec, KeyIter.push n (l :: ps1) ++ [r], ms⟩ = some b →
          RangeIter.run (⟨root, false, en, ec, ps ++ [r], ms⟩ : RangeIter α) (.next :: List.replicate k .next) =
            .yield n.entry :: b.run (List.replicate k .next) := by
        intro b hb
        simp only [RangeIter.run, RangeIter.call, RangeIter.next, hce, RangeIter.nextBody, Bool.false_eq_true, if_false, List.cons_append, push_append,
          RangeIter.finish, hb]
      have hlev' : Levels root (KeyIter.push n (l :: ps1) ++ [r]) := by
        rw [← push_append]
        exact h3.push
      by_cases hl1 : (KeyIter.push n (l :: ps1)).length + 1 ≤ en.length
      · have hn : n.kids ≠ [] → n.full.length < en.length := by
          intro hk
          rw [push_length, if_neg hk] at hl1
          rw [level_depth hf h3]
          omega
        have hrest : ∀ m ∈ (KeyIter.push n (l :: ps1)).flatMap descendAll, m.kids ≠ [] → m.full.length < en.length := by
          rcases quiet_check hms hr _ hl1 hlev' with ⟨g, hce'⟩ | ⟨n', l', ps2, hce', g2, g3, g4⟩
          · rw [g]
            simp
          · rw [hrun _ hce'] at hnil
            rw [← g2]
            exact ih _ (by simpa using g4) g3 (by simpa using hnil)
        intro m hm
        rw [hleft] at hm
        rcases List.mem_cons.mp hm with rfl | hm
        · exact hn
        · exact hrest m hm
      · exfalso
        have hb : RangeIter.checkEnd (⟨root, false, en, ec, KeyIter.push n (l :: ps1) ++ [r], ms⟩ : RangeIter α) =
            some ⟨root, false, en, ec, KeyIter.push n (l :: ps1) ++ [r], ms⟩ :=
          baseCheckEnd_skip _ (.inr (.inr (.inr (by simp; omega))))
        rw [hrun _ hb] at hnil
        exact (never_ends root en ec ms _ (KeyIter.push n (l :: ps1) ++ [r]) (by simp; omega)).1 (by simpa using hnil)

end

/-! ### What is visited from a given state on -/

/-- The first of the iterators, and the nodes in the others. -/
theorem Stack.bottom_head {root : UNode α} (hf : FullKeysArePaths root) {ps : List (List (UNode α))} {q : List Bytes} (h : Stack root ps q) :
    ∀ a q', q = a :: q' → ∃ ps0 r, ps = ps0 ++ [r] ∧ (∀ m ∈ r, m ∈ root.kids ∧ compare a m.nodeKey = .lt) ∧
      ∀ m ∈ ps0.flatMap descendAll, m.full.head? = some a := by
  induction h with
  | base => intro a q' h; cases h
  | up l l' ps q k n h1 h2 h3 h4 ih =>
    intro a q' hq
    have hl : ∀ m ∈ descendAll l, m.full.head? = some a := by
      intro m hm
      obtain ⟨c, hc, ks, hks⟩ := mem_walk_aux.2 l hm
      rw [hf _ _ (at_append h3 (.child n c m ks (h4.subset hc) hks)), hq]
      rfl
    rcases q with - | ⟨b, q⟩
    · obtain ⟨rfl, -⟩ : k = a ∧ [] = q' := by simpa using hq
      have hlen := h1.length
      have hps : ps = [] := by simpa using hlen
      subst hps
      refine ⟨[l], l', rfl, fun m hm => ⟨?_, h2 m hm⟩, by simpa using hl⟩
      obtain ⟨r, hr1, hr2⟩ := h1.top
      cases hr1
      exact hr2.subset hm
    · obtain ⟨rfl, -⟩ : b = a ∧ _ := by simpa using hq
      obtain ⟨ps0, r, e1, e2, e3⟩ := ih b q rfl
      refine ⟨l :: ps0, r, by rw [e1]; rfl, e2, fun m hm => ?_⟩
      rw [List.flatMap_cons, List.mem_append] at hm
      exact hm.elim (hl m) (e3 m)

/-- A node with the given full key is visited from a state on in which the iterator is at `q` and has not looked at the end. -/
def Visits (p q : List Bytes) (ec : Option Bytes) (ks : List Bytes) : Prop := if q.head? = p.head? then ks.head? = p.head? else UpTo p ec ks

instance (p q : List Bytes) (ec : Option Bytes) (ks : List Bytes) : Decidable (Visits p q ec ks) := by unfold Visits; infer_instance

/-- The nodes among the given ones that an iterator visits from a state on in which it has not looked at the end. -/
def visited (p q : List Bytes) (ec : Option Bytes) (l : List (UNode α)) : List (UNode α) := l.filter fun n => Visits p q ec n.full

theorem visited_run {root e : UNode α} (hf : FullKeysArePaths root) (ho : SiblingsOrdered root) {p q : List Bytes} (hne : p ≠ []) (he : At root p e)
    (ec : Option Bytes) {l : List (UNode α)} {ps : List (List (UNode α))} (hst : Stack root (l :: ps) q) (hlen : q.length + 1 ≤ p.length)
    (hhead : ∀ a ∈ q.head?, ∀ b ∈ p.head?, compare a b ≠ .gt) :
    let i : RangeIter α := ⟨root, false, (RangeIter.endPath root p).1, ec, l :: ps, (RangeIter.endPath root p).1.map fun _ => false⟩
    let V := visited p q ec ((l :: ps).flatMap descendAll)
    ((∃ k, WalkRes.nil ∈ i.run (List.replicate k .next)) → ∀ n ∈ V, n.kids ≠ [] → n.full.length < p.length) ∧
    ((∀ n ∈ V, n.kids ≠ [] → n.full.length < p.length) → ∀ cs, i.run cs = rangeRun (V.map UNode.entry) cs) := by
  obtain ⟨-, e2, e3⟩ := endPath_at ho he
  obtain ⟨en, hen⟩ : ∃ en, en = (RangeIter.endPath root p).1 := ⟨_, rfl⟩
  rw [← hen] at e2 e3 ⊢
  intro i V
  have hms : ∀ j : Nat, (en.map fun _ => false)[j]? ≠ some true := by
    intro j
    rw [List.getElem?_map]
    simp
  have hsl := hst.length
  by_cases hq : q.head? = p.head?
  · rcases q with - | ⟨a, q⟩
    · rcases p with - | ⟨b, p⟩
      · exact absurd rfl hne
      · cases hq
    obtain ⟨ps0, r, h1, h2, h3⟩ := hst.bottom_head hf a q rfl
    have hV : V = ps0.flatMap descendAll := by
      show visited _ _ _ _ = _
      rw [visited, h1, List.flatMap_append, List.filter_append]
      have g1 : ((ps0.flatMap descendAll).filter fun n => Visits p (a :: q) ec n.full) =
          ps0.flatMap descendAll := by
        rw [List.filter_eq_self]
        intro m hm
        rw [decide_eq_true_eq, Visits, if_pos hq, h3 m hm]
        exact hq
      have g2 : (([r].flatMap descendAll).filter fun n => Visits p (a :: q) ec n.full) = [] := by
        rw [List.filter_eq_nil_iff]
        intro m hm
        rw [List.flatMap_cons, List.flatMap_nil, List.append_nil] at hm
        obtain ⟨c, hc, ks, hks⟩ := mem_walk_aux.2 r hm
        have hfull := hf _ _ (.child root c m ks (h2 c hc).1 hks)
        rw [decide_eq_true_eq, Visits, if_pos hq, hfull, ← hq]
        intro h
        obtain rfl : c.nodeKey = a := by simpa using h
        have := (h2 c hc).2
        rw [Std.ReflOrd.compare_self] at this
        cases this
      rw [g1, g2, List.append_nil]
    have hr : ∃ ms', RangeIter.endLoop en ec [r] (en.map fun _ => false) = some ([], ms') := by
      obtain ⟨e0, he0⟩ : ∃ e0, en[0]? = some e0 := ⟨_, List.getElem?_eq_getElem (by omega)⟩
      rw [RangeIter.endLoop]
      simp only [List.length_nil, he0]
      rcases r with - | ⟨m, r⟩
      · exact ⟨_, by rw [RangeIter.endLoop]⟩
      · obtain ⟨a1, a2⟩ := e3 0 e0 he0
        have ha : e0.nodeKey = a := by
          rw [← List.head?_eq_getElem?, ← hq] at a2
          simpa using a2.symm
        have hat : At root ([] ++ [a]) e0 := by
          have : p.take 1 = [a] := by
            rcases p with - | ⟨b, p⟩
            · exact absurd rfl hne
            · simpa using hq.symm
          rw [List.nil_append, ← this]
          exact a1
        have hcmp := sibling_cmp ho (.here root) (h2 m (by simp)).1 hat
        rw [Std.OrientedCmp.gt_of_lt (h2 m (by simp)).2] at hcmp
        refine ⟨(en.map fun _ => false).set 0 true, ?_⟩
        simp only [ha, hcmp]
        simp [ordInt, RangeIter.endLoop]
    obtain ⟨ms', hr⟩ := hr
    have hlev := hst.levels
    have hi : i = ⟨root, false, en, ec, ps0 ++ [r], en.map fun _ => false⟩ := by rw [← h1]
    have hl0 : ps0.length + 1 ≤ en.length := by
      have : (ps0 ++ [r]).length = (l :: ps).length := by rw [h1]
      simp only [List.length_append, List.length_cons, List.length_nil] at this hsl hlen
      omega
    rw [h1] at hlev
    rw [hV, hi, ← e2]
    exact ⟨fun ⟨k, hk⟩ => quiet_shallow hf hms hr k ps0 hl0 hlev hk, fun h cs => quiet_exact hf hms hr cs ps0 hl0 hlev h⟩
  · have hV : V = beforeEnd p ec ((l :: ps).flatMap descendAll) := by
      show visited _ _ _ _ = _
      simp only [visited, Visits, hq, if_false, beforeEnd]
    have hready : RangeReady root p (l :: ps) (en.map fun _ => false) := by
      refine ⟨by simpa using e2, .inr ⟨l, ps, q, rfl, hst, by omega, ?_⟩⟩
      rcases q with - | ⟨a, q⟩
      · exact ⟨.inl List.nil_prefix, by simp, fun j _ h => absurd h (hms j)⟩
      · rcases p with - | ⟨b, p⟩
        · exact absurd rfl hne
        have hab : a ≠ b := by simpa using hq
        have hlt : compare a b = .lt := by
          have := hhead a rfl b rfl
          rcases hc : compare a b
          · rfl
          · exact absurd (Std.LawfulEqOrd.eq_of_compare hc) hab
          · exact absurd hc this
        refine ⟨.inr fun z => ?_, ?_, fun j _ h => absurd h (hms j)⟩
        · rw [List.cons_append, cmp_cons, hlt]
          rfl
        · intro i _
          refine ⟨fun h => absurd h (hms i), fun h => ?_⟩
          rw [List.take_succ_cons, List.cons_prefix_cons] at h
          exact absurd h.1 hab
    rw [hV]
    exact ⟨fun ⟨k, hk⟩ => shallow_of_end hf ho hne e2 e3 k _ _ hready (by omega) hk,
      fun h cs => run_ready hf ho hne e2 e3 cs _ _ hready h⟩

theorem lt_of_prefix_end {p ks re : List Bytes} (h : compare ks p = .lt) : compare ks (p ++ re) = .lt :=
  Std.TransCmp.lt_of_lt_of_isLE h (by
    have := cmp_prefix p re
    rcases hc : compare p (p ++ re)
    · rfl
    · rfl
    · exact absurd (Std.OrientedCmp.lt_of_gt hc) this)

/-- The node among the nodes left, as deep as the end, that is above a deeper one. -/
theorem left_above {root n : UNode α} (hf : FullKeysArePaths root) {ps : List (List (UNode α))} (h : Levels root ps) (hn : n ∈ ps.flatMap descendAll)
    (d : Nat) (hd : ps.length ≤ d) (hlen : d < n.full.length) : ∃ m ∈ ps.flatMap descendAll, m.kids ≠ [] ∧ m.full.length = d ∧ ∃ z, n.full = m.full ++ z := by
  obtain ⟨c, x, y, h1, h2, h3, h4⟩ := h.ancestor hn d hd
  have hfull := hf _ _ (at_append h1 h3)
  rw [hfull, List.length_append] at hlen
  rw [← List.take_append_drop (d - x.length) y] at h3
  obtain ⟨m, a1, a2⟩ := at_prefix h3
  have hm := hf _ _ (at_append h1 a1)
  refine ⟨m, h4 m _ a1, ?_, ?_, y.drop (d - x.length), ?_⟩
  · generalize hd : y.drop (d - x.length) = t at a2
    cases a2 with
    | here =>
      have := List.drop_eq_nil_iff.mp hd
      omega
    | child _ c _ _ hc _ => exact List.ne_nil_of_mem hc
  · rw [hm, List.length_append, List.length_take]
    omega
  · rw [hfull, hm, List.append_assoc, List.take_append_drop]

theorem visited_iff {root e : UNode α} (hf : FullKeysArePaths root) (ho : SiblingsOrdered root) {stop p re q : List Bytes} (hne : p ≠ [])
    (he : At root p e) (hsp : stop = p ++ re) {ec : Option Bytes} (hec : ec.isSome ↔ re ≠ []) {l : List (UNode α)} {ps : List (List (UNode α))}
    (hst : Stack root (l :: ps) q) (hlen : q.length + 1 ≤ p.length) (hhead : ∀ a ∈ q.head?, ∀ b ∈ p.head?, compare a b ≠ .gt)
    (heR : re ≠ [] → e ∈ (l :: ps).flatMap descendAll) (hqR : ∀ n ∈ (l :: ps).flatMap descendAll, ∀ a ∈ q.head?, ∃ b ∈ n.full.head?, compare b a ≠ .lt) :
    let i : RangeIter α := ⟨root, false, (RangeIter.endPath root p).1, ec, l :: ps, (RangeIter.endPath root p).1.map fun _ => false⟩
    let R := (l :: ps).flatMap descendAll
    (∀ cs, i.run cs = rangeRun ((R.filter fun n => compare n.full stop = .lt).map UNode.entry) cs) ↔
      (re ≠ [] → e.kids = []) ∧ (∀ n ∈ R, compare n.full stop = .lt → n.full.length ≤ p.length) ∧
      (q.head? ≠ p.head? ∨ ∀ n ∈ R, n.full.head? = q.head? → compare n.full stop = .lt) := by
  intro i R
  obtain ⟨g1, g2⟩ := visited_run hf ho hne he ec hst hlen hhead
  have hlev := hst.levels
  have hsl : (l :: ps).length ≤ p.length := by rw [hst.length]; exact hlen
  have hefull := hf _ _ he
  obtain ⟨V, hV⟩ : ∃ V, V = visited p q ec R := ⟨_, rfl⟩
  have hmemV : ∀ n, n ∈ V ↔ n ∈ R ∧ Visits p q ec n.full := by
    intro n
    rw [hV, visited, List.mem_filter, decide_eq_true_eq]
  have hmain : (∀ cs, i.run cs = rangeRun ((R.filter fun n => compare n.full stop = .lt).map UNode.entry) cs) ↔
      (∀ n ∈ V, n.kids ≠ [] → n.full.length < p.length) ∧ ∀ n ∈ R, n ∈ V ↔ compare n.full stop = .lt := by
    constructor
    · intro h
      have hnil := rangeRun_nexts ((R.filter fun n => compare n.full stop = .lt).map UNode.entry)
      rw [← h] at hnil
      have hsh : ∀ n ∈ V, n.kids ≠ [] → n.full.length < p.length := by
        rw [hV]
        exact g1 ⟨_, hnil⟩
      have heq : V.map UNode.entry = (R.filter fun n => compare n.full stop = .lt).map UNode.entry := by
        refine rangeRun_inj _ _ fun cs => ?_
        rw [← h, hV]
        rw [hV] at hsh
        exact (g2 hsh cs).symm
      refine ⟨hsh, fun n hn => ⟨fun hv => ?_, fun hlt => ?_⟩⟩
      · have : n.entry ∈ V.map UNode.entry := List.mem_map_of_mem hv
        rw [heq] at this
        obtain ⟨m, m1, m2⟩ := List.mem_map.mp this
        have m3 : m.full = n.full := congrArg Prod.fst m2
        rw [← m3]
        simpa using (List.mem_filter.mp m1).2
      · have : n.entry ∈ (R.filter fun n => compare n.full stop = .lt).map UNode.entry :=
          List.mem_map_of_mem (List.mem_filter.mpr ⟨hn, by simpa using hlt⟩)
        rw [← heq] at this
        obtain ⟨m, m1, m2⟩ := List.mem_map.mp this
        have m3 : m.full = n.full := congrArg Prod.fst m2
        rw [hmemV] at m1 ⊢
        rw [← m3]
        exact ⟨hn, m1.2⟩
    · rintro ⟨h1, h2⟩ cs
      have : (R.filter fun n => compare n.full stop = .lt) = V := by
        rw [hV, visited]
        refine List.filter_congr fun n hn => ?_
        rw [decide_eq_decide, ← h2 n hn, hmemV]
        exact ⟨fun h => h.2, fun h => ⟨hn, h⟩⟩
      rw [this]
      rw [hV] at h1 ⊢
      exact g2 h1 cs
  rw [hmain]
  have hps : ∀ t, compare p (p ++ t) ≠ .lt → t = [] := by
    intro t ht
    by_contra hc
    exact ht (prefix_lt _ _ (List.prefix_append _ _) (by simpa using List.length_pos_iff.mpr hc))
  by_cases hq : q.head? = p.head?
  · simp only [Visits, hq, if_true] at hmemV
    simp only [hq, ne_eq, not_true, false_or]
    constructor
    · rintro ⟨hsh, hiff⟩
      have hmem : ∀ n ∈ R, n.full.head? = p.head? → compare n.full stop = .lt := fun n hn hh => (hiff n hn).mp ((hmemV n).mpr ⟨hn, hh⟩)
      refine ⟨fun hre => ?_, fun n hn hlt => ?_, hmem⟩
      · by_contra hk
        have := hsh e ((hmemV e).mpr ⟨heR hre, by rw [hefull]⟩) hk
        rw [hefull] at this
        omega
      · by_contra hc
        obtain ⟨m, m1, m2, m3, z, m4⟩ := left_above hf hlev hn _ hsl (by omega)
        have hnv := ((hmemV n).mp ((hiff n hn).mpr hlt)).2
        have hmp : m.full ≠ [] := by
          intro h
          rw [h] at m3
          exact hne (List.length_eq_zero_iff.mp m3.symm)
        have hmh : m.full.head? = p.head? := by
          rw [← hnv, m4, List.head?_append]
          rcases hm : m.full with - | ⟨x, y⟩
          · exact absurd hm hmp
          · rfl
        have := hsh m ((hmemV m).mpr ⟨m1, hmh⟩) m2
        omega
    · rintro ⟨h1, h2, h3⟩
      refine ⟨fun n hn hk => ?_, fun n hn => ⟨fun h => ?_, fun h => (hmemV n).mpr ⟨hn, ?_⟩⟩⟩
      · obtain ⟨n1, n2⟩ := (hmemV n).mp hn
        obtain ⟨c, hc⟩ := List.exists_mem_of_ne_nil _ hk
        obtain ⟨ks, hks⟩ := mem_left_at hlev n1
        have hcf : c.full = n.full ++ [c.nodeKey] := by
          rw [hf _ _ (at_append hks (.child n c c [] hc (.here c))), hf _ _ hks]
        have hcR := mem_left_child hlev n1 hc
        have hch : c.full.head? = p.head? := by
          rw [hcf, List.head?_append, n2]
          rcases p with - | ⟨x, y⟩
          · exact absurd rfl hne
          · rfl
        have := h2 c hcR (h3 c hcR hch)
        rw [hcf] at this
        simp at this
        omega
      · exact h3 n hn ((hmemV n).mp h).2
      · rcases p with - | ⟨x, y⟩
        · exact absurd rfl hne
        obtain ⟨b, b1, b2⟩ := hqR n hn x (by rw [hq]; rfl)
        rcases hnf : n.full with - | ⟨b', t⟩
        · rw [hnf] at b1
          cases b1
        rw [hnf] at b1 h
        obtain rfl : b' = b := by simpa using b1
        rw [hsp, List.cons_append, cmp_cons] at h
        rcases hc : compare b' x
        · exact absurd hc b2
        · rw [Std.LawfulEqOrd.eq_of_compare hc]
          rfl
        · rw [hc] at h
          cases h
  · simp only [Visits, hq, if_false] at hmemV
    simp only [hq, ne_eq, not_false_eq_true, true_or, and_true]
    constructor
    · rintro ⟨hsh, hiff⟩
      refine ⟨fun hre => ?_, fun n hn hlt => ?_⟩
      · by_contra hk
        have := hsh e ((hmemV e).mpr ⟨heR hre, .inr ⟨hec.mpr hre, hefull⟩⟩) hk
        rw [hefull] at this
        omega
      · by_contra hc
        obtain ⟨m, m1, m2, m3, z, m4⟩ := left_above hf hlev hn _ hsl (by omega)
        have hnv := ((hmemV n).mp ((hiff n hn).mpr hlt)).2
        have hnp : compare n.full p = .lt := by
          rcases hnv with h | ⟨-, h⟩
          · exact h
          · rw [h] at hc
            exact absurd le_rfl hc
        have hmp : compare m.full p = .lt := by
          by_contra h
          rw [m4] at hnp
          exact not_below_append h z hnp
        have := hsh m ((hmemV m).mpr ⟨m1, .inl hmp⟩) m2
        omega
    · rintro ⟨h1, h2⟩
      refine ⟨fun n hn hk => ?_, fun n hn => ⟨fun h => ?_, fun h => (hmemV n).mpr ⟨hn, ?_⟩⟩⟩
      · obtain ⟨n1, n2⟩ := (hmemV n).mp hn
        obtain ⟨ks, hks⟩ := mem_left_at hlev n1
        rcases n2 with n2 | ⟨n2, n3⟩
        · refine lt_of_le_of_ne (h2 n n1 (by rw [hsp]; exact lt_of_prefix_end n2)) fun hl => ?_
          obtain ⟨c, c1, c2, c3⟩ := push_deep hf hks n2 hl hk
          have := h2 c (mem_left_child hlev n1 c1) (by rw [hsp]; exact lt_of_prefix_end c2)
          omega
        · have := hf _ _ hks
          rw [n3] at this
          subst this
          exact absurd (at_unique ho hks he ▸ h1 (hec.mp n2)) hk
      · rcases ((hmemV n).mp h).2 with h | ⟨h, h'⟩
        · rw [hsp]
          exact lt_of_prefix_end h
        · rw [h', hsp]
          by_contra hc
          exact hec.mp h (hps _ hc)
      · obtain ⟨ks, hks⟩ := mem_left_at hlev hn
        have hfull := hf _ _ hks
        rw [hfull, hsp] at h
        rw [hfull]
        by_cases hpk : p <+: ks
        · obtain ⟨t, rfl⟩ := hpk
          have hre : re ≠ [] := by
            rintro rfl
            rw [List.append_nil] at h
            exact cmp_prefix p t h
          obtain ⟨m, a1, a2⟩ := at_prefix hks
          obtain rfl := at_unique ho a1 he
          cases a2 with
          | here => exact .inr ⟨hec.mpr hre, by simp⟩
          | child _ c _ _ hc _ => rw [h1 hre] at hc; cases hc
        · rw [cmp_missing hpk] at h
          exact .inl h

/-! ### The way to any start -/

theorem reach_path {root n : UNode α} (ho : SiblingsOrdered root) {ks q rest : List Bytes} (h : Reaches root ks q rest n) :
    RangeIter.endPath root ks = ((RangeIter.endPath root q).1, rest.head?) := by
  rcases rest with - | ⟨k, rest⟩
  · have := h.split
    rw [List.append_nil] at this
    rw [this]
    exact Prod.ext rfl (endPath_at ho h.found).1
  · rw [h.split]
    obtain ⟨h1, h2⟩ := endPath_missing ho h.found (k := k) rest (by
      rintro ⟨c, hc⟩
      obtain ⟨m, hm, h3, h4⟩ := at_last (ks := []) hc
      cases hm
      exact h.missing k rfl c h3 h4)
    exact Prod.ext h1 h2

/-- The iterator that has not been asked yet, when the end is looked at. -/
theorem pending_run (i : StartIter α) (h1 : i.initialized = true) (h2 : i.base.isRoot = false) (h3 : i.base.endNodes.length ≠ 0)
    (h4 : i.base.paths.length ≠ 0) (h5 : i.base.paths.length ≤ i.base.endNodes.length) (cs : List IterCall) :
    (i.touch = none → i.run cs = if cs = [] then [] else [.crash]) ∧ ∀ i', i.touch = some i' → i.run cs = i'.base.run cs := by
  have hce : ∀ i : StartIter α, i.base.isRoot = false → i.base.endNodes.length ≠ 0 → i.base.paths.length ≠ 0 →
      i.base.paths.length ≤ i.base.endNodes.length → i.checkEnd = match i.touch with
        | none => none
        | some i => match i.base.checkEnd with
          | none => none
          | some b => some { i with base := b } := by
    intro i h2 h3 h4 h5
    unfold StartIter.checkEnd
    rw [if_neg (by simp [h2, h3, h4]; omega)]
    rfl
  have hcs : ∀ i : StartIter α, i.initialized = true → i.checks = i.checkEnd := by
    intro i h1
    simp [StartIter.checks, StartIter.checkStart, h1]
  constructor
  · intro ht
    rcases cs with - | ⟨c, cs⟩
    · rfl
    · simp [StartIter.run, StartIter.call, hcs i h1, hce i h2 h3 h4 h5, ht]
  · intro i' ht
    obtain ⟨b, sn, sc, ini, pd⟩ := i
    simp only at h1 h2 h3 h4 h5
    subst h1
    have hi' : ∃ ps, i' = ⟨{ b with paths := ps }, sn, sc, true, none⟩ ∧ ps.length = b.paths.length := by
      unfold StartIter.touch at ht
      simp only at ht
      split at ht
      · rename_i s n l1 ps1 hp
        split at ht
        · exact ⟨_, (Option.some.inj ht).symm, by rw [hp]; rfl⟩
        · cases ht
      · exact ⟨b.paths, (Option.some.inj ht).symm, rfl⟩
    obtain ⟨ps, rfl, hl⟩ := hi'
    rw [← base_run cs _ rfl (.inl rfl) (.inr h2)]
    rcases cs with - | ⟨c, cs⟩
    · rfl
    · have hchecks : StartIter.checks (⟨b, sn, sc, true, pd⟩ : StartIter α) = StartIter.checks ⟨{ b with paths := ps }, sn, sc, true, none⟩ := by
        rw [hcs _ rfl, hcs _ rfl, hce _ h2 h3 h4 h5, hce _ h2 h3 (by simpa [hl] using h4) (by simpa [hl] using h5), ht]
        rfl
      have hcall : StartIter.call (⟨b, sn, sc, true, pd⟩ : StartIter α) c = StartIter.call ⟨{ b with paths := ps }, sn, sc, true, none⟩ c ∨
          (StartIter.call (⟨b, sn, sc, true, pd⟩ : StartIter α) c).2 = .crash ∧
          (StartIter.call (⟨{ b with paths := ps }, sn, sc, true, none⟩ : StartIter α) c).2 = .crash := by
        unfold StartIter.call
        rw [hchecks]
        rcases StartIter.checks (⟨{ b with paths := ps }, sn, sc, true, none⟩ : StartIter α) with - | j
        · exact .inr ⟨rfl, rfl⟩
        · exact .inl rfl
      rw [StartIter.run, StartIter.run]
      rcases hcall with h | ⟨h, h'⟩
      · rw [h]
      · rw [h, h']

/-- An iterator with more iterators than the end has keys never ends. -/
theorem pending_never (i : StartIter α) (h1 : i.initialized = true) (h2 : i.base.isRoot = false)
    (h5 : i.base.endNodes.length < i.base.paths.length) (k : Nat) : WalkRes.nil ∉ i.run (List.replicate k .next) := by
  rcases k with - | k
  · simp [StartIter.run]
  obtain ⟨b, sn, sc, ini, pd⟩ := i
  simp only at h1 h2 h5
  subst h1
  have hchecks : ∀ (b : RangeIter α) pd, b.endNodes.length < b.paths.length →
      StartIter.checks (⟨b, sn, sc, true, pd⟩ : StartIter α) = some ⟨b, sn, sc, true, pd⟩ := by
    intro b pd h
    simp [StartIter.checks, StartIter.checkStart, StartIter.checkEnd, h]
  have hask : ∀ (b : RangeIter α) pd, b.isRoot = false → StartIter.ask (⟨b, sn, sc, true, pd⟩ : StartIter α) = StartIter.touch ⟨b, sn, sc, true, pd⟩ := by
    intro b pd h
    simp [StartIter.ask, h]
  rcases ht : StartIter.touch (⟨b, sn, sc, true, pd⟩ : StartIter α) with - | i'
  · simp [List.replicate_succ, StartIter.run, StartIter.call, hchecks _ _ h5, hask _ _ h2, ht]
  · have hi' : ∃ ps, i' = ⟨{ b with paths := ps }, sn, sc, true, none⟩ ∧ ps.length = b.paths.length := by
      unfold StartIter.touch at ht
      simp only at ht
      split at ht
      · rename_i s n l1 ps1 hp
        split at ht
        · exact ⟨_, (Option.some.inj ht).symm, by rw [hp]; rfl⟩
        · cases ht
      · exact ⟨b.paths, (Option.some.inj ht).symm, rfl⟩
    obtain ⟨ps, rfl, hl⟩ := hi'
    have hrun : StartIter.run (⟨b, sn, sc, true, pd⟩ : StartIter α) (List.replicate (k + 1) .next) =
        StartIter.run ⟨{ b with paths := ps }, sn, sc, true, none⟩ (List.replicate (k + 1) .next) := by
      rw [List.replicate_succ, StartIter.run, StartIter.run]
      have : StartIter.call (⟨b, sn, sc, true, pd⟩ : StartIter α) .next = StartIter.call ⟨{ b with paths := ps }, sn, sc, true, none⟩ .next := by
        have ht' : StartIter.touch (⟨{ b with paths := ps }, sn, sc, true, none⟩ : StartIter α) = some ⟨{ b with paths := ps }, sn, sc, true, none⟩ := rfl
        simp only [StartIter.call, hchecks _ _ h5, hchecks { b with paths := ps } _ (by simpa [hl] using h5), hask _ _ h2,
          hask { b with paths := ps } _ h2, ht, ht']
      rw [this]
    rw [hrun, base_run _ _ rfl (.inl rfl) (.inr h2)]
    obtain ⟨root, isRoot, en, ec, _, ms⟩ := b
    simp only at h2 h5 hl
    subst h2
    exact (never_ends root en ec ms _ ps (by omega)).1

theorem Stack.skip {root : UNode α} {l : List (UNode α)} {ps : List (List (UNode α))} {q : List Bytes} (h : Stack root (l :: ps) q) :
    Stack root ([] :: ps) q := by
  cases h with
  | base _ _ => exact .base _ List.nil_suffix
  | up _ l' ps q k n h1 h2 h3 h4 => exact .up _ _ _ _ _ n h1 h2 h3 List.nil_suffix

/-- `checkStart` for a start that is not in the trie. -/
theorem checkStart_missing {root s : UNode α} (ho : SiblingsOrdered root) (hf : FullKeysArePaths root) (hk : root.kids ≠ []) {q : List Bytes}
    (hs : At root q s) (k : Bytes) (en : List (UNode α)) (ec : Option Bytes) (ms : List Bool) (i : StartIter α)
    (hi : i = ⟨⟨root, true, en, ec, [], ms⟩, (RangeIter.endPath root q).1, some k, false, none⟩) :
    (¬ Leftmost root none q → i.checkStart = none) ∧
    (Leftmost root none q → ∃ ps anc, i.checkStart = some ⟨⟨root, false, en, ec, s.kids :: ps, ms⟩, (RangeIter.endPath root q).1, some k, true, some k⟩ ∧
      Stack root (s.kids :: ps) q ∧ descend root = anc ++ (descend s ++ ps.flatMap descendAll) ∧ ∀ m ∈ anc, m.full <+: q ∧ m.full.length < q.length) := by
  have hk' : root.kids.length ≠ 0 := by simpa using hk
  rcases q with - | ⟨a, q⟩
  · obtain rfl : root = s := at_unique ho (.here root) hs
    refine ⟨fun h => absurd trivial h, fun _ => ⟨[], [], ?_, .base _ (List.suffix_refl _), by simp, by simp⟩⟩
    rw [hi]
    simp [StartIter.checkStart, RangeIter.endPath, hk']
  · obtain ⟨h1, h2⟩ := checkStart_at hs ho (by simp) en ec (some k) ms i hi
    refine ⟨h1, fun h => ?_⟩
    obtain ⟨q0, k0, P, ps', ps'', anc, e1, e2, e3, e4, e5, e6, e7, e8⟩ := h2 h
    subst e8
    rcases hP : P.kids with - | ⟨f, l⟩
    · rw [hP] at e3
      cases e3
    obtain rfl : f = s := by
      rw [hP] at e3
      simpa using e3
    have hfk : f.nodeKey = k0 := by
      have h5 := hf _ _ (at_append e2 (.child P f f [] (by rw [hP]; simp) (.here f)))
      rw [hf _ _ hs, e1] at h5
      simpa using h5.symm
    rw [hP] at e5 e7
    refine ⟨_, root :: anc, e4, ?_, ?_, ?_⟩
    · rw [e1] at hs ⊢
      refine .up _ _ _ _ _ f ?_ ?_ hs (List.suffix_refl _)
      · rw [hP]
        exact e7.tail
      · intro m hm
        have := ho _ _ e2
        rw [hP, List.pairwise_cons] at this
        rw [hP] at hm
        rw [← hfk]
        exact (this.1 m hm).1
    · rw [walk_eq, e5, List.flatMap_cons, walkAll_cons, hP]
      simp
    · intro m hm
      rcases List.mem_cons.mp hm with rfl | hm
      · rw [hf [] m (.here _)]
        simp
      · obtain ⟨j, j1, j2, j3⟩ := e6 m hm
        rw [hf _ _ j1]
        exact ⟨j2, j3⟩

theorem prefix_not_above {a b : Bytes} (h : a <+: b) : compare b a ≠ .lt := by
  obtain ⟨t, rfl⟩ := h
  induction a with
  | nil => cases t <;> simp [compare, List.compareLex_nil_nil, List.compareLex_cons_nil]
  | cons x a ih =>
    rw [List.cons_append]
    simpa [compare, List.compareLex_cons_cons, compareOfLessAndEq] using ih

/-- The nodes of the trie from the start on and before the end. -/
def between (root : UNode α) (start stop : List Bytes) : List (UNode α) :=
  (descend root).filter fun n => compare n.full start ≠ .lt ∧ compare n.full stop = .lt

theorem mem_between {root n : UNode α} {start stop : List Bytes} :
    n ∈ between root start stop ↔ n ∈ descend root ∧ compare n.full start ≠ .lt ∧ compare n.full stop = .lt := by
  simp [between]

theorem head_le {x y : List Bytes} (h : compare x y ≠ .gt) : ∀ a ∈ x.head?, ∀ b ∈ y.head?, compare a b ≠ .gt := by
  intro a ha b hb
  rcases x with - | ⟨a', x⟩
  · cases ha
  rcases y with - | ⟨b', y⟩
  · cases hb
  obtain rfl : a' = a := by simpa using ha
  obtain rfl : b' = b := by simpa using hb
  rw [cmp_cons] at h
  intro hc
  rw [hc] at h
  exact h rfl

theorem head_append_of_ne {x : List Bytes} (h : x ≠ []) (y : List Bytes) : (x ++ y).head? = x.head? := by
  rcases x with - | ⟨a, x⟩
  · exact absurd rfl h
  · rfl

theorem not_gt_trans {a b c : List Bytes} (h1 : compare a b ≠ .gt) (h2 : compare b c = .lt) : compare a c = .lt :=
  cmp_le_trans (fun h => h1 (Std.OrientedCmp.gt_of_lt h)) h2

theorem lt_of_lt_of_not_gt {a b c : List Bytes} (h1 : compare a b = .lt) (h2 : compare b c ≠ .gt) : compare a c = .lt :=
  Std.TransCmp.lt_of_lt_of_isLE h1 (by
    revert h2
    rcases compare b c <;> simp)

section
variable {root s e : UNode α} {start q rs stop p re : List Bytes}

/-- What C178 needs of the end, when the iterator is at its first node. -/
theorem both_at (hf : FullKeysArePaths root) (ho : SiblingsOrdered root) (hs : Reaches root start q [] s) (he : Reaches root stop p re e)
    (hne : start ≠ []) (hp : p ≠ []) (hle : compare start stop ≠ .gt) (i : StartIter α)
    (hi : i = ⟨⟨root, true, (RangeIter.endPath root p).1, re.head?, [], (RangeIter.endPath root p).1.map fun _ => false⟩, (RangeIter.endPath root q).1,
      none, false, none⟩) :
    (∀ cs, i.run cs = rangeRun ((between root start stop).map UNode.entry) cs) ↔
      Leftmost root none q ∧ (re ≠ [] → e.kids = []) ∧ (∀ n ∈ between root start stop, n.full.length ≤ p.length) ∧
      (q.head? ≠ p.head? ∨ q.length = 1 ∨ ∀ n ∈ descend root, n.full.head? = q.head? → compare n.full stop = .lt) := by
  obtain ⟨hsp, hat, hmiss⟩ := hs
  obtain ⟨hep, heat, hemiss⟩ := he
  rw [List.append_nil] at hsp
  subst hsp
  obtain ⟨h1, h2⟩ := checkStart_at hat ho hne (RangeIter.endPath root p).1 re.head? none ((RangeIter.endPath root p).1.map fun _ => false) i hi
  have hnil := rangeRun_nexts ((between root start stop).map UNode.entry)
  by_cases hL : Leftmost root none start
  swap
  · refine ⟨fun h => ?_, fun h => absurd h.1 hL⟩
    exfalso
    rw [← h, run_crash _ (h1 hL)] at hnil
    split at hnil <;> simp at hnil
  obtain ⟨q0, k, P, ps, _, anc, hk, hP, hh, hcs, hd, hanc, hst, -⟩ := h2 hL
  have hfrom := from_start hf ho hat hk hP hh hd hanc hst
  obtain ⟨R, hR⟩ : ∃ R, R = (P.kids :: ps).flatMap descendAll := ⟨_, rfl⟩
  have hmem : ∀ m, m ∈ R ↔ m ∈ descend root ∧ compare m.full start ≠ .lt := by
    intro m
    rw [hR, ← hfrom, List.mem_filter]
    simp
  have hbet : between root start stop = R.filter fun n => compare n.full stop = .lt := by
    rw [hR, ← hfrom, between, List.filter_filter]
    refine List.filter_congr fun m _ => ?_
    simp only [ne_eq, Bool.decide_and, decide_not]
    rw [Bool.and_comm]
  have hrun : ∀ cs, i.run cs = RangeIter.run ⟨root, false, (RangeIter.endPath root p).1, re.head?, P.kids :: ps,
      (RangeIter.endPath root p).1.map fun _ => false⟩ cs := by
    intro cs
    rw [run_init _ _ hcs rfl, base_run _ _ rfl (.inl rfl) (.inr rfl)]
  have hkl : start.length = q0.length + 1 := by rw [hk]; simp
  have hsfull := hf _ _ hat
  have hefull := hf _ _ heat
  by_cases hlen : start.length ≤ p.length
  · have heR : re ≠ [] → e ∈ R := by
      intro hre
      rw [hmem, hefull]
      refine ⟨at_mem_walk heat, fun hlt => ?_⟩
      rw [hep] at hle
      by_cases hpre : p <+: start
      · rw [hpre.eq_of_length_le hlen, Std.ReflOrd.compare_self] at hlt
        cases hlt
      · rw [cmp_missing hpre] at hle
        exact hle (Std.OrientedCmp.gt_of_lt hlt)
    have hsh : ∀ a ∈ q0.head?, start.head? = some a := by
      intro a ha
      rcases q0 with - | ⟨b, q0⟩
      · cases ha
      · rw [hk]
        simpa using ha
    have hqR : ∀ n ∈ R, ∀ a ∈ q0.head?, ∃ b ∈ n.full.head?, compare b a ≠ .lt := by
      intro n hn a ha
      obtain ⟨-, hge⟩ := (hmem n).mp hn
      have hge' : compare start n.full ≠ .gt := fun h => hge (Std.OrientedCmp.lt_of_gt h)
      rcases hnf : n.full with - | ⟨b, t⟩
      · rw [hnf] at hge
        refine absurd (prefix_lt [] start List.nil_prefix ?_) hge
        exact List.length_pos_iff.mpr hne
      · refine ⟨b, rfl, fun h => ?_⟩
        exact head_le hge' a (hsh a ha) b (by rw [hnf]; rfl) (Std.OrientedCmp.gt_of_lt h)
    have hhead : ∀ a ∈ q0.head?, ∀ b ∈ p.head?, compare a b ≠ .gt := by
      intro a ha b hb
      refine head_le hle a (hsh a ha) b ?_
      rw [hep, head_append_of_ne hp]
      exact hb
    have hcore := visited_iff (ec := re.head?) hf ho hp heat hep (by rcases re <;> simp) hst (by omega) hhead (by rw [← hR]; exact heR) (by rw [← hR]; exact hqR)
    simp only [← hR] at hcore
    simp only [hrun, hbet, hcore]
    have c2 : (∀ n ∈ R, compare n.full stop = .lt → n.full.length ≤ p.length) ↔
        ∀ n ∈ R.filter (fun n => compare n.full stop = .lt), n.full.length ≤ p.length := by
      simp [List.mem_filter]
    have c3 : (q0.head? ≠ p.head? ∨ ∀ n ∈ R, n.full.head? = q0.head? → compare n.full stop = .lt) ↔
        (start.head? ≠ p.head? ∨ start.length = 1 ∨ ∀ n ∈ descend root, n.full.head? = start.head? → compare n.full stop = .lt) := by
      rcases q0 with - | ⟨a, q0⟩
      · have h1 : start.length = 1 := by simpa using hkl
        have h2 : ([] : List Bytes).head? ≠ p.head? := by
          rcases p with - | ⟨b, p⟩
          · exact absurd rfl hp
          · simp
        exact iff_of_true (.inl h2) (.inr (.inl h1))
      · have h1 : start.length ≠ 1 := by simp [hkl]
        have h2 : (a :: q0).head? = start.head? := by rw [hk]; rfl
        rw [h2]
        simp only [h1, false_or]
        refine or_congr_right ⟨fun h n hn hh => ?_, fun h n hn hh => h n ((hmem n).mp hn).1 hh⟩
        by_cases hlt : compare n.full start = .lt
        · exact lt_of_lt_of_not_gt hlt hle
        · exact h n ((hmem n).mpr ⟨hn, hlt⟩) hh
    rw [← c2, ← c3]
    exact ⟨fun h => ⟨hL, h⟩, fun h => h.2⟩
  · constructor
    · intro h
      exfalso
      rw [← h, hrun] at hnil
      have hsl := hst.length
      have := (endPath_at ho heat).2.1
      exact (never_ends root _ _ _ _ _ (by simp only [List.length_cons] at hsl ⊢; omega)).1 hnil
    · rintro ⟨-, -, h, -⟩
      exfalso
      refine hlen ?_
      have := h s (mem_between.mpr ⟨at_mem_walk hat, ?_, ?_⟩)
      · rwa [hsfull] at this
      · rw [hsfull, Std.ReflOrd.compare_self]
        simp
      · rw [hsfull]
        rcases hc : compare start stop
        · rfl
        · exfalso
          have heq := Std.LawfulEqOrd.eq_of_compare hc
          rw [hep] at heq
          rcases re with - | ⟨k', re⟩
          · rw [List.append_nil] at heq
            rw [heq] at hlen
            exact hlen le_rfl
          · rw [heq] at hat
            obtain ⟨m, a1, a2⟩ := at_prefix hat
            obtain rfl := at_unique ho a1 heat
            generalize hj : k' :: re = js at a2
            cases a2 with
            | here => cases hj
            | child _ c _ _ hc _ =>
              simp only [List.cons.injEq] at hj
              exact hemiss k' rfl c hc hj.1.symm
        · exact absurd hc hle

/-- The same if the iterator skips the children of the last node on the way to the start. -/
theorem both_missing (hf : FullKeysArePaths root) (ho : SiblingsOrdered root) {k : Bytes} (hs : Reaches root start q (k :: rs) s)
    (he : Reaches root stop p re e) (hp : p ≠ []) (hle : compare start stop ≠ .gt) (i : StartIter α)
    (hi : i = ⟨⟨root, true, (RangeIter.endPath root p).1, re.head?, [], (RangeIter.endPath root p).1.map fun _ => false⟩, (RangeIter.endPath root q).1,
      some k, false, none⟩) :
    (∀ cs, i.run cs = rangeRun ((between root start stop).map UNode.entry) cs) ↔
      Leftmost root none q ∧ (q.length < p.length ∧ ∀ c ∈ s.kids, compare k c.nodeKey = .lt ∧ compare c.full stop ≠ .lt) ∧
      (re ≠ [] → e.kids = []) ∧ (∀ n ∈ between root start stop, n.full.length ≤ p.length) ∧
      (q.head? ≠ p.head? ∨ ∀ n ∈ descend root, n.full.head? = q.head? → compare n.full stop ≠ .lt → q <+: n.full) := by
  obtain ⟨hsp, hat, hmiss⟩ := hs
  obtain ⟨hep, heat, hemiss⟩ := he
  have hrk : root.kids ≠ [] := by
    cases heat with
    | here => exact absurd rfl hp
    | child _ c _ _ hc _ => exact List.ne_nil_of_mem hc
  obtain ⟨h1, h2⟩ := checkStart_missing ho hf hrk hat k (RangeIter.endPath root p).1 re.head? ((RangeIter.endPath root p).1.map fun _ => false) i hi
  have hnil := rangeRun_nexts ((between root start stop).map UNode.entry)
  by_cases hL : Leftmost root none q
  swap
  · refine ⟨fun h => ?_, fun h => absurd h.1 hL⟩
    exfalso
    rw [← h, run_crash _ (h1 hL)] at hnil
    split at hnil <;> simp at hnil
  obtain ⟨ps, anc, hcs, hst, hd, hanc⟩ := h2 hL
  have hrun := run_init _ _ hcs rfl
  have hsl := hst.length
  have hel := (endPath_at ho heat).2.1
  have hsfull := hf _ _ hat
  have hefull := hf _ _ heat
  by_cases hlen : q.length < p.length
  swap
  · refine ⟨fun h => ?_, fun h => absurd h.2.1.1 hlen⟩
    exfalso
    rw [← h, hrun] at hnil
    exact pending_never _ rfl rfl (by simp only [List.length_cons] at hsl ⊢; omega) _ hnil
  have hpend := pending_run (⟨⟨root, false, (RangeIter.endPath root p).1, re.head?, s.kids :: ps, (RangeIter.endPath root p).1.map fun _ => false⟩,
    (RangeIter.endPath root q).1, some k, true, some k⟩ : StartIter α) rfl rfl (by rw [hel]; simpa using hp) (by simp)
    (by simp only [List.length_cons] at hsl ⊢; omega)
  have hqlt : compare q start = .lt := by
    rw [hsp]
    exact prefix_lt _ _ (List.prefix_append _ _) (by simp)
  have hhead : ∀ a ∈ q.head?, ∀ b ∈ p.head?, compare a b ≠ .gt := by
    intro a ha b hb
    refine head_le hle a ?_ b ?_
    · rcases q with - | ⟨x, q⟩
      · cases ha
      · rw [hsp]
        exact ha
    · rw [hep, head_append_of_ne hp]
      exact hb
  have hcfull : ∀ c ∈ s.kids, c.full = q ++ [c.nodeKey] := fun c hc => hf _ _ (at_append hat (.child s c c [] hc (.here c)))
  -- the nodes after those below the last node on the way to the start
  have hafter := hst.after hf
  rw [List.tail_cons] at hafter
  have hst0 := hst.skip
  obtain ⟨R, hR⟩ : ∃ R, R = ps.flatMap descendAll := ⟨_, rfl⟩
  have hR0 : ([] :: ps).flatMap descendAll = R := by rw [List.flatMap_cons, walkAll_nil, List.nil_append, hR]
  rw [← hR] at hafter hd
  have hRpre : ∀ n ∈ R, ¬ q <+: n.full := by
    rintro n hn ⟨z, hz⟩
    have := hafter n hn z
    rw [hz, Std.ReflOrd.compare_self] at this
    cases this
  have hRge : ∀ n ∈ R, compare n.full start ≠ .lt := by
    intro n hn hlt
    have := hafter n hn (k :: rs)
    rw [← hsp] at this
    rw [Std.OrientedCmp.gt_of_lt this] at hlt
    cases hlt
  have hanclt : ∀ n ∈ anc, compare n.full start = .lt := by
    intro n hn
    obtain ⟨a1, a2⟩ := hanc n hn
    rw [hsp]
    exact prefix_lt _ _ (a1.trans (List.prefix_append _ _)) (by simp; omega)
  by_cases hskip : ∀ c ∈ s.kids, compare k c.nodeKey = .lt ∧ compare c.full stop ≠ .lt
  · -- all children are skipped
    have htouch : ∃ i', StartIter.touch (⟨⟨root, false, (RangeIter.endPath root p).1, re.head?, s.kids :: ps,
        (RangeIter.endPath root p).1.map fun _ => false⟩, (RangeIter.endPath root q).1, some k, true, some k⟩ : StartIter α) = some i' ∧
        i'.base = ⟨root, false, (RangeIter.endPath root p).1, re.head?, [] :: ps, (RangeIter.endPath root p).1.map fun _ => false⟩ := by
      rcases hsk : s.kids with - | ⟨f, l⟩
      · exact ⟨_, rfl, rfl⟩
      · have hlt := (hskip f (by rw [hsk]; simp)).1
        obtain ⟨-, t2⟩ := touch_some (⟨⟨root, false, (RangeIter.endPath root p).1, re.head?, (f :: l) :: ps,
          (RangeIter.endPath root p).1.map fun _ => false⟩, (RangeIter.endPath root q).1, some k, true, some k⟩ : StartIter α)
          (s := k) (f := f) (l := l) (ps := ps) rfl rfl
        refine ⟨_, t2 ?_, by simp [hlt]⟩
        rintro ⟨hpre, -⟩
        exact prefix_not_above hpre hlt
    obtain ⟨i', ht, hb⟩ := htouch
    have hrun' : ∀ cs, i.run cs = RangeIter.run ⟨root, false, (RangeIter.endPath root p).1, re.head?, [] :: ps,
        (RangeIter.endPath root p).1.map fun _ => false⟩ cs := by
      intro cs
      rw [hrun, (hpend cs).2 i' ht, hb]
    have hbelow : ∀ n ∈ descend s, compare n.full start ≠ .lt → compare n.full stop ≠ .lt := by
      intro n hn hge
      obtain ⟨ks, hks⟩ := mem_walk_aux.1 s hn
      cases hks with
      | here =>
        rw [hsfull] at hge
        exact absurd hqlt hge
      | child _ c _ ks hc hks =>
        rw [hf _ _ (at_append hat (.child s c n ks hc hks))]
        have := (hskip c hc).2
        rw [hcfull c hc] at this
        have := not_below_append this ks
        rwa [List.append_assoc] at this
    have hbet : between root start stop = R.filter fun n => compare n.full stop = .lt := by
      rw [between, hd, List.filter_append, List.filter_append]
      have g1 : (anc.filter fun n => compare n.full start ≠ .lt ∧ compare n.full stop = .lt) = [] := by
        rw [List.filter_eq_nil_iff]
        intro n hn
        simp [hanclt n hn]
      have g2 : ((descend s).filter fun n => compare n.full start ≠ .lt ∧ compare n.full stop = .lt) = [] := by
        rw [List.filter_eq_nil_iff]
        intro n hn
        simp only [decide_eq_true_eq, not_and]
        exact hbelow n hn
      rw [g1, g2, List.nil_append, List.nil_append]
      refine List.filter_congr fun n hn => ?_
      simp [hRge n hn]
    have heR : re ≠ [] → e ∈ R := by
      intro hre
      have hemem := at_mem_walk heat
      rw [hd, List.mem_append, List.mem_append] at hemem
      rcases hemem with h | h | h
      · obtain ⟨-, a2⟩ := hanc e h
        rw [hefull] at a2
        omega
      · exfalso
        obtain ⟨ks, hks⟩ := mem_walk_aux.1 s h
        cases hks with
        | here =>
          rw [hefull] at hsfull
          rw [hsfull] at hlen
          exact lt_irrefl _ hlen
        | child _ c _ ks hc hks =>
          refine (hskip c hc).2 ?_
          have := hf _ _ (at_append hat (.child s c e ks hc hks))
          rw [hcfull c hc, hep, ← hefull, this]
          refine prefix_lt _ _ ⟨ks ++ re, by simp⟩ ?_
          have := List.length_pos_iff.mpr hre
          simp
          omega
      · exact h
    have hqR : ∀ n ∈ R, ∀ a ∈ q.head?, ∃ b ∈ n.full.head?, compare b a ≠ .lt := by
      intro n hn a ha
      have hlt := hafter n hn []
      rw [List.append_nil] at hlt
      rcases hnf : n.full with - | ⟨b, t⟩
      · rw [hnf] at hlt
        rcases q <;> simp [compare, List.compareLex_nil_nil, List.compareLex_cons_nil] at hlt
      · refine ⟨b, rfl, fun h => ?_⟩
        exact head_le (by rw [hlt]; simp) a ha b (by rw [hnf]; rfl) (Std.OrientedCmp.gt_of_lt h)
    have hcore := visited_iff (ec := re.head?) hf ho hp heat hep (by rcases re <;> simp) hst0 (by omega) hhead (by rw [hR0]; exact heR)
      (by rw [hR0]; exact hqR)
    simp only [hR0] at hcore
    simp only [hrun', hbet, hcore]
    have c2 : (∀ n ∈ R, compare n.full stop = .lt → n.full.length ≤ p.length) ↔
        ∀ n ∈ R.filter (fun n => compare n.full stop = .lt), n.full.length ≤ p.length := by
      simp [List.mem_filter]
    have c3 : (∀ n ∈ R, n.full.head? = q.head? → compare n.full stop = .lt) ↔
        ∀ n ∈ descend root, n.full.head? = q.head? → compare n.full stop ≠ .lt → q <+: n.full := by
      constructor
      · intro h n hn hh hge
        rw [hd, List.mem_append, List.mem_append] at hn
        rcases hn with hn | hn | hn
        · exact absurd (lt_of_lt_of_not_gt (hanclt n hn) hle) hge
        · obtain ⟨ks, hks⟩ := mem_walk_aux.1 s hn
          rw [hf _ _ (at_append hat hks)]
          exact List.prefix_append _ _
        · exact absurd (h n hn hh) hge
      · intro h n hn hh
        by_contra hge
        exact hRpre n hn (h n (by rw [hd]; simp [hn]) hh hge)
    rw [← c2, ← c3]
    exact ⟨fun h => ⟨hL, ⟨hlen, hskip⟩, h⟩, fun h => h.2.2⟩
  · -- some child is not skipped, or should not be
    refine ⟨fun h => ?_, fun h => absurd h.2.1.2 hskip⟩
    exfalso
    rw [← h, hrun] at hnil
    rcases hsk : s.kids with - | ⟨f, l⟩
    · exact hskip (by simp [hsk])
    have hff := hcfull f (by rw [hsk]; simp)
    obtain ⟨t1, t2⟩ := touch_some (⟨⟨root, false, (RangeIter.endPath root p).1, re.head?, (f :: l) :: ps,
      (RangeIter.endPath root p).1.map fun _ => false⟩, (RangeIter.endPath root q).1, some k, true, some k⟩ : StartIter α)
      (s := k) (f := f) (l := l) (ps := ps) rfl rfl
    rw [hsk] at hpend hnil hrun
    by_cases hpre : f.nodeKey <+: k ∧ f.nodeKey ≠ k
    · rw [(hpend _).1 (t1 hpre)] at hnil
      split at hnil <;> simp at hnil
    have ht := t2 hpre
    have hrun' := fun cs => (hpend cs).2 _ ht
    rw [hrun'] at hnil
    simp only [hrun, hrun'] at h
    by_cases hlt : compare k f.nodeKey = .lt
    · simp only [if_pos hlt] at hnil h
      obtain ⟨v1, v2⟩ := visited_run hf ho hp heat re.head? hst0 (by omega) hhead
      have heq := rangeRun_inj _ _ fun cs => (v2 (v1 ⟨_, hnil⟩) cs).symm.trans (h cs)
      refine hskip fun c hc => ?_
      have hkc : compare k c.nodeKey = .lt := by
        have hsib := ho _ _ hat
        rw [hsk] at hc hsib
        rw [List.pairwise_cons] at hsib
        rcases List.mem_cons.mp hc with rfl | hc
        · exact hlt
        · exact Std.TransCmp.lt_trans hlt (hsib.1 c hc).1
      refine ⟨hkc, fun hcs => ?_⟩
      have hcm : c ∈ between root start stop := by
        refine mem_between.mpr ⟨at_mem_walk (at_append hat (.child s c c [] hc (.here c))), ?_, hcs⟩
        rw [hcfull c hc, hsp, cmp_append, cmp_cons, Std.OrientedCmp.gt_of_lt hkc]
        simp
      have : c.entry ∈ (between root start stop).map UNode.entry := List.mem_map_of_mem hcm
      rw [← heq] at this
      obtain ⟨m, m1, m2⟩ := List.mem_map.mp this
      have m3 : m.full = c.full := congrArg Prod.fst m2
      have m4 := (List.mem_filter.mp m1).1
      rw [hR0] at m4
      refine hRpre m m4 ?_
      rw [m3, hcfull c hc]
      exact List.prefix_append _ _
    · simp only [if_neg hlt] at hnil h
      rw [hsk] at hst
      obtain ⟨v1, v2⟩ := visited_run hf ho hp heat re.head? hst (by omega) hhead
      have heq := rangeRun_inj _ _ fun cs => (v2 (v1 ⟨_, hnil⟩) cs).symm.trans (h cs)
      have hfk : compare f.nodeKey k = .lt := by
        rcases hc : compare f.nodeKey k
        · rfl
        · exact absurd (Std.LawfulEqOrd.eq_of_compare hc) (hmiss k rfl f (by rw [hsk]; simp))
        · exact absurd (Std.OrientedCmp.lt_of_gt hc) hlt
      have hfs : compare f.full start = .lt := by
        rw [hff, hsp, cmp_append, cmp_cons, hfk]
        rfl
      have hfst : compare f.full stop = .lt := lt_of_lt_of_not_gt hfs hle
      have hfV : f ∈ visited p q re.head? (((f :: l) :: ps).flatMap descendAll) := by
        rw [visited, List.mem_filter]
        refine ⟨by rw [List.flatMap_cons, walkAll_cons, walk_eq]; simp, ?_⟩
        rw [decide_eq_true_eq, Visits]
        split
        · rename_i hq
          rw [hff, ← hq, head_append_of_ne]
          rintro rfl
          rcases p with - | ⟨x, p⟩
          · exact hp rfl
          · cases hq
        · rw [hep] at hfst
          by_cases hpf : p <+: f.full
          · have hpeq := hpf.eq_of_length_le (by rw [hff]; simp; omega)
            refine .inr ⟨?_, hpeq.symm⟩
            rcases re with - | ⟨x, re⟩
            · rw [List.append_nil, ← hpeq, Std.ReflOrd.compare_self] at hfst
              cases hfst
            · rfl
          · rw [cmp_missing hpf] at hfst
            exact .inl hfst
      have : f.entry ∈ (between root start stop).map UNode.entry := by
        rw [← heq]
        exact List.mem_map_of_mem hfV
      obtain ⟨m, m1, m2⟩ := List.mem_map.mp this
      have m3 : m.full = f.full := congrArg Prod.fst m2
      have := (mem_between.mp m1).2.1
      rw [m3] at this
      exact this hfs

end

/-! ### C178 Any start and any end -/

/-- C178, exactly, for any start and any end whose first key is in the trie: the iterator visits the nodes from the start on and before the
end, and then ends, if and only if
- the part of the start that is in the trie is reached through first children whose keys do not grow;
- if this is not all of the start, it is shorter than the part of the end that is in the trie, and all children of its last node are above
  the start and not before the end (they are skipped);
- if not all of the end is in the trie, the last node on the way to it has no children;
- no node in the range is deeper than the part of the end that is in the trie;
- below the first key of the start, the end excludes no node that is not skipped (it is not looked at there), unless this is not the first
  key of the end or the whole start is one key. -/
theorem C178_exact_partial (root s e : UNode α) (hf : FullKeysArePaths root) (ho : SiblingsOrdered root) (start q rs stop p re : List Bytes)
    (hs : Reaches root start q rs s) (he : Reaches root stop p re e) (hne : start ≠ []) (hp : p ≠ []) (i : StartIter α)
    (hi : StartIter.new root (some start) (some stop) = some i) :
    (∀ cs, i.run cs = rangeRun (((descend root).filter fun n => compare n.full start ≠ .lt ∧ compare n.full stop = .lt).map UNode.entry) cs) ↔
      Leftmost root none q ∧
      (∀ k ∈ rs.head?, q.length < p.length ∧ ∀ c ∈ s.kids, compare k c.nodeKey = .lt ∧ compare c.full stop ≠ .lt) ∧
      (re ≠ [] → e.kids = []) ∧
      (∀ n ∈ descend root, compare n.full start ≠ .lt → compare n.full stop = .lt → n.full.length ≤ p.length) ∧
      (q.head? ≠ p.head? ∨ start.length = 1 ∨
        ∀ n ∈ descend root, n.full.head? = q.head? → compare n.full stop ≠ .lt → rs ≠ [] ∧ q <+: n.full) := by
  have hle := new_both hi
  obtain ⟨b, hb, rfl⟩ := new_start hi
  have hb' : b = ⟨root, true, (RangeIter.endPath root p).1, re.head?, [], (RangeIter.endPath root p).1.map fun _ => false⟩ := by
    unfold RangeIter.new at hb
    rw [if_neg (by simp [hf [] root (.here _)])] at hb
    dsimp only at hb
    rw [reach_path ho he] at hb
    exact (Option.some.inj hb).symm
  subst hb'
  have c2 : (∀ n ∈ descend root, compare n.full start ≠ .lt → compare n.full stop = .lt → n.full.length ≤ p.length) ↔
      ∀ n ∈ between root start stop, n.full.length ≤ p.length := by
    simp only [mem_between, and_imp]
  rw [reach_path ho hs, c2]
  rcases rs with - | ⟨k, rs⟩
  · have := both_at hf ho hs he hne hp hle _ rfl
    rw [between] at this
    simp only [List.head?_nil]
    rw [this]
    have hq : q = start := by rw [hs.split, List.append_nil]
    subst hq
    simp [between]
  · have := both_missing hf ho hs he hp hle _ rfl
    simp only [between] at this ⊢
    simp only [List.head?_cons]
    rw [this]
    have hq : q.head? ≠ p.head? ∨ start.length ≠ 1 := by
      rcases q with - | ⟨a, q⟩
      · rcases p with - | ⟨b, p⟩
        · exact absurd rfl hp
        · simp
      · right
        simp [hs.split]
    constructor
    · rintro ⟨h1, h2, h3, h4, h5⟩
      refine ⟨h1, ?_, h3, h4, ?_⟩
      · intro k' hk'
        cases hk'
        exact h2
      · rcases h5 with h5 | h5
        · exact .inl h5
        · exact .inr (.inr fun n hn hh hge => ⟨by simp, h5 n hn hh hge⟩)
    · rintro ⟨h1, h2, h3, h4, h5⟩
      refine ⟨h1, h2 k rfl, h3, h4, ?_⟩
      rcases h5 with h5 | h5 | h5
      · exact .inl h5
      · exact .inl (hq.resolve_right (by simp [h5]))
      · exact .inr fun n hn hh hge => (h5 n hn hh hge).2

theorem reaches_cb : Reaches startTrie [[99], [98]] [[99], [98]] [] (.node [98] [[99], [98]] 2 []) := ⟨rfl, startTrie_cb, by simp⟩

theorem reaches_cdz : Reaches startTrie [[99], [100], [122]] [[99], [100]] [[122]] (.node [100] [[99], [100]] 3 []) :=
  ⟨rfl, startTrie_cd, by simp [UNode.kids]⟩

theorem reaches_eaz : Reaches startTrie [[101], [97], [122]] [[101], [97]] [[122]] (.node [97] [[101], [97]] 5 []) :=
  ⟨rfl, startTrie_ea, by simp [UNode.kids]⟩

/-- From "c b" to "e a z", of which "e a" is in the trie. -/
example : ∃ i, StartIter.new startTrie (some [[99], [98]]) (some [[101], [97], [122]]) = some i ∧ ∀ cs, i.run cs =
    rangeRun [([[99], [98]], 2), ([[99], [100]], 3), ([[101]], 4), ([[101], [97]], 5)] cs :=
  ⟨_, rfl, (C178_exact_partial startTrie _ _ startTrie_paths startTrie_ordered [[99], [98]] _ _ [[101], [97], [122]] _ _ reaches_cb reaches_eaz
    (by simp) (by simp) _ rfl).mpr ⟨startTrie_leftmost, by simp, fun _ => rfl, by decide, .inl (by decide)⟩⟩

/-- From "c b" to "c d z", with the same first key: no node below "c" is behind the end. -/
example : ∃ i, StartIter.new startTrie (some [[99], [98]]) (some [[99], [100], [122]]) = some i ∧ ∀ cs, i.run cs =
    rangeRun [([[99], [98]], 2), ([[99], [100]], 3)] cs :=
  ⟨_, rfl, (C178_exact_partial startTrie _ _ startTrie_paths startTrie_ordered [[99], [98]] _ _ [[99], [100], [122]] _ _ reaches_cb reaches_cdz
    (by simp) (by simp) _ rfl).mpr ⟨startTrie_leftmost, by simp, fun _ => rfl, by decide, .inr (.inr (by decide))⟩⟩

/-- From "c a", of which "c" is in the trie, to "c b": nothing. -/
example : ∃ i, StartIter.new startTrie (some [[99], [97]]) (some [[99], [98]]) = some i ∧ ∀ cs, i.run cs = rangeRun [] cs :=
  ⟨_, rfl, (C178_exact_partial startTrie _ _ startTrie_paths startTrie_ordered [[99], [97]] [[99]] [[97]] [[99], [98]] _ _
    ⟨rfl, startTrie_c, by simp [UNode.kids, UNode.nodeKey]⟩ reaches_cb (by simp) (by simp) _ rfl).mpr
    ⟨⟨_, rfl, rfl, by simp, trivial⟩, by
      intro k hk
      cases hk
      decide, by simp, by decide, .inr (.inr (by decide))⟩⟩

/-- From "c a" to "e a z": the children of "c" are lost. -/
example : ∃ i, StartIter.new startTrie (some [[99], [97]]) (some [[101], [97], [122]]) = some i ∧
    i.run [.next, .next, .next] = [.yield ([[101]], 4), .yield ([[101], [97]], 5), .nil] := ⟨_, rfl, by decide⟩

/-- From "c b" to "c c", of which only "c" is in the trie: the iterator does not end. -/
example : ∃ i, StartIter.new startTrie (some [[99], [98]]) (some [[99], [99]]) = some i ∧
    i.run [.next, .next, .next] = [.yield ([[99], [98]], 2), .yield ([[99], [100]], 3), .hang] := ⟨_, rfl, by decide⟩

end Poodle.Props
