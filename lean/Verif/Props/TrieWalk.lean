import Verif.Spec.TrieWalk
import Verif.Lemmas.Slice

/-
Properties C174-C177: iterators over the nodes of a trie (/repo/src/util/trie_util.go:984-1468), for any implementation of the nodes.
-/

namespace Poodle.Props

open Spec

variable {α : Type}

/-! ### C174 Key iterators -/

/-- The nodes an iterator still has to return. -/
def toGo (i : KeyIter α) : List (UNode α) := (i.curr.elim [] descend) ++ i.paths.flatMap descendAll

theorem walk_eq (n : UNode α) : descend n = n :: descendAll n.kids := by
  obtain ⟨k, f, v, c⟩ := n
  rw [descend]
  rfl

theorem dropWhile_walk (ps : List (List (UNode α))) : (ps.dropWhile List.isEmpty).flatMap descendAll = ps.flatMap descendAll := by
  induction ps with
  | nil => rfl
  | cons l ps ih =>
    rw [List.dropWhile_cons]
    split
    · rename_i h
      rw [ih, List.flatMap_cons, List.isEmpty_iff.mp h]
      simp [descendAll]
    · rfl

theorem toGo_advance (i : KeyIter α) : toGo i.advance = toGo i := by
  unfold KeyIter.advance toGo
  split
  · rfl
  · rw [dropWhile_walk]

theorem push_walk (n : UNode α) (ps : List (List (UNode α))) : (KeyIter.push n ps).flatMap descendAll = descendAll n.kids ++ ps.flatMap descendAll := by
  unfold KeyIter.push
  split
  · rfl
  · rename_i h
    have : n.kids = [] := List.eq_nil_of_length_eq_zero (by simpa using h)
    simp [this, descendAll]

/-- The three shapes of an iterator after `advance`. -/
theorem advance_cases (i : KeyIter α) :
    (∃ n, i.advance.curr = some n ∧ toGo i = n :: (descendAll n.kids ++ i.advance.paths.flatMap descendAll)) ∨
    (∃ n l ps, i.advance.curr = none ∧ i.advance.paths = (n :: l) :: ps ∧
      toGo i = n :: (descendAll n.kids ++ (descendAll l ++ ps.flatMap descendAll))) ∨
    (i.advance.curr = none ∧ i.advance.paths = [] ∧ toGo i = []) := by
  rw [← toGo_advance i]
  rcases hc : i.advance.curr with - | n
  · rcases hp : i.advance.paths with - | ⟨l, ps⟩
    · exact .inr (.inr ⟨rfl, rfl, by simp [toGo, hc, hp]⟩)
    · rcases l with - | ⟨n, l⟩
      · exfalso
        have h1 : i.curr = none := by
          unfold KeyIter.advance at hc
          split at hc
          · exact hc
          · exact hc
        have h2 : i.advance.paths = i.paths.dropWhile List.isEmpty := by
          unfold KeyIter.advance
          rw [h1]
          rfl
        have h3 := List.head?_dropWhile_not List.isEmpty i.paths
        rw [← h2, hp] at h3
        simp at h3
      · exact .inr (.inl ⟨n, l, ps, rfl, rfl, by simp [toGo, hc, hp, descendAll, walk_eq]⟩)
  · exact .inl ⟨n, rfl, by simp [toGo, hc, walk_eq]⟩

theorem keyRun (cs : List IterCall) : ∀ i : KeyIter α, i.run cs = streamRun List.isEmpty ((toGo i).map UNode.entry) cs := by
  induction cs with
  | nil =>
    intro i
    rcases h : (toGo i).map UNode.entry <;> rfl
  | cons c cs ih =>
    intro i
    have ha := toGo_advance i
    rcases advance_cases i with ⟨n, h1, h2⟩ | ⟨n, l, ps, h1, h2, h3⟩ | ⟨h1, h2, h3⟩
    · cases c
      · simp only [KeyIter.run, KeyIter.call, KeyIter.next, h1, h2, List.map_cons, streamRun]
        rw [ih]
        simp [toGo, push_walk]
      · simp only [KeyIter.run, KeyIter.call, KeyIter.hasNext, h1]
        rw [ih, ha, h2]
        simp [streamRun]
      · simp only [KeyIter.run, KeyIter.call, KeyIter.peek, h1]
        rw [ih, ha, h2]
        simp [streamRun]
    · cases c
      · simp only [KeyIter.run, KeyIter.call, KeyIter.next, h1, h2, h3, List.map_cons, streamRun]
        rw [ih]
        simp [toGo, push_walk]
      · simp only [KeyIter.run, KeyIter.call, KeyIter.hasNext, h1, h2]
        rw [ih, ha, h3]
        simp [streamRun]
      · simp only [KeyIter.run, KeyIter.call, KeyIter.peek, h1, h2]
        rw [ih, ha, h3]
        simp [streamRun]
    · cases c
      · simp only [KeyIter.run, KeyIter.call, KeyIter.next, h1, h2]
        rw [ih, ha, h3]
        simp [streamRun]
      · simp only [KeyIter.run, KeyIter.call, KeyIter.hasNext, h1, h2]
        rw [ih, ha, h3]
        simp [streamRun]
      · simp only [KeyIter.run, KeyIter.call, KeyIter.peek, h1, h2]
        rw [ih, ha, h3]
        simp [streamRun]

/-- C174: `Next` returns a node and all its descendants one after the other, parents before children and siblings in the order of their
keys, and then nil; `Peek` returns what `Next` would, and no call to `Peek` or `HasNext` has an effect on the rest.  (`HasNext` says
whether nothing is left, see C92.) -/
theorem C174_visits (root : UNode α) (curr : Option (UNode α)) (i : KeyIter α) (h : KeyIter.new root curr = some i) (cs : List IterCall) :
    i.run cs = streamRun List.isEmpty ((descend (curr.getD root)).map UNode.entry) cs := by
  rw [keyRun]
  unfold KeyIter.new at h
  split at h
  · cases h
  · rcases curr with - | c
    · cases h
      simp [toGo]
    · dsimp only at h
      split at h
      · cases h
        simp [toGo]
      · cases h

/-- A trie with the keys "a", "b", "b c", "b d" and "e" below the root. -/
def sampleTrie : UNode Nat :=
  .node [] [] 0 [.node [97] [[97]] 1 [], .node [98] [[98]] 2 [.node [99] [[98], [99]] 3 [], .node [100] [[98], [100]] 4 []],
    .node [101] [[101]] 5 []]

example : ∃ i, KeyIter.new sampleTrie none = some i ∧ i.run [.next, .next, .peek, .next, .next, .next, .next, .next] =
    [.yield ([], 0), .yield ([[97]], 1), .yield ([[98]], 2), .yield ([[98]], 2), .yield ([[98], [99]], 3), .yield ([[98], [100]], 4),
      .yield ([[101]], 5), .nil] := ⟨_, rfl, by decide⟩
example := C174_visits sampleTrie none _ rfl [.next, .hasNext, .peek]

/-! ### C175 Start of a key iterator -/

/-- The full claim of C175: an iterator can be started at a node if and only if it is a descendant of the root. -/
def StartsAtDescendants (α : Type) : Prop := ∀ root c : UNode α, FullKeysArePaths root →
  ((KeyIter.new root (some c)).isSome ↔ ∃ ks, At root ks c)

theorem getChild_isSome (n : UNode α) (k : Bytes) : (n.getChild k).isSome ↔ ∃ c ∈ n.kids, c.nodeKey = k := by
  simp [UNode.getChild]

/-- C175, exactly: it can be started at a descendant if and only if all keys on the way to it are keys of children of the root. -/
theorem C175_descendants_partial (root c : UNode α) (h : FullKeysArePaths root) (ks : List Bytes) (hc : At root ks c) :
    (KeyIter.new root (some c)).isSome ↔ ∀ k ∈ ks, ∃ d, At root [k] d := by
  have h0 : root.full = [] := h [] root (.here _)
  have h1 : ∀ k, (∃ d, At root [k] d) ↔ ∃ c ∈ root.kids, c.nodeKey = k := by
    intro k
    constructor
    · rintro ⟨d, hd⟩
      cases hd with
      | child _ c _ _ hm _ => exact ⟨c, hm, rfl⟩
    · rintro ⟨c, hm, rfl⟩
      exact ⟨c, .child _ c _ _ hm (.here _)⟩
  have h2 : (KeyIter.new root (some c)).isSome ↔ (c.full.all fun k => (root.getChild k).isSome) = true := by
    unfold KeyIter.new
    rw [if_neg (by simp [h0])]
    dsimp only
    split <;> simp_all
  rw [h2, List.all_eq_true, h ks c hc]
  simp only [h1, getChild_isSome]

/-- C175: it can be started at the root and at each of its children. -/
theorem C175_children_partial (root c : UNode α) (h : FullKeysArePaths root) (ks : List Bytes) (hc : At root ks c) (hk : ks.length ≤ 1) :
    (KeyIter.new root (some c)).isSome := by
  rw [C175_descendants_partial root c h ks hc]
  rcases ks with - | ⟨k, - | ⟨k', ks⟩⟩
  · simp
  · intro k' hk'
    rw [List.mem_singleton.mp hk']
    exact ⟨c, hc⟩
  · simp at hk

theorem sampleTrie_paths : FullKeysArePaths sampleTrie := by
  intro ks n h
  cases h with
  | here => rfl
  | child _ c _ ks hm h =>
    simp only [sampleTrie, UNode.kids, List.mem_cons, List.not_mem_nil, or_false] at hm
    rcases hm with rfl | rfl | rfl
    · cases h with
      | here => rfl
      | child _ c _ ks hm h => simp [UNode.kids] at hm
    · cases h with
      | here => rfl
      | child _ c _ ks hm h =>
        simp only [UNode.kids, List.mem_cons, List.not_mem_nil, or_false] at hm
        rcases hm with rfl | rfl
        · cases h with
          | here => rfl
          | child _ c _ ks hm h => simp [UNode.kids] at hm
        · cases h with
          | here => rfl
          | child _ c _ ks hm h => simp [UNode.kids] at hm
    · cases h with
      | here => rfl
      | child _ c _ ks hm h => simp [UNode.kids] at hm

/-- The node "b c". -/
theorem sampleTrie_at : At sampleTrie [[98], [99]] (.node [99] [[98], [99]] 3 []) :=
  .child _ (.node [98] [[98]] 2 [.node [99] [[98], [99]] 3 [], .node [100] [[98], [100]] 4 []]) _ _ (by simp [sampleTrie, UNode.kids])
    (.child _ (.node [99] [[98], [99]] 3 []) _ _ (by simp [UNode.kids]) (.here _))

example := C175_descendants_partial sampleTrie _ sampleTrie_paths _ sampleTrie_at
example := C175_children_partial sampleTrie (.node [101] [[101]] 5 []) sampleTrie_paths [[101]]
  (.child _ (.node [101] [[101]] 5 []) _ _ (by simp [sampleTrie, UNode.kids]) (.here _)) (by decide)

/-- C175 is false: the iterator cannot be started at "b c", as the root has no child "c". -/
theorem C175_refuted : ¬ StartsAtDescendants Nat := by
  intro h
  have := (h sampleTrie (.node [99] [[98], [99]] 3 []) sampleTrie_paths).mpr ⟨_, sampleTrie_at⟩
  revert this
  decide

/-- C175, the other way: it can be started at a node that is not in the trie. -/
theorem C175_foreign_refuted : (KeyIter.new sampleTrie (some (.node [98] [[97], [98]] 7 []))).isSome ∧
    ¬ ∃ ks, At sampleTrie ks (.node [98] [[97], [98]] 7 []) := by
  refine ⟨by decide, ?_⟩
  rintro ⟨ks, h⟩
  have hks := sampleTrie_paths _ _ h
  cases h with
  | child _ c _ ks hm h =>
    simp only [sampleTrie, UNode.kids, List.mem_cons, List.not_mem_nil, or_false] at hm
    rcases hm with rfl | rfl | rfl
    · cases h with
      | child _ c _ ks hm h => simp [UNode.kids] at hm
    · simp [UNode.nodeKey, UNode.full] at hks
    · simp [UNode.nodeKey, UNode.full] at hks

/-! ### C176 Range iterators without bounds -/

/-- The full claim of C176: a range iterator without bounds visits all nodes and then ends. -/
def RangeVisitsAll (α : Type) : Prop := ∀ (root : UNode α) (i : RangeIter α) (cs : List IterCall), RangeIter.new root none = some i →
  i.run cs = rangeRun ((descend root).map UNode.entry) cs

/-- There is no end, or its first key is not that of a child of the root. -/
def NoEnd (root : UNode α) (stop : Option (List Bytes)) : Prop := ∀ k ks, stop = some (k :: ks) → ¬ ∃ c, At root [k] c

theorem new_noEnd {root : UNode α} {stop : Option (List Bytes)} {i : RangeIter α} (h : RangeIter.new root stop = some i)
    (hs : NoEnd root stop) : ∃ e, i = ⟨root, true, [], e, [], []⟩ := by
  unfold RangeIter.new at h
  split at h
  · cases h
  · rcases stop with - | (- | ⟨k, ks⟩)
    · cases h
      exact ⟨_, rfl⟩
    · cases h
      exact ⟨_, rfl⟩
    · have hk : root.getChild k = none := by
        rcases hg : root.getChild k with - | c
        · rfl
        · exfalso
          obtain ⟨c, hm, rfl⟩ := (getChild_isSome root k).mp (by rw [hg]; rfl)
          exact hs _ _ rfl ⟨c, .child _ c _ _ hm (.here _)⟩
      have e1 : RangeIter.endPath root (k :: ks) = ([], some k) := by
        simp [RangeIter.endPath, hk]
      dsimp only at h
      rw [e1] at h
      cases h
      exact ⟨_, rfl⟩

theorem trailAll_cons (n : UNode α) (l : List (UNode α)) : trailAll (n :: l) = n :: if n.kids.length ≠ 0 then trailAll n.kids else trailAll l := by
  obtain ⟨k, f, v, c⟩ := n
  rw [trailAll, trail.eq_def]
  rcases c with - | ⟨c, cs⟩ <;> simp [UNode.kids]

theorem stuck_run (cs : List IterCall) : ∀ i : RangeIter α, i.isRoot = false → i.endNodes = [] → ∀ l ps, i.paths = l :: ps →
    i.run cs = stuckRun ((trailAll l).map UNode.entry) cs := by
  induction cs with
  | nil =>
    intro i h1 h2 l ps h3
    rcases h : (trailAll l).map UNode.entry <;> rfl
  | cons c cs ih =>
    intro i h1 h2 l ps h3
    have hce : i.checkEnd = some i := by simp [RangeIter.checkEnd, h2]
    have hfin : ∀ (i : RangeIter α) n, i.endNodes = [] → i.finish n = (i, .yield n.entry) := by
      intro i n h
      simp [RangeIter.finish, RangeIter.checkEnd, h]
    rcases l with - | ⟨n, l⟩
    · have hT : (trailAll ([] : List (UNode α))).map UNode.entry = [] := by rw [trailAll]; rfl
      cases c
      · simp [RangeIter.run, RangeIter.call, RangeIter.next, RangeIter.nextBody, hce, h1, h3, hT, stuckRun]
      · simp only [RangeIter.run, RangeIter.call, RangeIter.hasNext, hce, h1, h3]
        rw [ih i h1 h2 _ _ h3, hT]
        simp [stuckRun]
      · simp [RangeIter.run, RangeIter.call, RangeIter.peek, RangeIter.peekBody, hce, h1, h3, hT, stuckRun]
    · cases c
      · simp only [RangeIter.run, RangeIter.call, RangeIter.next, RangeIter.nextBody, hce, h1, h3, Bool.false_eq_true, if_false]
        rw [hfin ⟨i.root, false, i.endNodes, i.endChild, KeyIter.push n (l :: ps), i.endMatches⟩ n h2]
        rw [trailAll_cons, List.map_cons, stuckRun]
        congr 1
        by_cases hk : n.kids.length ≠ 0
        · rw [if_pos hk]
          exact ih ⟨i.root, false, i.endNodes, i.endChild, KeyIter.push n (l :: ps), i.endMatches⟩ rfl h2 n.kids (l :: ps) (by simp only [KeyIter.push, if_pos hk])
        · rw [if_neg hk]
          exact ih ⟨i.root, false, i.endNodes, i.endChild, KeyIter.push n (l :: ps), i.endMatches⟩ rfl h2 l ps (by simp only [KeyIter.push, if_neg hk])
      · simp only [RangeIter.run, RangeIter.call, RangeIter.hasNext, hce, h1, h3]
        rw [ih i h1 h2 _ _ h3, trailAll_cons]
        simp [stuckRun]
      · simp only [RangeIter.run, RangeIter.call, RangeIter.peek, RangeIter.peekBody, hce, h1, h3, Bool.false_eq_true, if_false]
        rw [ih i h1 h2 _ _ h3, trailAll_cons]
        simp [stuckRun]

/-- C176, exactly, for a root with children: the iterator visits the root, its first child, its first child, and so on, never comes back
from the children of a node to its siblings, and the call after the last of the last children does not return.  An end whose first key is
missing is ignored. -/
theorem C176_stuck_partial (root : UNode α) (stop : Option (List Bytes)) (i : RangeIter α) (h : RangeIter.new root stop = some i)
    (hs : NoEnd root stop) (hk : root.kids ≠ []) (cs : List IterCall) :
    i.run cs = stuckRun ((root :: trailAll root.kids).map UNode.entry) cs := by
  obtain ⟨e, rfl⟩ := new_noEnd h hs
  have hk' : root.kids.length ≠ 0 := by simpa using hk
  induction cs with
  | nil => rfl
  | cons c cs ih =>
    cases c
    · simp only [RangeIter.run, RangeIter.call, RangeIter.next, RangeIter.nextBody, RangeIter.checkEnd, RangeIter.finish, List.length_nil, true_or, if_true,
        ne_eq, not_true, if_false, if_pos hk', List.map_cons, stuckRun]
      congr 1
      exact stuck_run cs _ rfl rfl _ _ rfl
    · simp only [RangeIter.run, RangeIter.call, RangeIter.hasNext, RangeIter.checkEnd, List.length_nil, true_or, if_true]
      rw [ih]
      simp [stuckRun]
    · simp only [RangeIter.run, RangeIter.call, RangeIter.peek, RangeIter.peekBody, RangeIter.checkEnd, List.length_nil, true_or, if_true, ne_eq, not_true,
        if_false]
      rw [ih]
      simp [stuckRun]

/-- C176, exactly, for a root without children: the root is returned forever. -/
theorem C176_leaf_partial (root : UNode α) (stop : Option (List Bytes)) (i : RangeIter α) (h : RangeIter.new root stop = some i)
    (hk : root.kids = []) (cs : List IterCall) :
    i.run cs = cs.map fun c => if c = .hasNext then .bool true else .yield root.entry := by
  have hs : NoEnd root stop := by
    rintro k ks - ⟨c, hc⟩
    cases hc with
    | child _ c _ _ hm _ => simp [hk] at hm
  obtain ⟨e, rfl⟩ := new_noEnd h hs
  induction cs with
  | nil => rfl
  | cons c cs ih =>
    cases c
    · simp only [RangeIter.run, RangeIter.call, RangeIter.next, RangeIter.nextBody, RangeIter.checkEnd, RangeIter.finish, List.length_nil, true_or, if_true,
        ne_eq, not_true, if_false, hk, List.map_cons]
      rw [ih]
      rfl
    · simp only [RangeIter.run, RangeIter.call, RangeIter.hasNext, RangeIter.checkEnd, List.length_nil, true_or, if_true, List.map_cons]
      rw [ih]
      rfl
    · simp only [RangeIter.run, RangeIter.call, RangeIter.peek, RangeIter.peekBody, RangeIter.checkEnd, List.length_nil, true_or, if_true, ne_eq, not_true,
        if_false, List.map_cons]
      rw [ih]
      rfl

theorem stuckRun_never {β : Type} (l : List β) (cs : List IterCall) : WalkRes.nil ∉ stuckRun l cs ∧ WalkRes.bool false ∉ stuckRun l cs := by
  induction cs generalizing l with
  | nil => rcases l <;> simp [stuckRun]
  | cons c cs ih =>
    rcases l with - | ⟨b, l⟩ <;> cases c <;> simp [stuckRun, ih]

/-- C176: it never ends: `Next` never returns nil and `HasNext` is never false. -/
theorem C176_never_ends_partial (root : UNode α) (stop : Option (List Bytes)) (i : RangeIter α) (h : RangeIter.new root stop = some i)
    (hs : NoEnd root stop) (cs : List IterCall) : WalkRes.nil ∉ i.run cs ∧ WalkRes.bool false ∉ i.run cs := by
  by_cases hk : root.kids = []
  · rw [C176_leaf_partial root stop i h hk]
    constructor
    · simp only [List.mem_map, not_exists, not_and]
      intro c _
      split <;> simp
    · simp only [List.mem_map, not_exists, not_and]
      intro c _
      split <;> simp
  · rw [C176_stuck_partial root stop i h hs hk]
    exact stuckRun_never _ _

theorem sampleTrie_noEnd : NoEnd sampleTrie (some [[99]]) := by
  rintro k ks h ⟨c, hc⟩
  cases h
  generalize hks : [([99] : Bytes)] = ks at hc
  cases hc with
  | here => cases hks
  | child _ c _ _ hm _ =>
    simp only [sampleTrie, UNode.kids, List.mem_cons, List.not_mem_nil, or_false] at hm
    rcases hm with rfl | rfl | rfl <;> simp [UNode.nodeKey] at hks

example := C176_stuck_partial sampleTrie none _ rfl (by simp [NoEnd]) (by simp [sampleTrie, UNode.kids]) [.next, .next, .hasNext, .peek]
example : ∃ i, RangeIter.new sampleTrie none = some i ∧ i.run [.next, .next, .next, .next, .next, .hasNext, .next, .next] =
    [.yield ([], 0), .yield ([[97]], 1), .yield ([[98]], 2), .yield ([[98], [99]], 3), .yield ([[98], [100]], 4), .bool true, .hang] :=
  ⟨_, rfl, by decide⟩
example := C176_leaf_partial (.node [] [] 3 [] : UNode Nat) none _ rfl rfl [.next, .next]
example := C176_never_ends_partial sampleTrie (some [[99]]) _ rfl sampleTrie_noEnd [.next, .next]

/-- C176 is false. -/
theorem C176_refuted : ¬ RangeVisitsAll Nat := by
  intro h
  have := h sampleTrie _ [.next, .next, .next, .next, .next, .next] rfl
  revert this
  decide

end Poodle.Props
