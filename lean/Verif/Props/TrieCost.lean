import Verif.Model.TrieCost
import Verif.Props.TrieNodes
import Verif.Props.AvlCost

/-
Property C221: the work of a lookup in a trie (/repo/src/util/trie_util.go:554-576).
-/

namespace Poodle.Props
open Poodle Spec
variable {α : Type}

/-! ### C221 Lookups in a trie take logarithmic time per sub key -/

/-- The comparisons of a lookup that has to look among `l` children, at each of the nodes on its way: two for each level of a balanced
tree. -/
noncomputable def levels (l : Int) : ℝ := Real.logb Real.goldenRatio ((l : ℝ) + 1)

theorem levels_mono {a b : Int} (ha : 0 ≤ a) (h : a ≤ b) : levels a ≤ levels b := by
  have h1 : (0 : ℝ) ≤ (a : ℝ) := by exact_mod_cast ha
  have h2 : (a : ℝ) ≤ (b : ℝ) := by exact_mod_cast h
  exact Real.logb_le_logb_of_le Real.one_lt_goldenRatio (by linarith) (by linarith)

/-- The nodes whose children are looked at on the way down along some sub keys, where `child` answers for single sub keys: it ends after the
last sub key or at the first that is not found. -/
inductive Way (child : Nat → Bytes → Res Nat) : Nat → List Bytes → List Nat → Prop
  | done (n : Nat) : Way child n [] []
  | missing (n : Nat) (k : Bytes) (ks : List Bytes) : (∀ c, child n k ≠ .ok c) → Way child n (k :: ks) [n]
  | step (n : Nat) (k : Bytes) (ks : List Bytes) (c : Nat) (ns : List Nat) :
      child n k = .ok c → Way child c ks ns → Way child n (k :: ks) (n :: ns)

/-- The number of children of a node (0 for what is no node). -/
def childrenOf (h : TMem α) (n : Nat) : Int := match h[n]? with
  | none => 0
  | some t => t.childSize

theorem getChildW_spec {N : Nat} {h : TMem α} (hh : GoodMem N h) (n : Nat) (k : Bytes) :
    (h.getChildW n k).res = h.getChild n k ∧ ((h.getChildW n k).calls : ℝ) ≤ 2 * levels (childrenOf h n) ∧
      ((h.getChildW n k).links : ℝ) ≤ levels (childrenOf h n) + 1 := by
  unfold TMem.getChildW TMem.getChild childrenOf
  cases e : h[n]? with
  | none =>
    have h0 : levels 0 = 0 := by simp [levels]
    simp only [h0]
    exact ⟨trivial, by norm_num, by norm_num⟩
  | some t =>
    have ht := hh n t e
    have hl := height_le_log t.children ht.good
    have hr := map_getW_res (ops := childOps) t.children k
    obtain ⟨g1, g2⟩ := getW_bound (ops := childOps) k t.children.root
    have g1' : ((t.children.root.getW childOps k).calls : ℝ) ≤ 2 * (height t.children.root : ℝ) := by exact_mod_cast g1
    have g2' : ((t.children.root.getW childOps k).links : ℝ) ≤ (height t.children.root : ℝ) := by exact_mod_cast g2
    have e1 : (t.children.getW childOps k).calls = (t.children.root.getW childOps k).calls := by simp [SortedMap.getW, Work.more]
    have e2 : (t.children.getW childOps k).links = (t.children.root.getW childOps k).links := by simp [SortedMap.getW, Work.more]
    simp only [Work.more, hr, Nat.add_zero, e1, e2]
    refine ⟨rfl, ?_, ?_⟩
    · unfold levels TNode.childSize; linarith
    · unfold levels TNode.childSize; push_cast; linarith

/-- C221: after any history of calls on trie nodes, a lookup of the sub keys `ks` from any node compares at most twice the logarithm (to the
golden ratio) of the number of children of each node it comes through, and these are the nodes on the way to what is looked up. -/
theorem C221_lookup_cost (enc : α → Res Bytes) (os : List (TOp α)) (hos : ∀ o ∈ os, KeyFits o) (hN : os.length < 2 ^ 63) (n : Nat)
    (ks : List Bytes) :
    let h := nodesAfter enc os
    (h.findNodeW n ks).res = h.findNode n ks ∧ ∃ ns, Way h.getChild n ks ns ∧
      ((h.findNodeW n ks).calls : ℝ) ≤ (ns.map fun i => 2 * levels (childrenOf h i)).sum ∧
      ((h.findNodeW n ks).links : ℝ) ≤ (ns.map fun i => levels (childrenOf h i) + 1).sum := by
  intro h
  have hh : GoodMem os.length h := nodesAfter_good enc os hos hN
  induction ks generalizing n with
  | nil => exact ⟨rfl, [], .done n, by simp [TMem.findNodeW], by simp [TMem.findNodeW]⟩
  | cons k ks ih =>
    obtain ⟨w1, w2, w3⟩ := getChildW_spec hh n k
    unfold TMem.findNodeW TMem.findNode
    rcases hw : h.getChildW n k with ⟨a, b, r⟩
    rw [hw] at w1 w2 w3
    simp only at w1 w2 w3
    rw [← w1]
    cases r with
    | ok c =>
      obtain ⟨i1, ns, i2, i3, i4⟩ := ih c
      refine ⟨by simpa [Work.more] using i1, n :: ns, .step n k ks c ns w1.symm i2, ?_, ?_⟩
      · simp only [Work.more, List.map_cons, List.sum_cons]; push_cast; linarith
      · simp only [Work.more, List.map_cons, List.sum_cons]; push_cast; linarith
    | err => exact ⟨rfl, [n], .missing n k ks (by simp [← w1]), by simpa using w2, by simpa using w3⟩
    | panic => exact ⟨rfl, [n], .missing n k ks (by simp [← w1]), by simpa using w2, by simpa using w3⟩

/-- C221, in terms of the length of the key: if no node has more than `m` children, a lookup of `l` sub keys takes at most
`2 l log (m + 1)` comparisons. -/
theorem C221_by_length (enc : α → Res Bytes) (os : List (TOp α)) (hos : ∀ o ∈ os, KeyFits o) (hN : os.length < 2 ^ 63) (n : Nat)
    (ks : List Bytes) (m : Nat) (hm : ∀ i, childrenOf (nodesAfter enc os) i ≤ m) :
    (((nodesAfter enc os).findNodeW n ks).calls : ℝ) ≤ 2 * ks.length * levels m ∧
      (((nodesAfter enc os).findNodeW n ks).links : ℝ) ≤ ks.length * (levels m + 1) := by
  obtain ⟨-, ns, h1, h2, h3⟩ := C221_lookup_cost enc os hos hN n ks
  have hh : GoodMem os.length (nodesAfter enc os) := nodesAfter_good enc os hos hN
  have h0 : ∀ i, 0 ≤ childrenOf (nodesAfter enc os) i := by
    intro i
    unfold childrenOf
    cases e : (nodesAfter enc os)[i]? with
    | none => simp
    | some t =>
      have := (hh i t e).good.size
      simp only [TNode.childSize]
      omega
  have hl : ∀ i, levels (childrenOf (nodesAfter enc os) i) ≤ levels m := fun i => levels_mono (h0 i) (hm i)
  have hp : 0 ≤ levels m := by
    have : levels 0 ≤ levels m := levels_mono (le_refl _) (by omega)
    have e : levels 0 = 0 := by simp [levels]
    linarith
  have hlen : ns.length ≤ ks.length := by
    clear h2 h3
    induction h1 with
    | done => simp
    | missing => simp
    | step n k ks c ns _ _ ih => simpa using ih
  have hsum : ∀ (f : Nat → ℝ) (b : ℝ), 0 ≤ b → (∀ i, f i ≤ b) → (ns.map f).sum ≤ ks.length * b := by
    intro f b hb hf
    have : (ns.map f).sum ≤ ns.length * b := by
      clear h1 h2 h3 hlen
      induction ns with
      | nil => simp
      | cons i ns ih => simp only [List.map_cons, List.sum_cons, List.length_cons]; push_cast; have := hf i; linarith
    have h' : (ns.length : ℝ) * b ≤ (ks.length : ℝ) * b := mul_le_mul_of_nonneg_right (by exact_mod_cast hlen) hb
    linarith
  constructor
  · have := hsum (fun i => 2 * levels (childrenOf (nodesAfter enc os) i)) (2 * levels m) (by linarith) (fun i => by have := hl i; linarith)
    exact le_trans h2 (le_of_le_of_eq this (by ring))
  · have := hsum (fun i => levels (childrenOf (nodesAfter enc os) i) + 1) (levels m + 1) (by linarith) (fun i => by have := hl i; linarith)
    exact le_trans h3 this

/-- A root with three children, the second of which has one. -/
def smallTrie : List (TOp Bytes) := [.new none none none, .new (some 0) (some [1]) (some [9]), .new (some 0) (some [2]) none, .new (some 0) (some [3]) none,
  .new (some 2) (some [7]) (some [8]), .put 0 [1] 1, .put 0 [2] 2, .put 0 [3] 3, .put 2 [7] 4]

example := C221_lookup_cost Res.ok smallTrie (by simp [smallTrie, KeyFits, Slice.bytes]) (by decide) 0 [[2], [7]]

example : (((nodesAfter Res.ok smallTrie).findNodeW 0 [[2], [7]]).calls, ((nodesAfter Res.ok smallTrie).findNodeW 0 [[2], [7]]).links,
    (nodesAfter Res.ok smallTrie).findNode 0 [[2], [7]]) = (2, 2, .ok 4) ∧
    ((nodesAfter Res.ok smallTrie).findNodeW 0 [[3], [7]]).calls = 3 := by decide +kernel

theorem smallTrie_children (i : Nat) : childrenOf (nodesAfter Res.ok smallTrie) i ≤ (3 : Nat) := by
  have hl : (nodesAfter Res.ok smallTrie).length = 5 := by decide +kernel
  have h5 : ∀ i < 5, childrenOf (nodesAfter Res.ok smallTrie) i ≤ (3 : Nat) := by decide +kernel
  rcases Nat.lt_or_ge i 5 with h | h
  · exact h5 i h
  · unfold childrenOf
    rw [List.getElem?_eq_none (by omega)]
    simp

example := C221_by_length Res.ok smallTrie (by simp [smallTrie, KeyFits, Slice.bytes]) (by decide) 0 [[2], [7]] 3 smallTrie_children

end Poodle.Props
