import Verif.Spec.TrieHeap
import Verif.Props.SortedMap
import Verif.Props.Trie

/-
Properties C165-C172: nodes of tries as objects (/repo/src/util/trie_util.go).
-/

namespace Poodle.Props
open Poodle Spec
variable {α : Type}

theorem childOps_eq : childOps = bytesOps := rfl

theorem treeEntries_eq {K V : Type} (t : Tree K V) : treeEntries t = entries t := by
  induction t with
  | nil => rfl
  | node k v b l r ihl ihr => simp [treeEntries, entries, ihl, ihr]

/-- The node as the specification sees it. -/
def absNode (t : TNode α) : ANode α :=
  ⟨t.parent, t.nodeKey, t.data, contents compare t.children, t.offset, if t.encoded then t.buf else none⟩

/-- The nodes as the specification sees them. -/
def absMem (h : TMem α) : List (ANode α) := h.map absNode

/-- What is true of every node, if at most `N` calls were made. -/
structure GoodNode (N i : Nat) (t : TNode α) : Prop where
  good : GoodMap compare t.children
  size : (entries t.children.root).length ≤ N
  parent : ∀ p, t.parent = some p → p < i
  root : t.parent = none → t.nodeKey = none
  key : t.nodeKey.bytes.length < 2 ^ 63

/-- What is true of all nodes. -/
def GoodMem (N : Nat) (h : TMem α) : Prop := ∀ i t, h[i]? = some t → GoodNode N i t

/-- A key given to `NewTrieNode` is a slice that fits into memory. -/
def KeyFits : TOp α → Prop
  | .new _ k _ => k.bytes.length < 2 ^ 63
  | _ => True

theorem GoodNode.mono {N M i : Nat} {t : TNode α} (h : GoodNode N i t) (hNM : N ≤ M) : GoodNode M i t :=
  ⟨h.good, h.size.trans hNM, h.parent, h.root, h.key⟩

theorem GoodMem.mono {N M : Nat} {h : TMem α} (hh : GoodMem N h) (hNM : N ≤ M) : GoodMem M h := fun i t e => (hh i t e).mono hNM

theorem GoodMem.set {N : Nat} {h : TMem α} (hh : GoodMem N h) {n : Nat} {t : TNode α} (ht : GoodNode N n t) : GoodMem N (h.set n t) := by
  intro i u e
  rw [List.getElem?_set] at e
  by_cases hi : n = i
  · subst hi
    simp only [if_true] at e
    split at e
    · cases e; exact ht
    · cases e
  · rw [if_neg hi] at e
    exact hh i u e

theorem GoodMem.push {N : Nat} {h : TMem α} (hh : GoodMem N h) {t : TNode α} (ht : GoodNode N h.length t) : GoodMem N (h ++ [t]) := by
  intro i u e
  rw [List.getElem?_append] at e
  split at e
  · exact hh i u e
  · rename_i hi
    have : i = h.length := by
      by_contra hc
      rw [List.getElem?_eq_none (by simp; omega)] at e
      cases e
    subst this
    simp at e
    subst e
    exact ht

theorem set_same {h : TMem α} {n : Nat} {t : TNode α} (e : h[n]? = some t) : h.set n t = h := by
  obtain ⟨hl, rfl⟩ := List.getElem?_eq_some_iff.mp e
  exact List.set_getElem_self hl

theorem modify_of {β : Type} {s : List β} {n : Nat} {a : β} (f : β → β) (e : s[n]? = some a) : s.modify n f = s.set n (f a) := by
  obtain ⟨hl, rfl⟩ := List.getElem?_eq_some_iff.mp e
  apply List.ext_getElem? 
  intro i
  rw [List.getElem?_modify, List.getElem?_set]
  by_cases hi : n = i
  · subst hi
    simp [hl]
  · simp [hi]

theorem absMem_get (h : TMem α) (n : Nat) : (absMem h)[n]? = h[n]?.map absNode := by simp [absMem]

theorem hasSize_abs {N i : Nat} {t : TNode α} (ht : GoodNode N i t) : (absNode t).kids.HasSize compare t.childSize.toNat := by
  have := bytesOps_lawful.1.trans
  have e : t.childSize.toNat = (entries t.children.root).length := by rw [TNode.childSize, ht.good.size]; simp
  rw [e]
  exact lookL_hasSize ht.good.increasing

theorem insL_last {l : List (Bytes × Nat)} {k : Bytes} {v : Nat} (h : ∀ e ∈ l, compare e.1 k = .lt) : insL compare k v l = l ++ [(k, v)] := by
  have h1 : l.filter (fun e => compare e.1 k = .lt) = l := List.filter_eq_self.mpr (fun e he => by simp [h e he])
  have h2 : l.filter (fun e => compare e.1 k = .gt) = [] := List.filter_eq_nil_iff.mpr (fun e he => by simp [h e he])
  rw [insL, h1, h2]

theorem putEntries_spec (es : List (Bytes × Nat)) (m : SortedMap Bytes Nat) (hm : GoodMap compare m)
    (hi : Increasing compare (entries m.root ++ es)) :
    ∃ m', putEntries m es = .ok m' ∧ GoodMap compare m' ∧ entries m'.root = entries m.root ++ es := by
  induction es generalizing m with
  | nil => exact ⟨m, rfl, hm, by simp⟩
  | cons e es ih =>
    obtain ⟨k, c⟩ := e
    have hlt : ∀ e ∈ entries m.root, compare e.1 k = .lt := by
      intro e he
      exact (List.pairwise_append.mp hi).2.2 e he (k, c) (by simp)
    rcases putNode_spec bytesOps_lawful.1 m hm k c with ⟨⟨e, he, h⟩, -⟩ | ⟨m', h1, h2, h3⟩
    · have := bytesOps_lawful.2 e.1 k h
      rw [hlt e he] at this
      cases this
    · rw [insL_last hlt] at h3
      obtain ⟨m'', g1, g2, g3⟩ := ih m' h2 (by rw [h3]; simpa using hi)
      refine ⟨m'', ?_, g2, by rw [g3, h3]; simp⟩
      rw [putEntries, childOps_eq, SortedMap.put, h1]
      exact g1

theorem freshNode_good {N i : Nat} {p : Option Nat} {k : Slice} {d : Option α} (hp : ∀ q, p = some q → q < i) (hk : k.bytes.length < 2 ^ 63) :
    GoodNode N i (freshNode p k d) := by
  refine ⟨new_good, Nat.zero_le _, hp, fun h => by simp only [freshNode] at h ⊢; simp [h], ?_⟩
  simp only [freshNode]
  split
  · simp [Slice.bytes]
  · exact hk

theorem exec_spec (enc : α → Res Bytes) {N : Nat} (hN : N < 2 ^ 63) {h : TMem α} (hh : GoodMem N h) (o : TOp α) (ho : KeyFits o) :
    GoodMem (N + 1) (h.exec enc o).1 ∧
      (((h.exec enc o).2 ≠ .ok () ∧ (h.exec enc o).1 = h) ∨
        ((h.exec enc o).2 = .ok () ∧ ANode.Completes enc (absMem h) o (absMem (h.exec enc o).1))) := by
  have hh' : GoodMem (N + 1) h := hh.mono (by omega)
  have tr := bytesOps_lawful.1.trans
  cases o with
  | new p k d =>
    have hk : k.bytes.length < 2 ^ 63 := ho
    rcases p with - | p
    · refine ⟨hh'.push (freshNode_good (by simp) hk), .inr ⟨rfl, ?_⟩⟩
      simp [ANode.Completes, ANode.step, TMem.exec, absMem, absNode, freshNode, contents_new]
    · by_cases hp : p < h.length
      · simp only [TMem.exec, if_pos hp]
        refine ⟨hh'.push (freshNode_good (by simpa using hp) hk), .inr ⟨trivial, ?_⟩⟩
        simp [ANode.Completes, ANode.step, absMem, absNode, freshNode, contents_new]
      · simp only [TMem.exec, if_neg hp]
        exact ⟨hh', .inl ⟨by simp, trivial⟩⟩
  | put n k c =>
    by_cases hc : c < h.length
    swap
    · simp only [TMem.exec, if_neg hc]
      exact ⟨hh', .inl ⟨by simp, trivial⟩⟩
    simp only [TMem.exec, if_pos hc, TMem.putChild]
    rcases e : h[n]? with - | t
    · exact ⟨hh', .inl ⟨by simp, rfl⟩⟩
    have ht := hh n t e
    rw [childOps_eq]
    rcases putNode_spec bytesOps_lawful.1 t.children ht.good k c with ⟨-, h1⟩ | ⟨m', h1, h2, h3⟩
    · have h1' : t.children.put bytesOps k c = (t.children, none) := by rw [SortedMap.put, h1]; rfl
      simp only [h1']
      rw [set_same e]
      exact ⟨hh', .inl ⟨by simp, rfl⟩⟩
    · have h1' : ∃ x, t.children.put bytesOps k c = (m', some x) := by rw [SortedMap.put, h1]; exact ⟨_, rfl⟩
      obtain ⟨x, h1'⟩ := h1'
      simp only [h1']
      refine ⟨hh'.set ⟨h2, ?_, ht.parent, ht.root, ht.key⟩, .inr ⟨trivial, ?_⟩⟩
      · rw [h3, length_insL ht.good.increasing]
        have := ht.size
        split <;> omega
      · simp only [ANode.Completes, ANode.step]
        rw [modify_of (a := absNode t) _ (by rw [absMem_get, e]; rfl)]
        simp only [absMem, List.map_set]
        congr 1
        simp only [absNode, contents]
        rw [h3, lookL_insL ht.good.increasing]
  | remove n k =>
    simp only [TMem.exec, TMem.removeChild]
    rcases e : h[n]? with - | t
    · exact ⟨hh', .inl ⟨by simp, rfl⟩⟩
    have ht := hh n t e
    rw [childOps_eq]
    rcases removeNode_spec bytesOps_lawful.1 bytesOps_lawful.2 t.children ht.good k with ⟨-, h1⟩ | ⟨m', h1, h2, h3⟩
    · have h1' : t.children.remove bytesOps k = (t.children, none) := by rw [SortedMap.remove, h1]; rfl
      simp only [h1']
      rw [set_same e]
      exact ⟨hh', .inl ⟨by simp, rfl⟩⟩
    · have h1' : ∃ x, t.children.remove bytesOps k = (m', some x) := by rw [SortedMap.remove, h1]; exact ⟨_, rfl⟩
      obtain ⟨x, h1'⟩ := h1'
      simp only [h1']
      refine ⟨hh'.set ⟨h2, ?_, ht.parent, ht.root, ht.key⟩, .inr ⟨trivial, ?_⟩⟩
      · rw [h3, remL]
        have := ht.size
        have := List.length_filter_le (fun e => decide (compare e.1 k ≠ .eq)) (entries t.children.root)
        omega
      · simp only [ANode.Completes, ANode.step]
        rw [modify_of (a := absNode t) _ (by rw [absMem_get, e]; rfl)]
        simp only [absMem, List.map_set]
        congr 1
        simp only [absNode, contents]
        rw [h3, lookL_remL ht.good.increasing]
  | setValue n d =>
    simp only [TMem.exec, TMem.setValue]
    rcases e : h[n]? with - | t
    · exact ⟨hh', .inl ⟨by simp, rfl⟩⟩
    have ht := hh' n t e
    refine ⟨hh'.set ⟨ht.good, ht.size, ht.parent, ht.root, ht.key⟩, .inr ⟨rfl, ?_⟩⟩
    simp only [ANode.Completes, ANode.step]
    rw [modify_of (a := absNode t) _ (by rw [absMem_get, e]; rfl)]
    simp only [absMem, List.map_set]
    rfl
  | setOffset n d =>
    simp only [TMem.exec, TMem.setOffset]
    rcases e : h[n]? with - | t
    · exact ⟨hh', .inl ⟨by simp, rfl⟩⟩
    have ht := hh' n t e
    refine ⟨hh'.set ⟨ht.good, ht.size, ht.parent, ht.root, ht.key⟩, .inr ⟨rfl, ?_⟩⟩
    simp only [ANode.Completes, ANode.step]
    rw [modify_of (a := absNode t) _ (by rw [absMem_get, e]; rfl)]
    simp only [absMem, List.map_set]
    rfl
  | encode n =>
    simp only [TMem.exec, TMem.encode]
    rcases e : h[n]? with - | t
    · exact ⟨hh', .inl ⟨by simp, rfl⟩⟩
    have ht := hh n t e
    have ht' := hh' n t e
    rcases hp : t.parent with - | pi
    · simp only [hp, Option.bind_none]
      exact ⟨hh', .inl ⟨by simp, trivial⟩⟩
    rcases hp' : h[pi]? with - | p
    · simp only [hp, Option.bind_some, hp']
      exact ⟨hh', .inl ⟨by simp, trivial⟩⟩
    rcases hd : t.data with - | d
    · simp only [hp, Option.bind_some, hp', hd]
      exact ⟨hh', .inl ⟨by simp, trivial⟩⟩
    rcases hb : enc d with b | - | -
    · simp only [hp, Option.bind_some, hp', hd, hb]
      refine ⟨hh'.set ⟨ht'.good, ht'.size, fun q hq => ht'.parent q (hp.trans hq), fun hq => by simp at hq, ht'.key⟩, .inr ⟨trivial, ?_⟩⟩
      have hs : t.childSize.toNat < 2 ^ 64 := by
        rw [TNode.childSize, ht.good.size]
        have := ht.size
        simp only [Int.toNat_natCast]
        omega
      refine ⟨absNode t, pi, absNode p, d, b, t.childSize.toNat, _, by rw [absMem_get, e]; rfl, hp, by rw [absMem_get, hp']; rfl, hd, hb,
        hasSize_abs ht, ⟨_, _, _, (putUvarint_spec (x := t.nodeKey.bytes.length) (by have := ht.key; omega)).1,
          (putUvarint_spec (x := p.offset.toNat) (by have := p.offset.toNat_lt; omega)).1, (putUvarint_spec hs).1⟩, ?_⟩
      simp only [absMem, List.map_set, absNode, hp, hd]
      rfl
    · simp only [hp, Option.bind_some, hp', hd, hb]
      exact ⟨hh', .inl ⟨by simp, trivial⟩⟩
    · simp only [hp, Option.bind_some, hp', hd, hb]
      exact ⟨hh', .inl ⟨by simp, trivial⟩⟩
  | copy n =>
    simp only [TMem.exec, TMem.copy]
    rcases e : h[n]? with - | t
    · exact ⟨hh', .inl ⟨by simp, rfl⟩⟩
    have ht := hh n t e
    have hn : n < h.length := (List.getElem?_eq_some_iff.mp e).1
    obtain ⟨m', h1, h2, h3⟩ := putEntries_spec (entries t.children.root) .new new_good (by simpa [SortedMap.new, entries] using ht.good.increasing)
    simp only [treeEntries_eq, h1]
    have h3 : entries m'.root = entries t.children.root := by simpa [SortedMap.new, entries] using h3
    have hkey : (if t.parent.isNone = true then none else t.nodeKey) = t.nodeKey := by
      rcases hp : t.parent with - | p
      · simp [ht.root hp]
      · simp
    refine ⟨hh'.push ⟨h2, by simp only; rw [h3]; have := ht.size; omega, fun p hp => Nat.lt_trans (ht.parent p hp) hn,
      fun hp => by simp only [freshNode]; rw [hkey]; exact ht.root hp, by simp only [freshNode]; rw [hkey]; exact ht.key⟩, .inr ⟨trivial, ?_⟩⟩
    simp only [ANode.Completes, ANode.step, absMem_get, e, Option.map_some]
    simp only [absMem, List.map_append, List.map_cons, List.map_nil]
    congr 2
    simp only [absNode, freshNode, hkey, contents, h3]
    simp

theorem run_spec (enc : α → Res Bytes) (os : List (TOp α)) (hos : ∀ o ∈ os, KeyFits o) (N : Nat) (hN : N + os.length < 2 ^ 63) (h : TMem α)
    (hh : GoodMem N h) :
    GoodMem (N + os.length) (h.run enc os).1 ∧ ANode.Runs enc (absMem h) os (h.run enc os).2 (absMem (h.run enc os).1) := by
  induction os generalizing h N with
  | nil => exact ⟨hh, .nil _⟩
  | cons o os ih =>
    rw [List.length_cons] at hN
    obtain ⟨h1, h2⟩ := exec_spec enc (by omega) hh o (hos o (by simp))
    obtain ⟨g1, g2⟩ := ih (fun o ho => hos o (by simp [ho])) (N + 1) (by omega) _ h1
    simp only [TMem.run]
    refine ⟨by rw [List.length_cons]; exact g1.mono (by omega), ?_⟩
    rcases h2 with ⟨hr, he⟩ | ⟨hr, hc⟩
    · refine .fail _ _ _ _ _ _ hr ?_
      rwa [he] at g2 ⊢
    · rw [hr]
      exact .ok _ _ _ _ _ _ hc g2

/-- The nodes after a history of calls. -/
def nodesAfter (enc : α → Res Bytes) (os : List (TOp α)) : TMem α := (TMem.run enc [] os).1

theorem nodesAfter_good (enc : α → Res Bytes) (os : List (TOp α)) (hos : ∀ o ∈ os, KeyFits o) (hN : os.length < 2 ^ 63) :
    GoodMem os.length (nodesAfter enc os) := by
  have := (run_spec enc os hos 0 (by omega) [] (fun i t e => by simp at e)).1
  rwa [Nat.zero_add] at this

/-! ### C165 Children by key -/

/-- The full claim of C165: a node finds its children by key; a key without child is no reason to panic. -/
def ChildLookup (α : Type) : Prop := ∀ (enc : α → Res Bytes) (os : List (TOp α)) (n : Nat) (t : TNode α) (k : Bytes),
  (nodesAfter enc os)[n]? = some t → (nodesAfter enc os).getChild n k ≠ .panic

/-- C165: in every history of calls on nodes (of which those that panic or report an error are recovered and have no effect) the nodes are
what the specification says: each has its own finite map of children, the parent and the key it was created with, its last value and
offset, and the bytes of its last `Encode`. -/
theorem C165_nodes_partial (enc : α → Res Bytes) (os : List (TOp α)) (hos : ∀ o ∈ os, KeyFits o) (hN : os.length < 2 ^ 63) :
    ANode.Runs enc [] os (TMem.run enc [] os).2 (absMem (nodesAfter enc os)) :=
  (run_spec enc os hos 0 (by omega) [] (fun i t e => by simp at e)).2

theorem blocked_of {N i : Nat} {t : TNode α} (ht : GoodNode N i t) {k : Bytes}
    (h : ∃ e ∈ entries t.children.root, bytesOps.compare e.1 k = none) : Blocked (absNode t) k := by
  obtain ⟨e, he, h⟩ := h
  have := bytesOps_lawful.1.trans
  rw [bytesOps_compare] at h
  split at h
  · rename_i hp
    refine ⟨e.1, ?_, hp.1, hp.2⟩
    simp only [absNode, contents, lookL, Option.isSome_map]
    rw [findL_isSome_iff]
    exact ⟨e, he, Std.ReflOrd.compare_self⟩
  · cases h

/-- C165, lookups: `GetChild` returns the child of the finite map; for a key without child it panics; and it may also panic if the key
of another child strictly continues the key. -/
theorem C165_get_partial (enc : α → Res Bytes) (os : List (TOp α)) (hos : ∀ o ∈ os, KeyFits o) (hN : os.length < 2 ^ 63) (n : Nat)
    (a : ANode α) (ha : (absMem (nodesAfter enc os))[n]? = some a) (k : Bytes) :
    (∀ c, (nodesAfter enc os).getChild n k = .ok c → a.kids k = some c) ∧
    (¬ Blocked a k → (nodesAfter enc os).getChild n k = match a.kids k with
      | some c => .ok c
      | none => .panic) ∧
    (nodesAfter enc os).getChild n k ≠ .err := by
  rw [absMem_get] at ha
  rcases e : (nodesAfter enc os)[n]? with - | t
  · rw [e] at ha; cases ha
  rw [e] at ha
  obtain rfl : absNode t = a := by simpa using ha
  have ht := nodesAfter_good enc os hos hN n t e
  simp only [TMem.getChild, e, childOps_eq]
  rcases get_step bytesOps_lawful.1 t.children ht.good k with ⟨hb, h⟩ | h
  · rw [h]
    exact ⟨by simp, fun hnb => absurd (blocked_of ht hb) hnb, by simp⟩
  · rw [h]
    have ek : (absNode t).kids k = contents compare t.children k := rfl
    rw [ek]
    rcases contents compare t.children k with - | c <;> simp

/-- C165, which calls fail: `PutChild` and `RemoveChild` only if the key of another child strictly continues the key; creating, copying,
`SetValue` and `SetOffset` never. -/
theorem C165_fails_partial (enc : α → Res Bytes) (os : List (TOp α)) (hos : ∀ o ∈ os, KeyFits o) (hN : os.length < 2 ^ 63) (n : Nat)
    (a : ANode α) (ha : (absMem (nodesAfter enc os))[n]? = some a) (k : Bytes) (c : Nat) (hc : c < (nodesAfter enc os).length)
    (d : Option α) (off : UInt32) :
    (¬ Blocked a k → ((nodesAfter enc os).exec enc (.put n k c)).2 = .ok () ∧ ((nodesAfter enc os).exec enc (.remove n k)).2 = .ok ()) ∧
    ((nodesAfter enc os).exec enc (.new (some n) (some k) d)).2 = .ok () ∧ ((nodesAfter enc os).exec enc (.copy n)).2 = .ok () ∧
    ((nodesAfter enc os).exec enc (.setValue n d)).2 = .ok () ∧ ((nodesAfter enc os).exec enc (.setOffset n off)).2 = .ok () := by
  rw [absMem_get] at ha
  rcases e : (nodesAfter enc os)[n]? with - | t
  · rw [e] at ha; cases ha
  rw [e] at ha
  obtain rfl : absNode t = a := by simpa using ha
  have ht := nodesAfter_good enc os hos hN n t e
  have hn : n < (nodesAfter enc os).length := (List.getElem?_eq_some_iff.mp e).1
  refine ⟨fun hb => ⟨?_, ?_⟩, ?_, ?_, ?_, ?_⟩
  · simp only [TMem.exec, if_pos hc, TMem.putChild, e, childOps_eq]
    rcases put_step bytesOps_lawful.1 t.children ht.good k c with ⟨h, -⟩ | ⟨m', h, -⟩
    · exact absurd (blocked_of ht h) hb
    · rw [h]
  · simp only [TMem.exec, TMem.removeChild, e, childOps_eq]
    rcases remove_step bytesOps_lawful.1 bytesOps_lawful.2 t.children ht.good k with ⟨h, -⟩ | ⟨m', h, -⟩
    · exact absurd (blocked_of ht h) hb
    · rw [h]
  · simp only [TMem.exec, if_pos hn]
  · simp only [TMem.exec, TMem.copy, e, treeEntries_eq]
    obtain ⟨m', h1, -⟩ := putEntries_spec (entries t.children.root) .new new_good
      (by simpa [SortedMap.new, entries] using ht.good.increasing)
    rw [h1]
  · simp only [TMem.exec, TMem.setValue, e]
  · simp only [TMem.exec, TMem.setOffset, e]

/-- A history: a root with the children "a" and "b", of which "b" has a child "c"; values are bytes. -/
def sampleNodes : List (TOp Bytes) :=
  [.new none (some []) (some [1]), .new (some 0) (some [97]) (some [2]), .put 0 [97] 1, .new (some 0) (some [98]) (some [3]), .put 0 [98] 2,
    .new (some 2) (some [99]) (some [4]), .put 2 [99] 3]

theorem sampleNodes_fit : ∀ o ∈ sampleNodes, KeyFits o := by
  simp [sampleNodes, KeyFits, Slice.bytes]

example := C165_nodes_partial Res.ok sampleNodes sampleNodes_fit (by decide)
example : (nodesAfter Res.ok sampleNodes).getChild 0 [98] = .ok 2 ∧ (nodesAfter Res.ok sampleNodes).getChild 2 [99] = .ok 3 ∧
    (nodesAfter Res.ok sampleNodes).getChild 2 [98] = .panic := by decide +kernel
example := C165_get_partial Res.ok sampleNodes sampleNodes_fit (by decide) 0 _ rfl [98]
example := C165_fails_partial Res.ok sampleNodes sampleNodes_fit (by decide) 0 _ rfl [99] 1 (by decide) none 5

/-- C165 is false: `GetChild` of a key without child panics. -/
theorem C165_refuted : ¬ ChildLookup Bytes := fun h => h Res.ok [.new none none none] 0 _ [97] rfl (by decide +kernel)

/-! ### C166 Parents -/

/-- The full claim of C166: putting a child links it to its parent, under the key it was put with. -/
def PutLinks (α : Type) : Prop := ∀ (enc : α → Res Bytes) (os : List (TOp α)) (n : Nat) (k : Bytes) (c : Nat) (t : TNode α),
  ((nodesAfter enc os).exec enc (.put n k c)).2 = .ok () → ((nodesAfter enc os).exec enc (.put n k c)).1[c]? = some t →
    t.parent = some n ∧ t.nodeKey = some k

theorem set_keeps {h : TMem α} {n i : Nat} {u u' t : TNode α} (hu : h[n]? = some u) (hp : u'.parent = u.parent) (hk : u'.nodeKey = u.nodeKey)
    (ht : h[i]? = some t) : ∃ t', (h.set n u')[i]? = some t' ∧ t'.parent = t.parent ∧ t'.nodeKey = t.nodeKey := by
  have hl := (List.getElem?_eq_some_iff.mp hu).1
  rw [List.getElem?_set]
  by_cases hi : n = i
  · subst hi
    rw [hu] at ht
    cases ht
    simp only [if_true, if_pos hl]
    exact ⟨_, rfl, hp, hk⟩
  · rw [if_neg hi]
    exact ⟨t, ht, rfl, rfl⟩

theorem push_keeps {h : TMem α} {i : Nat} {u t : TNode α} (ht : h[i]? = some t) :
    ∃ t', (h ++ [u])[i]? = some t' ∧ t'.parent = t.parent ∧ t'.nodeKey = t.nodeKey :=
  ⟨t, by rw [List.getElem?_append_left (List.getElem?_eq_some_iff.mp ht).1, ht], rfl, rfl⟩

theorem exec_keeps (enc : α → Res Bytes) (h : TMem α) (o : TOp α) {i : Nat} {t : TNode α} (ht : h[i]? = some t) :
    ∃ t', (h.exec enc o).1[i]? = some t' ∧ t'.parent = t.parent ∧ t'.nodeKey = t.nodeKey := by
  have same : ∃ t', h[i]? = some t' ∧ t'.parent = t.parent ∧ t'.nodeKey = t.nodeKey := ⟨t, ht, rfl, rfl⟩
  cases o with
  | new p k d =>
    rcases p with - | p
    · exact push_keeps ht
    · simp only [TMem.exec]
      split
      · exact push_keeps ht
      · exact same
  | put n k c =>
    simp only [TMem.exec]
    split
    · simp only [TMem.putChild]
      rcases e : h[n]? with - | u
      · exact same
      · rcases hput : u.children.put childOps k c with ⟨m, - | x⟩
        · simp only [hput]; exact set_keeps e rfl rfl ht
        · simp only [hput]; exact set_keeps e rfl rfl ht
    · exact same
  | remove n k =>
    simp only [TMem.exec, TMem.removeChild]
    rcases e : h[n]? with - | u
    · exact same
    · rcases hput : u.children.remove childOps k with ⟨m, - | x⟩
      · simp only [hput]; exact set_keeps e rfl rfl ht
      · simp only [hput]; exact set_keeps e rfl rfl ht
  | setValue n d =>
    simp only [TMem.exec, TMem.setValue]
    rcases e : h[n]? with - | u
    · exact same
    · exact set_keeps e rfl rfl ht
  | setOffset n d =>
    simp only [TMem.exec, TMem.setOffset]
    rcases e : h[n]? with - | u
    · exact same
    · exact set_keeps e rfl rfl ht
  | encode n =>
    simp only [TMem.exec, TMem.encode]
    rcases e : h[n]? with - | u
    · exact same
    · simp only
      rcases hp : u.parent.bind (h[·]?) with - | p
      · exact same
      · simp only
        rcases hd : u.data with - | d
        · exact same
        · simp only
          rcases hb : enc d with b | - | -
          · exact set_keeps e rfl rfl ht
          · exact same
          · exact same
  | copy n =>
    simp only [TMem.exec, TMem.copy]
    rcases e : h[n]? with - | u
    · exact same
    · simp only
      rcases hm : putEntries .new (treeEntries u.children.root) with m | - | -
      · exact push_keeps ht
      · exact same
      · exact same

theorem run_append (enc : α → Res Bytes) (os more : List (TOp α)) (h : TMem α) :
    (h.run enc (os ++ more)).1 = ((h.run enc os).1.run enc more).1 := by
  induction os generalizing h with
  | nil => rfl
  | cons o os ih => simp only [List.cons_append, TMem.run, ih]

theorem run_keeps (enc : α → Res Bytes) (os : List (TOp α)) (h : TMem α) {i : Nat} {t : TNode α} (ht : h[i]? = some t) :
    ∃ t', (h.run enc os).1[i]? = some t' ∧ t'.parent = t.parent ∧ t'.nodeKey = t.nodeKey := by
  induction os generalizing h t with
  | nil => exact ⟨t, ht, rfl, rfl⟩
  | cons o os ih =>
    obtain ⟨t1, h1, h2, h3⟩ := exec_keeps enc h o ht
    obtain ⟨t2, g1, g2, g3⟩ := ih _ h1
    exact ⟨t2, g1, g2.trans h2, g3.trans h3⟩

/-- C166: parent and key of a node are those it was created with, whatever it is put under later. -/
theorem C166_fixed_partial (enc : α → Res Bytes) (os more : List (TOp α)) (p : Option Nat) (k : Slice) (d : Option α)
    (hp : ∀ q, p = some q → q < (nodesAfter enc os).length) :
    ∃ t, (nodesAfter enc (os ++ [.new p k d] ++ more))[(nodesAfter enc os).length]? = some t ∧ t.parent = p ∧
      t.nodeKey = if p = none then none else k := by
  have e : (nodesAfter enc (os ++ [.new p k d])) = nodesAfter enc os ++ [freshNode p k d] := by
    rw [nodesAfter, run_append]
    rcases p with - | p
    · rfl
    · simp only [TMem.run, TMem.exec]
      exact (congrArg Prod.fst (if_pos (hp p rfl)) :)
  obtain ⟨t, h1, h2, h3⟩ := run_keeps enc more (nodesAfter enc (os ++ [.new p k d])) (i := (nodesAfter enc os).length)
    (t := freshNode p k d) (by rw [e]; simp)
  refine ⟨t, ?_, h2, ?_⟩
  · rw [← h1, nodesAfter, run_append]; rfl
  · rw [h3]
    cases p <;> simp [freshNode]

example := C166_fixed_partial Res.ok sampleNodes [.put 1 [100] 4, .remove 0 [97]] (some 2) (some [101]) none (by
  rintro q h
  have : q = 2 := by simpa using h.symm
  subst this
  decide)

/-- C166 is false: a node created without parent has none and no key after it was put. -/
theorem C166_refuted : ¬ PutLinks Bytes := by
  intro h
  have := (h Res.ok [.new none none none, .new none (some [97]) none] 0 [97] 1 _ (by decide +kernel) rfl).1
  revert this
  decide +kernel

/-! ### C167 Full keys -/

/-- The keys on the way from a node without parent down to a node. -/
inductive PathTo (s : List (ANode α)) : Nat → List Slice → Prop
  | root (n a) : s[n]? = some a → a.parent = none → PathTo s n []
  | child (n a p ks) : s[n]? = some a → a.parent = some p → PathTo s p ks → PathTo s n (ks ++ [a.key])

/-- The full claim of C167: `FullKey` is the key whose sub keys lead from the root to the node. -/
def FullKeys (α : Type) : Prop := ∀ (enc : α → Res Bytes) (os : List (TOp α)) (n : Nat) (ks : List Slice),
  PathTo (absMem (nodesAfter enc os)) n ks → ∃ k, (nodesAfter enc os).fullKey n = .ok k ∧ k.keys = ks

theorem chain_enough {N : Nat} {h : TMem α} (hh : GoodMem N h) (n : Nat) (f g : Nat) (hf : n < f) (hg : n < g) :
    h.chain f (some n) = h.chain g (some n) := by
  induction n using Nat.strong_induction_on generalizing f g with
  | _ n ih =>
    obtain ⟨f, rfl⟩ := Nat.exists_eq_succ_of_ne_zero (by omega : f ≠ 0)
    obtain ⟨g, rfl⟩ := Nat.exists_eq_succ_of_ne_zero (by omega : g ≠ 0)
    simp only [Nat.succ_eq_add_one, TMem.chain]
    rcases e : h[n]? with - | t
    · rfl
    simp only
    rcases hp : t.parent with - | p
    · simp [TMem.chain]
    · have hlt := (hh n t e).parent p hp
      rw [ih p hlt f g (by omega) (by omega)]

theorem chain_head {N : Nat} {h : TMem α} (hh : GoodMem N h) (n : Nat) (f : Nat) (hf : n < f) (hn : n < h.length) :
    ∃ rest, h.chain f (some n) = none :: rest := by
  induction n using Nat.strong_induction_on generalizing f with
  | _ n ih =>
    obtain ⟨f, rfl⟩ := Nat.exists_eq_succ_of_ne_zero (by omega : f ≠ 0)
    simp only [Nat.succ_eq_add_one, TMem.chain]
    have e : h[n]? = some h[n] := List.getElem?_eq_getElem hn
    rw [e]
    simp only
    rcases hp : h[n].parent with - | p
    · rw [(hh n _ e).root hp]
      exact ⟨[], by simp [TMem.chain]⟩
    · have hlt := (hh n _ e).parent p hp
      obtain ⟨rest, hr⟩ := ih p hlt f (by omega) (by omega)
      rw [hr]
      exact ⟨rest ++ [h[n].nodeKey], rfl⟩

/-- C167, exactly: `FullKey` panics for every node. -/
theorem C167_always_panics_partial (enc : α → Res Bytes) (os : List (TOp α)) (hos : ∀ o ∈ os, KeyFits o) (hN : os.length < 2 ^ 63) (n : Nat)
    (hn : n < (nodesAfter enc os).length) : (nodesAfter enc os).fullKey n = .panic := by
  obtain ⟨rest, h⟩ := chain_head (nodesAfter_good enc os hos hN) n _ hn hn
  rw [TMem.fullKey, h]
  rfl

example := C167_always_panics_partial Res.ok sampleNodes sampleNodes_fit (by decide) 3 (by decide)

/-- C167 is false. -/
theorem C167_refuted : ¬ FullKeys Bytes := by
  intro h
  obtain ⟨k, hk, -⟩ := h Res.ok sampleNodes 3 _ (.child 3 _ 2 _ rfl rfl (.child 2 _ 0 _ rfl rfl (.root 0 _ rfl rfl)))
  rw [C167_always_panics_partial Res.ok sampleNodes sampleNodes_fit (by decide) 3 (by decide)] at hk
  cases hk

/-! ### C168 Copies of nodes -/

/-- The full claim of C168: a change of a child of the original is not seen through the copy. -/
def NodeCopyIndependent (α : Type) : Prop := ∀ (enc : α → Res Bytes) (os : List (TOp α)) (n : Nat) (k : Bytes) (c c' : Nat) (d : Option α),
  n < (nodesAfter enc os).length →
  (nodesAfter enc (os ++ [.copy n])).getChild n k = .ok c →
  (nodesAfter enc (os ++ [.copy n])).getChild (nodesAfter enc os).length k = .ok c' →
  ((nodesAfter enc (os ++ [.copy n, .setValue c d]))[c']?).map TNode.data = ((nodesAfter enc (os ++ [.copy n]))[c']?).map TNode.data

theorem exec_other (enc : α → Res Bytes) (h : TMem α) (o : TOp α) {i : Nat} (hi : i < h.length) (ho : o.target ≠ some i) :
    (h.exec enc o).1[i]? = h[i]? := by
  have push : ∀ u : TNode α, (h ++ [u])[i]? = h[i]? := fun u => List.getElem?_append_left hi
  have set : ∀ (n : Nat) (u : TNode α), n ≠ i → (h.set n u)[i]? = h[i]? := fun n u hne => List.getElem?_set_ne hne
  cases o with
  | new p k d =>
    rcases p with - | p
    · exact push _
    · simp only [TMem.exec]
      split
      · exact push _
      · rfl
  | put n k c =>
    have hne : n ≠ i := fun e => ho (by rw [e]; rfl)
    simp only [TMem.exec]
    split
    · simp only [TMem.putChild]
      rcases e : h[n]? with - | u
      · rfl
      · rcases hput : u.children.put childOps k c with ⟨m, - | x⟩
        · simp only [hput]; exact set n _ hne
        · simp only [hput]; exact set n _ hne
    · rfl
  | remove n k =>
    have hne : n ≠ i := fun e => ho (by rw [e]; rfl)
    simp only [TMem.exec, TMem.removeChild]
    rcases e : h[n]? with - | u
    · rfl
    · rcases hput : u.children.remove childOps k with ⟨m, - | x⟩
      · simp only [hput]; exact set n _ hne
      · simp only [hput]; exact set n _ hne
  | setValue n d =>
    have hne : n ≠ i := fun e => ho (by rw [e]; rfl)
    simp only [TMem.exec, TMem.setValue]
    rcases e : h[n]? with - | u
    · rfl
    · exact set n _ hne
  | setOffset n d =>
    have hne : n ≠ i := fun e => ho (by rw [e]; rfl)
    simp only [TMem.exec, TMem.setOffset]
    rcases e : h[n]? with - | u
    · rfl
    · exact set n _ hne
  | encode n =>
    have hne : n ≠ i := fun e => ho (by rw [e]; rfl)
    simp only [TMem.exec, TMem.encode]
    rcases e : h[n]? with - | u
    · rfl
    · simp only
      rcases hp : u.parent.bind (h[·]?) with - | p
      · rfl
      · simp only
        rcases hd : u.data with - | d
        · rfl
        · simp only
          rcases hb : enc d with b | - | -
          · exact set n _ hne
          · rfl
          · rfl
  | copy n =>
    simp only [TMem.exec, TMem.copy]
    rcases e : h[n]? with - | u
    · rfl
    · simp only
      rcases hm : putEntries .new (treeEntries u.children.root) with m | - | -
      · exact push _
      · rfl
      · rfl

theorem nodes_run_other (enc : α → Res Bytes) (os : List (TOp α)) (h : TMem α) {i : Nat} (hi : i < h.length) (ho : ∀ o ∈ os, o.target ≠ some i) :
    (h.run enc os).1[i]? = h[i]? := by
  induction os generalizing h with
  | nil => rfl
  | cons o os ih =>
    have e := exec_other enc h o hi (ho o (by simp))
    have hi' : i < (h.exec enc o).1.length := by
      obtain ⟨t, ht, -⟩ := exec_keeps enc h o (List.getElem?_eq_getElem hi)
      exact (List.getElem?_eq_some_iff.mp ht).1
    simp only [TMem.run]
    rw [ih _ hi' (fun o ho' => ho o (by simp [ho'])), e]

/-- C168, the part that holds: a copy is a new node with the same parent, key, value and children (the same objects), not encoded; as long
as no call is made on the copy itself it keeps these, and the original is not changed by copying. -/
theorem C168_copy_partial (enc : α → Res Bytes) (os more : List (TOp α)) (hos : ∀ o ∈ os, KeyFits o) (hN : os.length < 2 ^ 63) (n : Nat)
    (a : ANode α) (ha : (absMem (nodesAfter enc os))[n]? = some a) (hm : ∀ o ∈ more, o.target ≠ some (nodesAfter enc os).length) :
    (absMem (nodesAfter enc (os ++ [.copy n] ++ more)))[(nodesAfter enc os).length]? = some { a with offset := 0, buf := none } ∧
    (absMem (nodesAfter enc (os ++ [.copy n])))[n]? = some a := by
  obtain ⟨-, h⟩ := exec_spec enc hN (nodesAfter_good enc os hos hN) (.copy n) trivial
  have hn : n < (nodesAfter enc os).length := by
    by_contra hc
    rw [List.getElem?_eq_none (by simp [absMem]; omega)] at ha
    cases ha
  have ok := (C165_fails_partial enc os hos hN n a ha [] n hn none 0).2.2.1
  rcases h with ⟨h, -⟩ | ⟨-, h⟩
  · exact absurd ok h
  simp only [ANode.Completes, ANode.step, ha] at h
  have e : nodesAfter enc (os ++ [.copy n]) = ((nodesAfter enc os).exec enc (.copy n)).1 := by
    rw [nodesAfter, run_append]; rfl
  rw [← e] at h
  have hlen : (absMem (nodesAfter enc os)).length = (nodesAfter enc os).length := by simp [absMem]
  have e2 : nodesAfter enc (os ++ [.copy n] ++ more) = ((nodesAfter enc (os ++ [.copy n])).run enc more).1 := by
    rw [nodesAfter, run_append]; rfl
  constructor
  · rw [e2, absMem_get, nodes_run_other enc more _ ?_ hm, ← absMem_get, h, ← hlen]
    · simp
    · have := congrArg List.length h
      simp only [absMem, List.length_map, List.length_append, List.length_cons] at this
      omega
  · rw [h, List.getElem?_append_left (by omega), ha]

example := C168_copy_partial Res.ok sampleNodes [.setValue 1 none, .put 0 [101] 1] sampleNodes_fit (by decide) 0 _ rfl
  (by intro o ho; simp at ho; rcases ho with rfl | rfl <;> decide)

/-- C168 is false: the copy has the same child objects. -/
theorem C168_refuted : ¬ NodeCopyIndependent Bytes := by
  intro h
  have := h Res.ok sampleNodes 0 [97] 1 1 none (by decide) (by decide +kernel) (by decide +kernel)
  revert this
  decide +kernel

/-! ### C169 Encoding a node -/

/-- A loaded trie whose root is at the given offset. -/
def rootAt (off : Nat) : MTrie := { nodes := [{ newMTrieNode none off with children := some .new }], known := [(off, 0)] }

/-- The full claim of C169: the loader reads back the bytes of a node. -/
def NodeRoundTrip : Prop := ∀ (key value bytes : Bytes) (off size : Nat), key ≠ [] → off < 2 ^ 32 →
  NodeBytes key off (encodeVarchar value) size bytes →
    ∃ t tn n, (rootAt off).decodeNode 1 (newMTrieNode none bytes.length) bytes = .ok (t, tn, n) ∧ tn.nodeKey = key ∧
      tn.nodeValue = some value

/-- C169, which nodes can be encoded: exactly those with a parent and a value that can be encoded; a node without parent or value panics. -/
theorem C169_completes_partial (enc : α → Res Bytes) (os : List (TOp α)) (hos : ∀ o ∈ os, KeyFits o) (hN : os.length < 2 ^ 63) (n : Nat)
    (a : ANode α) (ha : (absMem (nodesAfter enc os))[n]? = some a) :
    (((nodesAfter enc os).exec enc (.encode n)).2 = .ok () ↔ a.parent ≠ none ∧ ∃ d b, a.data = some d ∧ enc d = .ok b) ∧
    (a.parent = none ∨ a.data = none → ((nodesAfter enc os).exec enc (.encode n)).2 = .panic) := by
  rw [absMem_get] at ha
  rcases e : (nodesAfter enc os)[n]? with - | t
  · rw [e] at ha; cases ha
  rw [e] at ha
  obtain rfl : absNode t = a := by simpa using ha
  have ht := nodesAfter_good enc os hos hN n t e
  have hn : n < (nodesAfter enc os).length := (List.getElem?_eq_some_iff.mp e).1
  have e1 : (absNode t).parent = t.parent := rfl
  have e2 : (absNode t).data = t.data := rfl
  rw [e1, e2]
  simp only [TMem.exec, TMem.encode, e]
  rcases hp : t.parent with - | pi
  · simp
  have hpi := ht.parent pi hp
  have hg : (nodesAfter enc os)[pi]? = some (nodesAfter enc os)[pi] := List.getElem?_eq_getElem (by omega)
  simp only [Option.bind_some, hg]
  rcases hd : t.data with - | d
  · simp
  rcases hb : enc d with b | - | - <;> simp [hb]

/-- C169: the bytes of a node determine its key, the offset of its parent, its value and the number of its children, if values are
written as varchars (see C106). -/
theorem C169_injective_partial (key key' value value' bytes : Bytes) (off off' size size' : Nat) (hv : value.length < 2 ^ 63)
    (hv' : value'.length < 2 ^ 63) (h : NodeBytes key off (encodeVarchar value) size bytes)
    (h' : NodeBytes key' off' (encodeVarchar value') size' bytes) : key = key' ∧ off = off' ∧ value = value' ∧ size = size' := by
  obtain ⟨p, q, r, hp, hq, hr⟩ := h
  generalize hb : p ++ key ++ q ++ encodeVarchar value ++ r = bytes at h'
  obtain ⟨p', q', r', hp', hq', hr'⟩ := h'
  simp only [List.append_assoc] at hb
  obtain ⟨rfl, hkl⟩ := hp.prefix_unique hp' hb
  replace hb := List.append_cancel_left hb
  obtain ⟨rfl, hb1⟩ := List.append_inj hb hkl
  obtain ⟨rfl, rfl⟩ := hq.prefix_unique hq' hb1
  replace hb := List.append_cancel_left hb1
  simp only [encodeVarchar, List.append_assoc] at hb
  obtain ⟨-, hvl⟩ := (putUvarint_spec (x := value.length) (by omega)).1.prefix_unique (putUvarint_spec (x := value'.length) (by omega)).1 hb
  rw [hvl] at hb
  replace hb := List.append_cancel_left hb
  obtain ⟨rfl, hb⟩ := List.append_inj hb hvl
  obtain ⟨-, rfl⟩ := hr.prefix_unique (r := []) (r' := []) hr' (by simpa using hb)
  exact ⟨rfl, rfl, rfl, rfl⟩

theorem sample_bytes : NodeBytes [97] 7 (encodeVarchar [1, 2]) 3 [1, 97, 7, 2, 1, 2, 3] :=
  ⟨[1], [7], [3], .last 1 (by decide), .last 7 (by decide), .last 3 (by decide)⟩

example := C169_completes_partial Res.ok sampleNodes sampleNodes_fit (by decide) 3 _ rfl
example := C169_injective_partial [97] [97] [1, 2] [1, 2] _ 7 7 3 3 (by decide) (by decide) sample_bytes sample_bytes

/-- C169 is false: the loader expects a mark before the key, which is not written. -/
theorem C169_refuted : ¬ NodeRoundTrip := by
  intro h
  obtain ⟨t, tn, n, h1, -⟩ := h [97] [1, 2] _ 7 3 (by decide) (by decide) sample_bytes
  have : (rootAt 7).decodeNode 1 (newMTrieNode none [1, 97, 7, 2, 1, 2, 3].length) [1, 97, 7, 2, 1, 2, 3] = .err := rfl
  have h2 := this.symm.trans h1
  cases h2

/-! ### C170 Bytes of a node -/

/-- The full claim of C170: the bytes that a node hands out are those of its present key, value and number of children. -/
def NodeBufCurrent : Prop := ∀ (os : List (TOp Bytes)) (n : Nat) (t p : TNode Bytes) (pi : Nat) (b : Bytes),
  (nodesAfter Res.ok os)[n]? = some t → t.parent = some pi → (nodesAfter Res.ok os)[pi]? = some p → t.getBuf = .ok (some b) →
    ∃ d, t.data = some d ∧ NodeBytes t.nodeKey.bytes p.offset.toNat d t.childSize.toNat b

theorem exec_keeps_buf (enc : α → Res Bytes) (h : TMem α) (o : TOp α) {i : Nat} {t : TNode α} (ht : h[i]? = some t) (ho : o ≠ .encode i) :
    ∃ t', (h.exec enc o).1[i]? = some t' ∧ t'.getBuf = t.getBuf := by
  have hi := (List.getElem?_eq_some_iff.mp ht).1
  by_cases hto : o.target = some i
  swap
  · exact ⟨t, by rw [exec_other enc h o hi hto, ht], rfl⟩
  have set : ∀ u : TNode α, u.encoded = t.encoded → u.buf = t.buf → ∃ t', (h.set i u)[i]? = some t' ∧ t'.getBuf = t.getBuf :=
    fun u h1 h2 => ⟨u, by rw [List.getElem?_set_self hi], by simp only [TNode.getBuf, h1, h2]⟩
  have same : ∃ t', h[i]? = some t' ∧ t'.getBuf = t.getBuf := ⟨t, ht, rfl⟩
  cases o with
  | new p k d => cases hto
  | put n k c =>
    obtain rfl : n = i := by simpa [TOp.target] using hto
    simp only [TMem.exec]
    split
    · simp only [TMem.putChild, ht]
      rcases hput : t.children.put childOps k c with ⟨m, - | x⟩ <;> exact set _ rfl rfl
    · exact same
  | remove n k =>
    obtain rfl : n = i := by simpa [TOp.target] using hto
    simp only [TMem.exec, TMem.removeChild, ht]
    rcases hput : t.children.remove childOps k with ⟨m, - | x⟩ <;> exact set _ rfl rfl
  | setValue n d =>
    obtain rfl : n = i := by simpa [TOp.target] using hto
    simp only [TMem.exec, TMem.setValue, ht]
    exact set _ rfl rfl
  | setOffset n d =>
    obtain rfl : n = i := by simpa [TOp.target] using hto
    simp only [TMem.exec, TMem.setOffset, ht]
    exact set _ rfl rfl
  | encode n =>
    obtain rfl : n = i := by simpa [TOp.target] using hto
    exact absurd rfl ho
  | copy n => cases hto

/-- C170, exactly: `Buf` of a node panics until `Encode`; what `Encode` made is returned from then on, whatever was changed since, until
the next `Encode`. -/
theorem C170_last_encode_partial (enc : α → Res Bytes) (os more : List (TOp α)) (n : Nat) (t : TNode α) (h : (nodesAfter enc os)[n]? = some t)
    (hmore : ∀ o ∈ more, o ≠ .encode n) : ∃ t', (nodesAfter enc (os ++ more))[n]? = some t' ∧ t'.getBuf = t.getBuf := by
  have key : ∀ (more : List (TOp α)) (m : TMem α) (t : TNode α), m[n]? = some t → (∀ o ∈ more, o ≠ .encode n) →
      ∃ t', (m.run enc more).1[n]? = some t' ∧ t'.getBuf = t.getBuf := by
    intro more
    induction more with
    | nil => exact fun m t h _ => ⟨t, h, rfl⟩
    | cons o more ih =>
      intro m t h ho
      obtain ⟨t1, h1, h2⟩ := exec_keeps_buf enc m o h (ho o (by simp))
      obtain ⟨t2, g1, g2⟩ := ih _ t1 h1 (fun o ho' => ho o (by simp [ho']))
      exact ⟨t2, g1, g2.trans h2⟩
  rw [nodesAfter, run_append]
  exact key more _ t h hmore

/-- C170: before the first `Encode` there are no bytes. -/
theorem C170_first_partial (enc : α → Res Bytes) (os more : List (TOp α)) (p : Option Nat) (k : Slice) (d : Option α)
    (hp : ∀ q, p = some q → q < (nodesAfter enc os).length) (hmore : ∀ o ∈ more, o ≠ .encode (nodesAfter enc os).length) :
    ∃ t, (nodesAfter enc (os ++ [.new p k d] ++ more))[(nodesAfter enc os).length]? = some t ∧ t.getBuf = .panic := by
  have e : (nodesAfter enc (os ++ [.new p k d])) = nodesAfter enc os ++ [freshNode p k d] := by
    rw [nodesAfter, run_append]
    rcases p with - | p
    · rfl
    · simp only [TMem.run, TMem.exec]
      exact (congrArg Prod.fst (if_pos (hp p rfl)) :)
  obtain ⟨t, h1, h2⟩ := C170_last_encode_partial enc (os ++ [.new p k d]) more (nodesAfter enc os).length (freshNode p k d)
    (by rw [e]; simp) hmore
  exact ⟨t, h1, h2⟩

example := C170_last_encode_partial Res.ok (sampleNodes ++ [.encode 1]) [.setValue 1 none, .put 1 [5] 2] 1 _ rfl (by simp)
example := C170_first_partial Res.ok sampleNodes [.encode 2, .setValue 4 none] none none (some [5]) (by simp) (by
  intro o ho
  rcases List.mem_pair.mp ho with rfl | rfl
  · intro h
    have : (2 : Nat) = (nodesAfter Res.ok sampleNodes).length := by injection h
    revert this
    decide
  · simp)

/-- C170 is false: changing the value leaves the old bytes. -/
theorem C170_refuted : ¬ NodeBufCurrent := by
  intro h
  obtain ⟨d, h1, -⟩ := h (sampleNodes ++ [.encode 1, .setValue 1 none]) 1 _ _ 0 [1, 97, 0, 2, 0] rfl rfl rfl (by decide +kernel)
  have h2 : (some d : Option Bytes) = none := h1.symm
  cases h2

/-! ### C171 Size estimate of a node -/

/-- The full claim of C171: the size estimate of a node is enough for the bytes that `Encode` makes, if those of the values are. -/
def NodeEstEnough : Prop := ∀ (os : List (TOp Bytes)) (n : Nat) (t : TNode Bytes) (bytes : Bytes),
  ((nodesAfter Res.ok os).exec Res.ok (.encode n)).2 = .ok () → (nodesAfter Res.ok (os ++ [.encode n]))[n]? = some t →
    t.getBuf = .ok (some bytes) → bytes.length ≤ t.est List.length

/-- C171, exactly: the estimate is enough if and only if the three numbers and the bytes of the value take at most five bytes more than the
estimate of the value. -/
theorem C171_enough_iff_partial (enc : α → Res Bytes) (estValue : α → Nat) (os : List (TOp α)) (hos : ∀ o ∈ os, KeyFits o)
    (hN : os.length < 2 ^ 63) (n : Nat) (t p : TNode α) (pi : Nat) (d : α) (b : Bytes) (ht : (nodesAfter enc os)[n]? = some t)
    (hpi : t.parent = some pi) (hp : (nodesAfter enc os)[pi]? = some p) (hd : t.data = some d) (hb : enc d = .ok b) :
    ∃ t' bytes, (nodesAfter enc (os ++ [.encode n]))[n]? = some t' ∧ t'.getBuf = .ok (some bytes) ∧ (bytes.length ≤ t'.est estValue ↔
      uvLen t.nodeKey.bytes.length + uvLen p.offset.toNat + uvLen t.childSize.toNat + b.length ≤ 5 + estValue d) := by
  have hg := nodesAfter_good enc os hos hN n t ht
  have hn := (List.getElem?_eq_some_iff.mp ht).1
  have hk := hg.key
  have hs : t.childSize.toNat < 2 ^ 63 := by
    have h1 := hg.good.size
    have h2 := hg.size
    simp only [TNode.childSize] at *
    omega
  have hoff : p.offset.toNat < 2 ^ 32 := p.offset.toNat_lt
  have e : nodesAfter enc (os ++ [.encode n]) = (nodesAfter enc os).set n { t with encoded := true, buf := (some <|
      encodeVarchar t.nodeKey.bytes ++ encodeUvarint64 p.offset.toNat ++ b ++ encodeUvarint64 t.childSize.toNat) } := by
    rw [nodesAfter, run_append]
    change ((nodesAfter enc os).exec enc (.encode n)).1 = _
    simp only [TMem.exec, TMem.encode, ht, hpi, Option.bind_some, hp, hd, hb]
  refine ⟨_, _, by rw [e, List.getElem?_set_self hn], rfl, ?_⟩
  simp only [TNode.est, hd, List.length_append, encodeVarchar, encodeUvarint64]
  rw [putUvarint_length (by omega), putUvarint_length (by omega), putUvarint_length (by omega)]
  omega

/-- C171, the part that holds: short keys, offsets below 2 MiB and few children. -/
theorem C171_small_partial (enc : α → Res Bytes) (estValue : α → Nat) (os : List (TOp α)) (hos : ∀ o ∈ os, KeyFits o)
    (hN : os.length < 2 ^ 63) (n : Nat) (t p : TNode α) (pi : Nat) (d : α) (b : Bytes) (ht : (nodesAfter enc os)[n]? = some t)
    (hpi : t.parent = some pi) (hp : (nodesAfter enc os)[pi]? = some p) (hd : t.data = some d) (hb : enc d = .ok b)
    (hk : t.nodeKey.bytes.length < 128) (hoff : p.offset.toNat < 2 ^ 21) (hs : t.childSize.toNat < 128) (hv : b.length ≤ estValue d) :
    ∃ t' bytes, (nodesAfter enc (os ++ [.encode n]))[n]? = some t' ∧ t'.getBuf = .ok (some bytes) ∧ bytes.length ≤ t'.est estValue := by
  obtain ⟨t', bytes, g1, g2, g3⟩ := C171_enough_iff_partial enc estValue os hos hN n t p pi d b ht hpi hp hd hb
  refine ⟨t', bytes, g1, g2, g3.mpr ?_⟩
  have h1 : uvLen t.nodeKey.bytes.length = 1 := by unfold uvLen; rw [Nat.log_of_lt hk]
  have h2 : uvLen t.childSize.toNat = 1 := by unfold uvLen; rw [Nat.log_of_lt hs]
  have h3 : uvLen p.offset.toNat ≤ 3 := by
    unfold uvLen
    have : Nat.log 128 p.offset.toNat < 3 := by
      rcases Nat.eq_zero_or_pos p.offset.toNat with h | hpos
      · simp [h]
      · exact (Nat.log_lt_iff_lt_pow (by omega) (by omega)).mpr (by omega)
    omega
  omega

example := C171_enough_iff_partial Res.ok List.length sampleNodes sampleNodes_fit (by decide) 3 _ _ 2 _ _ rfl rfl rfl rfl rfl
example := C171_small_partial Res.ok List.length sampleNodes sampleNodes_fit (by decide) 3 _ _ 2 _ _ rfl rfl rfl rfl rfl (by decide +kernel)
  (by decide +kernel) (by decide +kernel) (Nat.le_refl _)

/-- C171 is false: an offset of 256 MiB takes five bytes. -/
theorem C171_refuted : ¬ NodeEstEnough := by
  intro h
  have := h [.new none none none, .setOffset 0 (2 ^ 28), .new (some 0) (some [97]) (some [1, 2])] 1 _
    ([1] ++ [97] ++ [128, 128, 128, 128, 1] ++ [1, 2] ++ [0]) rfl rfl (by decide +kernel)
  revert this
  decide +kernel

/-! ### C172, C173 Loading a node -/

/-- The full claim of C172: `NewMappedTrieNode` reports an error for bytes that are no node. -/
def NodeErrorsReported : Prop := ∀ (t : MTrie) (parent : Option Nat) (buf : Bytes) (offset : Nat),
  t.decodeNode t.nodes.length { newMTrieNode parent offset with children := some .new } buf = .err →
    t.newMappedNode parent buf offset = .err

/-- C172, exactly: an error is never reported; for bytes that are no node the length is 0 and nothing but the new node changes. -/
theorem C172_silent_partial (t : MTrie) (parent : Option Nat) (buf : Bytes) (offset : Nat) :
    t.newMappedNode parent buf offset ≠ .err ∧
    (t.decodeNode t.nodes.length { newMTrieNode parent offset with children := some .new } buf = .err →
      ∃ tn, t.newMappedNode parent buf offset = .ok ({ t with nodes := t.nodes ++ [tn] }, t.nodes.length, 0) ∧ tn.decoded = false) := by
  simp only [MTrie.newMappedNode]
  constructor
  · split <;> simp
  · intro h
    rw [h]
    exact ⟨_, rfl, rfl⟩

example := (C172_silent_partial (rootAt 0) (some 0) [128] 5).2 rfl

/-- C172 is false. -/
theorem C172_refuted : ¬ NodeErrorsReported := by
  intro h
  exact (C172_silent_partial (rootAt 0) (some 0) [128] 5).1 (h (rootAt 0) (some 0) [128] 5 rfl)

/-- The full claim of C173: a node that was loaded can be read. -/
def LoadedNodeReadable : Prop := ∀ (t t' : MTrie) (parent : Option Nat) (buf : Bytes) (offset id n : Nat) (tn : MTrieNode),
  t.newMappedNode parent buf offset = .ok (t', id, n) → 0 < n → t'.nodes[id]? = some tn → tn.key ≠ .panic ∧ tn.value ≠ .panic

/-- C173, exactly: if the bytes start with the number 0 the node has no key, no value, no children, and the parent given; all other
loaded nodes panic on every question. -/
theorem C173_readable_iff_partial (t t' : MTrie) (parent : Option Nat) (buf : Bytes) (offset id n : Nat) (tn : MTrieNode)
    (h : t.newMappedNode parent buf offset = .ok (t', id, n)) (hg : t'.nodes[id]? = some tn) :
    ((∃ m, decodeUvarint64 buf = .ok (0, m)) ∧ tn.key = .ok [] ∧ tn.value = .ok none ∧ tn.childSize = .ok 0 ∧ tn.getParent = .ok parent) ∨
    ((¬ ∃ m, decodeUvarint64 buf = .ok (0, m)) ∧ tn.key = .panic ∧ tn.value = .panic ∧ tn.childSize = .panic ∧ tn.getParent = .panic ∧
      ∀ k, t'.getChild tn k = .panic) := by
  simp only [MTrie.newMappedNode] at h
  have undecoded : ∀ tn : MTrieNode, tn.decoded = false → tn.key = .panic ∧ tn.value = .panic ∧ tn.childSize = .panic ∧
      tn.getParent = .panic ∧ ∀ k, t'.getChild tn k = .panic := by
    intro tn hd
    simp [MTrieNode.key, MTrieNode.value, MTrieNode.childSize, MTrieNode.getParent, MTrie.getChild, hd]
  have key : ∀ t1 tn1 n1, t.decodeNode t.nodes.length { newMTrieNode parent offset with children := some .new } buf = .ok (t1, tn1, n1) →
      t1.nodes.length = t.nodes.length ∧ (((∃ m, decodeUvarint64 buf = .ok (0, m)) ∧
        tn1 = { newMTrieNode parent offset with children := some .new, dummy := true, decoded := true }) ∨
        ((¬ ∃ m, decodeUvarint64 buf = .ok (0, m)) ∧ tn1.decoded = false)) := by
    intro t1 tn1 n1 h
    unfold MTrie.decodeNode at h
    obtain ⟨⟨mark, m⟩, hm, h⟩ := Res.bind_eq_ok.mp h
    dsimp only at h
    by_cases h0 : mark = 0
    · rw [if_pos h0] at h
      cases h
      exact ⟨rfl, .inl ⟨⟨_, by rw [hm, h0]⟩, rfl⟩⟩
    · rw [if_neg h0] at h
      have hno : ¬ ∃ m, decodeUvarint64 buf = .ok (0, m) := by
        rintro ⟨m', h'⟩
        rw [hm] at h'
        cases h'
        exact h0 rfl
      obtain ⟨⟨nodeKey, keyN⟩, -, h⟩ := Res.bind_eq_ok.mp h
      dsimp only at h
      split at h
      · cases h
      obtain ⟨⟨po, pn⟩, -, h⟩ := Res.bind_eq_ok.mp h
      dsimp only at h
      split at h
      · cases h
      obtain ⟨⟨v, x, vn⟩, -, h⟩ := Res.bind_eq_ok.mp h
      dsimp only at h
      obtain ⟨⟨c, cn⟩, -, h⟩ := Res.bind_eq_ok.mp h
      dsimp only at h
      split at h
      · cases h
      split at h
      · cases h
      split at h
      · cases h
      · cases h
        exact ⟨by simp, .inr ⟨hno, rfl⟩⟩
  split at h
  · rename_i t1 tn1 n1 hd
    cases h
    obtain ⟨hl, hk⟩ := key _ _ _ hd
    have : tn1 = tn := by
      simp only at hg
      rw [← hl] at hg
      simpa using hg
    subst this
    rcases hk with ⟨h0, rfl⟩ | ⟨h0, hdec⟩
    · exact .inl ⟨h0, rfl, rfl, rfl, rfl⟩
    · exact .inr ⟨h0, undecoded _ hdec⟩
  · rename_i hd
    cases h
    have : { newMTrieNode parent offset with children := some .new } = tn := by simpa using hg
    subst this
    refine .inr ⟨?_, undecoded _ rfl⟩
    rintro ⟨m, h0⟩
    unfold MTrie.decodeNode at hd
    rw [h0] at hd
    simp at hd
  · cases h

/-- A well-formed node: the mark, the key "a", the offset of the parent, and the value with the bytes 1 and 2. -/
example := C173_readable_iff_partial (rootAt 0) _ (some 0) [1, 1, 97, 0, 2, 1, 2, 0] 9 _ _ _ rfl rfl

/-- C173 is false. -/
theorem C173_refuted : ¬ LoadedNodeReadable := by
  intro h
  have h2 := (h (rootAt 0) _ (some 0) [1, 1, 97, 0, 2, 1, 2, 0] 9 _ _ _ rfl (by decide +kernel) rfl).1
  exact h2 (by decide +kernel)

end Poodle.Props
