import Verif.Model.AvlCost
import Verif.Model.TrieHeap

/-
Work done by a lookup in a trie, /repo/src/util/trie_util.go:554-576: the functions of `TrieHeap` with a count of the comparisons of sub
keys and of the links followed (in the trees of children, and from a node to a child).
-/

namespace Poodle

variable {α : Type}

/-- `TrieNode.GetChild`, /repo/src/util/trie_util.go:839-841, with its work (see `AvlCost`); the child found is one more link. -/
def TMem.getChildW (h : TMem α) (n : Nat) (k : Bytes) : Work (Res Nat) :=
  match h[n]? with
  | none => ⟨0, 0, .panic⟩
  | some t => (t.children.getW childOps k).more 0 1 fun
    | none => .panic
    | some none => .panic
    | some (some c) => .ok c

/-- The loop of `Trie.Get`, /repo/src/util/trie_util.go:561-575, from a node on: the node found. -/
def TMem.findNode (h : TMem α) (n : Nat) : List Bytes → Res Nat
  | [] => .ok n
  | k :: ks => match h.getChild n k with
    | .ok c => h.findNode c ks
    | .err => .err
    | .panic => .panic

/-- The loop of `Trie.Get`, /repo/src/util/trie_util.go:561-575, with its work. -/
def TMem.findNodeW (h : TMem α) (n : Nat) : List Bytes → Work (Res Nat)
  | [] => ⟨0, 0, .ok n⟩
  | k :: ks => match h.getChildW n k with
    | ⟨a, b, .ok c⟩ => (h.findNodeW c ks).more a b id
    | ⟨a, b, .err⟩ => ⟨a, b, .err⟩
    | ⟨a, b, .panic⟩ => ⟨a, b, .panic⟩

end Poodle
