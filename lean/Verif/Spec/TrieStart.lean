import Verif.Spec.TrieWalk

/-
Specification of range iterators with a start.
-/

namespace Poodle.Spec

variable {α β : Type}

/-- The path leads through first children only, and no key on it is above the one before, or a proper beginning of it. -/
def Leftmost : UNode α → Option Bytes → List Bytes → Prop
  | _, _, [] => True
  | n, prev, k :: ks => ∃ c, n.kids.head? = some c ∧ c.nodeKey = k ∧ (∀ s, prev = some s → compare k s ≠ .gt ∧ (k <+: s → k = s)) ∧
      Leftmost c (some k) ks

/-- What calls return on an iterator whose next element cannot be compared. -/
def failRun : List IterCall → List (WalkRes β)
  | [] => []
  | .hasNext :: cs => .bool true :: failRun cs
  | _ :: _ => [.crash]

/-- The longest beginning `q` of a path that is in the trie, the node there, and the rest of the path. -/
structure Reaches (root : UNode α) (ks q rest : List Bytes) (n : UNode α) : Prop where
  split : ks = q ++ rest
  found : At root q n
  missing : ∀ k ∈ rest.head?, ∀ c ∈ n.kids, c.nodeKey ≠ k

end Poodle.Spec
