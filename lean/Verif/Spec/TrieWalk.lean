import Verif.Model.TrieWalk

/-
Specification of iterations over a trie.
-/

namespace Poodle.Spec

variable {α β : Type}

mutual
/-- A node and all its descendants: parents before children, siblings in order. -/
def descend : UNode α → List (UNode α)
  | .node k f v kids => .node k f v kids :: descendAll kids

/-- The nodes in a list of nodes and all their descendants. -/
def descendAll : List (UNode α) → List (UNode α)
  | [] => []
  | n :: l => descend n ++ descendAll l
end

/-- What calls on an iterator over the given elements return; `more` is the answer of `HasNext` by the elements left. -/
def streamRun (more : List β → Bool) : List β → List IterCall → List (IterRes β)
  | _, [] => []
  | [], .next :: cs => .nil :: streamRun more [] cs
  | [], .peek :: cs => .nil :: streamRun more [] cs
  | b :: l, .next :: cs => .yield b :: streamRun more l cs
  | b :: l, .peek :: cs => .yield b :: streamRun more (b :: l) cs
  | l, .hasNext :: cs => .bool (more l) :: streamRun more l cs

/-- The node at the end of a path of keys below a node. -/
inductive At : UNode α → List Bytes → UNode α → Prop
  | here (n : UNode α) : At n [] n
  | child (n c m : UNode α) (ks : List Bytes) : c ∈ n.kids → At c ks m → At n (c.nodeKey :: ks) m

/-- The full key of a node at the end of a path is the path. -/
def FullKeysArePaths (root : UNode α) : Prop := ∀ ks n, At root ks n → n.full = ks

/-- Siblings have ascending keys of which none is the beginning of another (such keys cannot be compared, C17). -/
def SiblingsOrdered (root : UNode α) : Prop := ∀ ks n, At root ks n →
  n.kids.Pairwise fun a b => compare a.nodeKey b.nodeKey = .lt ∧ ¬ a.nodeKey <+: b.nodeKey ∧ ¬ b.nodeKey <+: a.nodeKey

/-- What calls on a range iterator over the given elements return. -/
def rangeRun : List β → List IterCall → List (WalkRes β)
  | _, [] => []
  | [], .next :: cs => .nil :: rangeRun [] cs
  | [], .peek :: cs => .nil :: rangeRun [] cs
  | b :: l, .next :: cs => .yield b :: rangeRun l cs
  | b :: l, .peek :: cs => .yield b :: rangeRun (b :: l) cs
  | l, .hasNext :: cs => .bool (!l.isEmpty) :: rangeRun l cs

/-- What calls on a range iterator return that does not come back from the children of a node: it gets stuck after the given elements. -/
def stuckRun : List β → List IterCall → List (WalkRes β)
  | _, [] => []
  | [], .next :: _ => [.hang]
  | [], .peek :: _ => [.hang]
  | b :: l, .next :: cs => .yield b :: stuckRun l cs
  | b :: l, .peek :: cs => .yield b :: stuckRun (b :: l) cs
  | l, .hasNext :: cs => .bool true :: stuckRun l cs

mutual
/-- A node, and then its children if it has any, and what is given otherwise. -/
def trail : UNode α → List (UNode α) → List (UNode α)
  | .node k f v kids, rest => .node k f v kids :: match kids with
    | [] => rest
    | c :: cs => trailAll (c :: cs)

/-- The nodes visited without ever coming back from the children of a node. -/
def trailAll : List (UNode α) → List (UNode α)
  | [] => []
  | n :: l => trail n (trailAll l)
end

end Poodle.Spec
