import Verif.Model.Print
import Verif.Spec.Map

/-
Specification of printing: lines of a text, indentation.
-/

namespace Poodle.Spec

/-- The lines of a text; a return at the end does not begin another line. -/
def linesOf : Text → List Text
  | [] => []
  | c :: cs =>
    if c = '\n' then [] :: linesOf cs
    else match linesOf cs with
      | [] => [[c]]
      | l :: ls => (c :: l) :: ls

/-- No return character (object.go: "without indent, or return character"). -/
def OneLine (t : Text) : Prop := '\n' ∉ t

instance (t : Text) : Decidable (OneLine t) := inferInstanceAs (Decidable (¬ '\n' ∈ t))

/-- Every line begins with the indent. -/
def Indented (p : Nat → Text) : Prop := ∀ indent, ∀ l ∈ linesOf (p indent), spaces indent <+: l

variable {K V : Type}

/-- The entries of a tree with the number of links that lead to them, from `d` at the root: a node, then those on its left, then those
on its right. -/
def withDepth (d : Nat) : Tree K V → List (Nat × K × V)
  | .nil => []
  | .node k v _ l r => (d, k, v) :: (withDepth (d + 1) l ++ withDepth (d + 1) r)

/-- The entries of a chain with their place in it, from `d`. -/
def withPlace (d : Nat) : List (K × V) → List (Nat × K × V)
  | [] => []
  | (k, v) :: l => (d, k, v) :: withPlace (d + 1) l

/-- A line shows an entry at depth `d`: the indent and 4 for each level, then key and value. -/
def ShowsEntry (showK : K → Text) (showV : V → Text) (indent : Nat) (e : Nat × K × V) (line : Text) : Prop :=
  ∃ rest, line = spaces (indent + 4 * e.1) ++ txt "k=" ++ showK e.2.1 ++ txt ", v=" ++ showV e.2.2 ++ txt ", " ++ rest

mutual
/-- The nodes of a trie with their depth, from `d` at the root: a node, then those below it in order. -/
def nodesFrom {α : Type} (d : Nat) : PNode α → List (Nat × PNode α)
  | .node m k v o b kids => (d, .node m k v o b kids) :: nodesAll (d + 1) kids

/-- The same for all children. -/
def nodesAll {α : Type} (d : Nat) : List (PNode α) → List (Nat × PNode α)
  | [] => []
  | n :: l => nodesFrom d n ++ nodesAll d l
end

end Poodle.Spec
