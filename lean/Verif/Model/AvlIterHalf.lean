import Verif.Model.AvlIter

/-
Model of the tree iterator of /repo/src/collection/avl.go:323-500 in which a panic of a key comparison leaves the iterator as it is at that
moment, so that a program that recovers can go on using it.  (`Model/AvlIter.lean` keeps the iterator as it was before the call.)
-/

namespace Poodle

variable {K V : Type}

namespace AvlIter

/-- The moves to the right child inside the start loop, /repo/src/collection/avl.go:451-456: the node reached, and whether it is not greater
than the start (`some true`), has no right child (`some false`), or could not be compared (`none`). -/
def startSpineH (ops : KeyOps K) (s : K) : Tree K V → Tree K V × Option Bool
  | .nil => (.nil, none)
  | .node k v b l r =>
    match ops.compare s k with
    | none => (.node k v b l r, none)
    | some c =>
      if c < 0 then
        match r with
        | .nil => (.node k v b l r, some false)
        | _ => startSpineH ops s r
      else (.node k v b l r, some true)

/-- The start loop, /repo/src/collection/avl.go:451-473: path, current node and position; `some true`: found, `some false`: exhausted (line
462), `none`: panics. -/
def startLoopH (ops : KeyOps K) (s : K) : List (Tree K V) → Tree K V → Nat → (List (Tree K V) × Tree K V × Nat) × Option Bool
  | paths, curr, pos =>
    match startSpineH ops s curr with
    | (t, none) => ((paths, t, pos), none)
    | (t, some true) => ((paths, t, pos), some true)
    | (_, some false) =>
      match paths with
      | [] => (([], .nil, pos), some false)
      | p :: ps => startLoopH ops s ps p 0

/-- The end loop, /repo/src/collection/avl.go:481-496. -/
def endLoopH (ops : KeyOps K) (e : K) : List (Tree K V) → Tree K V → Nat → (List (Tree K V) × Tree K V × Nat) × Option Bool
  | paths, curr, pos =>
    match curr with
    | .nil => ((paths, .nil, pos), none)
    | .node k v b l r =>
      match ops.compare k e with
      | none => ((paths, .node k v b l r, pos), none)
      | some c =>
        if c ≥ 0 then
          match paths with
          | [] => (([], .nil, pos), some false)
          | p :: ps => endLoopH ops e ps p 0
        else ((paths, .node k v b l r, pos), some true)

/-- Lines 479-499 of `advance`, /repo/src/collection/avl.go: the iterator afterwards, and whether it returned. -/
def boundEndH (ops : KeyOps K) (it : AvlIter K V) : AvlIter K V × Bool :=
  match it.stop with
  | none => (it, true)
  | some e =>
    match endLoopH ops e it.paths it.curr it.pos with
    | ((p, c, q), none) => (⟨p, c, q, it.start, it.stop⟩, false)
    | ((p, c, q), some false) => (⟨p, c, q, it.start, none⟩, true)
    | ((p, c, q), some true) => (⟨p, c, q, it.start, it.stop⟩, true)

/-- Lines 449-499 of `advance`, /repo/src/collection/avl.go. -/
def boundsH (ops : KeyOps K) (it : AvlIter K V) : AvlIter K V × Bool :=
  match it.start with
  | none => boundEndH ops it
  | some s =>
    match startLoopH ops s it.paths it.curr it.pos with
    | ((p, c, q), none) => (⟨p, c, q, it.start, it.stop⟩, false)
    | ((p, c, q), some false) => (⟨p, c, q, it.start, it.stop⟩, true)
    | ((p, c, q), some true) => boundEndH ops ⟨p, c, q, none, it.stop⟩

/-- Lines 416-447 of `advance` (and the rest through `boundsH`), /repo/src/collection/avl.go. -/
def stepH (ops : KeyOps K) (it : AvlIter K V) : AvlIter K V × Bool :=
  match it.pos with
  | 0 => boundsH ops it
  | 1 =>
    match it.curr with
    | .nil => (it, false)
    | .node _ _ _ _ r =>
      match r with
      | .nil =>
        match it.paths with
        | p :: ps => boundsH ops { it with curr := p, pos := 0, paths := ps }
        | [] => ({ it with curr := .nil, start := none, stop := none }, true)
      | _ =>
        let (c, p) := descend r it.paths
        boundsH ops { it with curr := c, pos := 0, paths := p }
  | _ => (it, false)

/-- `advance`, /repo/src/collection/avl.go:400-500. -/
def advanceH (ops : KeyOps K) (it : AvlIter K V) : AvlIter K V × Bool :=
  match it.curr, it.paths with
  | .nil, [] => (it, true)
  | .nil, p :: ps => stepH ops { it with curr := p, pos := 0, paths := ps }
  | _, _ => stepH ops it

/-- A call on the iterator of a `SortedMap` (/repo/src/collection/sorted_map.go:47-67) or a `SortedSet` (sorted_set.go:47-67), on top of `Next`,
`HasNext` and `Peek` of /repo/src/collection/avl.go:358-398. -/
def sortedCallH (ops : KeyOps K) (it : AvlIter K V) (c : IterCall) : AvlIter K V × IterRes (K × V) :=
  match advanceH ops it with
  | (it, false) => (it, .crash)
  | (it, true) =>
    match c, it.curr, it.paths with
    | .hasNext, .nil, [] => (it, .bool false)
    | .hasNext, _, _ => (it, .bool true)
    | .next, .node k v _ _ _, _ => ({ it with pos := 1 }, .yield (k, v))
    | .next, .nil, _ => (it, .crash)
    | .peek, .node k v _ _ _, _ => (it, .yield (k, v))
    | .peek, .nil, _ => (it, .crash)

end AvlIter

end Poodle
