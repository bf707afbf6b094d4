import Verif.Model.Avl

/-
Model of the tree iterator of /repo/src/collection/avl.go:323-500 and of the iterators of
/repo/src/collection/sorted_map.go and sorted_set.go.

The iterator holds pointers to nodes; modifying the tree while iterating is in `AvlHeap`, not here.  If a key comparison panics
inside the iterator, the call panics (`none`); the half advanced iterator is not modelled further.
-/

namespace Poodle

variable {K V : Type}

/-- `AVLIterator`, /repo/src/collection/avl.go:323-330 (the field `initialized` is never read).  `paths` is the Go slice
reversed: its head is the last element.  `curr = .nil` is the nil pointer. -/
structure AvlIter (K V : Type) where
  paths : List (Tree K V)
  curr : Tree K V
  pos : Nat
  start : Option K
  stop : Option K
deriving DecidableEq, Repr

namespace AvlIter

/-- The loops `for currNode.link[0] != nil { push; go left }`, /repo/src/collection/avl.go:338-342 and :425-429. -/
def descend : Tree K V → List (Tree K V) → Tree K V × List (Tree K V)
  | .nil, p => (.nil, p)
  | .node k v b l r, p =>
    match l with
    | .nil => (.node k v b l r, p)
    | _ => descend l (.node k v b l r :: p)

/-- `NewAVLIterator`, /repo/src/collection/avl.go:332-356 (`none`: panics). -/
def new (ops : KeyOps K) (root : Tree K V) (start stop : Option K) : Option (AvlIter K V) :=
  let (c, p) := descend root []
  match start, stop with
  | some s, some e =>
    match ops.compare s e with
    | none => none
    | some c' => if c' > 0 then none else some ⟨p, c, 0, start, stop⟩
  | _, _ => some ⟨p, c, 0, start, stop⟩

/-- The moves to the right child inside the start loop, /repo/src/collection/avl.go:451-456, until a node not greater than
`start` is found (`some (some node)`) or there is no right child (`some none`). -/
def startSpine (ops : KeyOps K) (s : K) : Tree K V → Option (Option (Tree K V))
  | .nil => none
  | .node k v b l r =>
    match ops.compare s k with
    | none => none
    | some c =>
      if c < 0 then
        match r with
        | .nil => some none
        | _ => startSpine ops s r
      else some (some (.node k v b l r))

/-- The start loop, /repo/src/collection/avl.go:451-473: result `some none` if the iterator is exhausted (line 462), else the
new current node, remaining path and position. -/
def startLoop (ops : KeyOps K) (s : K) : List (Tree K V) → Tree K V → Nat → Option (Option (Tree K V × List (Tree K V) × Nat))
  | paths, curr, pos =>
    match startSpine ops s curr with
    | none => none
    | some (some t) => some (some (t, paths, pos))
    | some none =>
      match paths with
      | [] => some none
      | p :: ps => startLoop ops s ps p 0

/-- The end loop, /repo/src/collection/avl.go:481-496. -/
def endLoop (ops : KeyOps K) (e : K) : List (Tree K V) → Tree K V → Nat → Option (Option (Tree K V × List (Tree K V) × Nat))
  | paths, curr, pos =>
    match curr with
    | .nil => none
    | .node k v b l r =>
      match ops.compare k e with
      | none => none
      | some c =>
        if c ≥ 0 then
          match paths with
          | [] => some none
          | p :: ps => endLoop ops e ps p 0
        else some (some (.node k v b l r, paths, pos))

/-- Lines 479-499 of `advance`, /repo/src/collection/avl.go. -/
def boundEnd (ops : KeyOps K) (it : AvlIter K V) : Option (AvlIter K V) :=
  match it.stop with
  | none => some it
  | some e =>
    match endLoop ops e it.paths it.curr it.pos with
    | none => none
    | some none => some { it with curr := .nil, paths := [], pos := if it.paths = [] then it.pos else 0, stop := none }
    | some (some (c, p, q)) => some { it with curr := c, paths := p, pos := q }

/-- Lines 449-499 of `advance`, /repo/src/collection/avl.go. -/
def bounds (ops : KeyOps K) (it : AvlIter K V) : Option (AvlIter K V) :=
  match it.start with
  | none => boundEnd ops it
  | some s =>
    match startLoop ops s it.paths it.curr it.pos with
    | none => none
    | some none => some { it with curr := .nil, paths := [], pos := if it.paths = [] then it.pos else 0 }
    | some (some (c, p, q)) => boundEnd ops { it with curr := c, paths := p, pos := q, start := none }

/-- Lines 416-447 of `advance` (and the rest through `bounds`), /repo/src/collection/avl.go. -/
def step (ops : KeyOps K) (it : AvlIter K V) : Option (AvlIter K V) :=
  match it.pos with
  | 0 => bounds ops it
  | 1 =>
    match it.curr with
    | .nil => none
    | .node _ _ _ _ r =>
      match r with
      | .nil =>
        match it.paths with
        | p :: ps => bounds ops { it with curr := p, pos := 0, paths := ps }
        | [] => some { it with curr := .nil, start := none, stop := none }
      | _ =>
        let (c, p) := descend r it.paths
        bounds ops { it with curr := c, pos := 0, paths := p }
  | _ => none

/-- `advance`, /repo/src/collection/avl.go:400-500 (`none`: panics). -/
def advance (ops : KeyOps K) (it : AvlIter K V) : Option (AvlIter K V) :=
  match it.curr, it.paths with
  | .nil, [] => some it
  | .nil, p :: ps => step ops { it with curr := p, pos := 0, paths := ps }
  | _, _ => step ops it

/-- `AVLIterator.Next`, /repo/src/collection/avl.go:358-370 (inner `none`: returns nil). -/
def next (ops : KeyOps K) (it : AvlIter K V) : Option (AvlIter K V × Option (K × V)) :=
  match advance ops it with
  | none => none
  | some it =>
    match it.curr, it.paths with
    | .nil, [] => some (it, none)
    | .nil, _ :: _ => none
    | .node k v _ _ _, _ => some ({ it with pos := 1 }, some (k, v))

/-- `AVLIterator.HasNext`, /repo/src/collection/avl.go:372-379. -/
def hasNext (ops : KeyOps K) (it : AvlIter K V) : Option (AvlIter K V × Bool) :=
  match advance ops it with
  | none => none
  | some it =>
    match it.curr, it.paths with
    | .nil, [] => some (it, false)
    | _, _ => some (it, true)

/-- `AVLIterator.Peek`, /repo/src/collection/avl.go:381-398. -/
def peek (ops : KeyOps K) (it : AvlIter K V) : Option (AvlIter K V × Option (K × V)) :=
  match advance ops it with
  | none => none
  | some it =>
    match it.curr with
    | .nil => some (it, none)
    | .node k v _ _ _ => some (it, some (k, v))

end AvlIter

/-- Calls on an iterator (`ISortedMapIterator`, /repo/src/collection/comparable.go:23-36; `IIterator`, object.go:27-40). -/
inductive IterCall where
  | next
  | hasNext
  | peek
deriving DecidableEq, Repr

/-- Result of a call: an entry, a boolean, the nil result, or a panic
(the result types of /repo/src/collection/comparable.go:23-36, object.go:27-40). -/
inductive IterRes (α : Type) where
  | yield (a : α)
  | bool (b : Bool)
  | nil
  | crash
deriving DecidableEq, Repr

/-- A call on the `AVLIterator` itself, /repo/src/collection/avl.go:358-398. -/
def AvlIter.call (ops : KeyOps K) (it : AvlIter K V) : IterCall → AvlIter K V × IterRes (K × V)
  | .next => match it.next ops with
    | none => (it, .crash)
    | some (it, none) => (it, .nil)
    | some (it, some e) => (it, .yield e)
  | .hasNext => match it.hasNext ops with
    | none => (it, .crash)
    | some (it, b) => (it, .bool b)
  | .peek => match it.peek ops with
    | none => (it, .crash)
    | some (it, none) => (it, .nil)
    | some (it, some e) => (it, .yield e)

/-- A call on the iterator of a `SortedMap` (/repo/src/collection/sorted_map.go:47-67) or a `SortedSet`
(sorted_set.go:47-67): the type assertion `.(*AVLNode)` panics on the nil result. -/
def AvlIter.sortedCall (ops : KeyOps K) (it : AvlIter K V) (c : IterCall) : AvlIter K V × IterRes (K × V) :=
  match it.call ops c with
  | (it, .nil) => (it, .crash)
  | r => r

/-- `SortedMap.Iterator`, /repo/src/collection/sorted_map.go:69-71 (and sorted_set.go:69-71, avl.go:72-74). -/
def SortedMap.iterator (ops : KeyOps K) (m : SortedMap K V) : Option (AvlIter K V) := AvlIter.new ops m.root none none

/-- `SortedMap.RangeIterator`, /repo/src/collection/sorted_map.go:73-75 (and sorted_set.go:73-75, avl.go:77-79). -/
def SortedMap.rangeIterator (ops : KeyOps K) (m : SortedMap K V) (start stop : Option K) : Option (AvlIter K V) :=
  AvlIter.new ops m.root start stop

end Poodle
