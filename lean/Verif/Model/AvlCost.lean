import Verif.Model.AvlIter

/-
Work done by the tree functions of /repo/src/collection/avl.go: the same functions as in `Avl` and `AvlIter`, with a count
of the calls of the key's `Equal` and `Compare` and of the links (pointers to nodes, on the tree or on the stack of the
iterator) followed.  Everything else between two counted events is straight-line code (the rotations and balance updates
on the way up, avl.go:96-161, :198-213, have no loop and run at most once per link followed on the way down).
-/

namespace Poodle

variable {K V : Type}

/-- A result with the number of calls of `Equal` / `Compare` and the number of links followed to get it
(bookkeeping, no counterpart in /repo/src/collection/avl.go). -/
structure Work (α : Type) where
  calls : Nat
  links : Nat
  res : α
deriving DecidableEq, Repr

namespace Work

/-- `calls` more calls and `links` more links (bookkeeping for /repo/src/collection/avl.go). -/
def more {α β : Type} (calls links : Nat) (w : Work α) (f : α → β) : Work β := ⟨w.calls + calls, w.links + links, f w.res⟩

end Work

namespace Tree

/-- `putR`, /repo/src/collection/avl.go:167-196, with its work: `Equal` at :172, `Compare` at :179, the link at :184. -/
def putW (ops : KeyOps K) (key : K) (value : V) : Tree K V → Work (Tree K V × Option (Option (K × V) × Bool))
  | nil => ⟨0, 0, node key value 0 nil nil, some (none, false)⟩
  | node k v b l r =>
    if ops.equal k key then ⟨1, 0, node key value b l r, some (some (k, v), true)⟩
    else match ops.compare k key with
      | none => ⟨2, 0, node k v b l r, none⟩
      | some c =>
        if c < 0 then
          (putW ops key value r).more 2 1 fun
            | (t, none) => (node k v b l t, none)
            | (t, some (old, done)) => putFinish k v b l r true t old done
        else
          (putW ops key value l).more 2 1 fun
            | (t, none) => (node k v b t r, none)
            | (t, some (old, done)) => putFinish k v b l r false t old done

/-- The loop for the in-order predecessor, /repo/src/collection/avl.go:233-236, on the left sub tree: every iteration
follows one link. -/
def rightmostW : Tree K V → Work (Option (K × V))
  | nil => ⟨0, 0, none⟩
  | node k v _ _ r => match r with
    | nil => ⟨0, 0, some (k, v)⟩
    | _ => r.rightmostW.more 0 1 id

/-- `removeR`, /repo/src/collection/avl.go:219-263, with its work: `Equal` at :225, the predecessor loop at :233-236 (one
link to the left sub tree, then the loop), `Compare` at :242, the link at :247. -/
def removeW (ops : KeyOps K) (key : K) : Tree K V → Work (Tree K V × Option (Option (K × V) × Bool))
  | nil => ⟨0, 0, nil, some (none, true)⟩
  | node k v b l r =>
    if ops.equal k key then
      match l, r with
      | nil, _ => ⟨1, 0, r, some (some (k, v), false)⟩
      | _, nil => ⟨1, 0, l, some (some (k, v), false)⟩
      | _, _ =>
        match l.rightmostW with
        | ⟨_, n, none⟩ => ⟨1, n + 1, node k v b l r, none⟩
        | ⟨_, n, some (hk, hv)⟩ =>
          match ops.compare hk hk with
          | none => ⟨2, n + 1, node hk hv b l r, none⟩
          | some c =>
            if c < 0 then
              (removeW ops hk r).more 2 (n + 2) fun
                | (t, none) => (node hk hv b l t, none)
                | (t, some (_, done)) => removeFinish hk hv b l r true t (some (k, v)) done
            else
              (removeW ops hk l).more 2 (n + 2) fun
                | (t, none) => (node hk hv b t r, none)
                | (t, some (_, done)) => removeFinish hk hv b l r false t (some (k, v)) done
    else match ops.compare k key with
      | none => ⟨2, 0, node k v b l r, none⟩
      | some c =>
        if c < 0 then
          (removeW ops key r).more 2 1 fun
            | (t, none) => (node k v b l t, none)
            | (t, some (node?, done)) => removeFinish k v b l r true t node? done
        else
          (removeW ops key l).more 2 1 fun
            | (t, none) => (node k v b t r, none)
            | (t, some (node?, done)) => removeFinish k v b l r false t node? done

/-- `getR`, /repo/src/collection/avl.go:265-278, with its work (`none`: the comparison panics). -/
def getW (ops : KeyOps K) (key : K) : Tree K V → Work (Option (Option (K × V)))
  | nil => ⟨0, 0, some none⟩
  | node k v _ l r =>
    if ops.equal k key then ⟨1, 0, some (some (k, v))⟩
    else match ops.compare k key with
      | none => ⟨2, 0, none⟩
      | some c => if c < 0 then (getW ops key r).more 2 1 id else (getW ops key l).more 2 1 id

end Tree

namespace SortedMap

/-- `SortedMap.Get`, /repo/src/collection/sorted_map.go:16-23 and avl.go:27-33, with its work. -/
def getW (ops : KeyOps K) (m : SortedMap K V) (k : K) : Work (Option (Option V)) :=
  (m.root.getW ops k).more 0 0 (Option.map (Option.map Prod.snd))

/-- `SortedMap.Put`, /repo/src/collection/sorted_map.go:25-32 and avl.go:36-51, with its work (for a nil root `putR` is not
called; its work on a nil tree is 0 as well). -/
def putW (ops : KeyOps K) (m : SortedMap K V) (k : K) (v : V) : Work (SortedMap K V × Option (Option V)) :=
  (m.root.putW ops k v).more 0 0 fun
    | (t, none) => (⟨t, m.size⟩, none)
    | (t, some (old, _)) => (⟨t, if old.isNone then m.size + 1 else m.size⟩, some (old.map Prod.snd))

/-- `SortedMap.Remove`, /repo/src/collection/sorted_map.go:34-41 and avl.go:54-65, with its work. -/
def removeW (ops : KeyOps K) (m : SortedMap K V) (k : K) : Work (SortedMap K V × Option (Option V)) :=
  (m.root.removeW ops k).more 0 0 fun
    | (t, none) => (⟨t, m.size⟩, none)
    | (t, some (old, _)) => (⟨t, if old.isNone then m.size else m.size - 1⟩, some (old.map Prod.snd))

end SortedMap

namespace AvlIter

/-- `descend` with its work: one link per iteration, /repo/src/collection/avl.go:338-342 and :425-429. -/
def descendW : Tree K V → List (Tree K V) → Work (Tree K V × List (Tree K V))
  | .nil, p => ⟨0, 0, .nil, p⟩
  | .node k v b l r, p =>
    match l with
    | .nil => ⟨0, 0, .node k v b l r, p⟩
    | _ => (descendW l (.node k v b l r :: p)).more 0 1 id

/-- `NewAVLIterator`, /repo/src/collection/avl.go:332-356, with its work (the comparison of the bounds at :348). -/
def newW (ops : KeyOps K) (root : Tree K V) (start stop : Option K) : Work (Option (AvlIter K V)) :=
  match start, stop with
  | some s, some e => (descendW root []).more 1 0 fun (c, p) =>
    match ops.compare s e with
    | none => none
    | some c' => if c' > 0 then none else some ⟨p, c, 0, start, stop⟩
  | _, _ => (descendW root []).more 0 0 fun (c, p) => some ⟨p, c, 0, start, stop⟩

/-- `startSpine` with its work, /repo/src/collection/avl.go:451-456: a comparison per node, a link per move. -/
def startSpineW (ops : KeyOps K) (s : K) : Tree K V → Work (Option (Option (Tree K V)))
  | .nil => ⟨0, 0, none⟩
  | .node k v b l r =>
    match ops.compare s k with
    | none => ⟨1, 0, none⟩
    | some c =>
      if c < 0 then
        match r with
        | .nil => ⟨1, 0, some none⟩
        | _ => (startSpineW ops s r).more 1 1 id
      else ⟨1, 0, some (some (.node k v b l r))⟩

/-- The start loop with its work, /repo/src/collection/avl.go:451-473: taking a node from the stack is a link. -/
def startLoopW (ops : KeyOps K) (s : K) :
    List (Tree K V) → Tree K V → Nat → Work (Option (Option (Tree K V × List (Tree K V) × Nat)))
  | paths, curr, pos =>
    match startSpineW ops s curr with
    | ⟨a, b, none⟩ => ⟨a, b, none⟩
    | ⟨a, b, some (some t)⟩ => ⟨a, b, some (some (t, paths, pos))⟩
    | ⟨a, b, some none⟩ =>
      match paths with
      | [] => ⟨a, b, some none⟩
      | p :: ps => (startLoopW ops s ps p 0).more a (b + 1) id

/-- The end loop with its work, /repo/src/collection/avl.go:481-496. -/
def endLoopW (ops : KeyOps K) (e : K) :
    List (Tree K V) → Tree K V → Nat → Work (Option (Option (Tree K V × List (Tree K V) × Nat)))
  | paths, curr, pos =>
    match curr with
    | .nil => ⟨0, 0, none⟩
    | .node k v b l r =>
      match ops.compare k e with
      | none => ⟨1, 0, none⟩
      | some c =>
        if c ≥ 0 then
          match paths with
          | [] => ⟨1, 0, some none⟩
          | p :: ps => (endLoopW ops e ps p 0).more 1 1 id
        else ⟨1, 0, some (some (.node k v b l r, paths, pos))⟩

/-- `boundEnd` with its work, /repo/src/collection/avl.go:479-499. -/
def boundEndW (ops : KeyOps K) (it : AvlIter K V) : Work (Option (AvlIter K V)) :=
  match it.stop with
  | none => ⟨0, 0, some it⟩
  | some e =>
    (endLoopW ops e it.paths it.curr it.pos).more 0 0 fun
    | none => none
    | some none => some { it with curr := .nil, paths := [], pos := if it.paths = [] then it.pos else 0, stop := none }
    | some (some (c, p, q)) => some { it with curr := c, paths := p, pos := q }

/-- `bounds` with its work, /repo/src/collection/avl.go:449-499. -/
def boundsW (ops : KeyOps K) (it : AvlIter K V) : Work (Option (AvlIter K V)) :=
  match it.start with
  | none => boundEndW ops it
  | some s =>
    match startLoopW ops s it.paths it.curr it.pos with
    | ⟨a, b, none⟩ => ⟨a, b, none⟩
    | ⟨a, b, some none⟩ => ⟨a, b, some { it with curr := .nil, paths := [], pos := if it.paths = [] then it.pos else 0 }⟩
    | ⟨a, b, some (some (c, p, q))⟩ => (boundEndW ops { it with curr := c, paths := p, pos := q, start := none }).more a b id

/-- `step` with its work, /repo/src/collection/avl.go:416-447: one link to the right child or from the stack, then the
descent. -/
def stepW (ops : KeyOps K) (it : AvlIter K V) : Work (Option (AvlIter K V)) :=
  match it.pos with
  | 0 => boundsW ops it
  | 1 =>
    match it.curr with
    | .nil => ⟨0, 0, none⟩
    | .node _ _ _ _ r =>
      match r with
      | .nil =>
        match it.paths with
        | p :: ps => (boundsW ops { it with curr := p, pos := 0, paths := ps }).more 0 1 id
        | [] => ⟨0, 0, some { it with curr := .nil, start := none, stop := none }⟩
      | _ =>
        match descendW r it.paths with
        | ⟨_, n, c, p⟩ => (boundsW ops { it with curr := c, pos := 0, paths := p }).more 0 (n + 1) id
  | _ => ⟨0, 0, none⟩

/-- `advance`, /repo/src/collection/avl.go:400-500, with its work. -/
def advanceW (ops : KeyOps K) (it : AvlIter K V) : Work (Option (AvlIter K V)) :=
  match it.curr, it.paths with
  | .nil, [] => ⟨0, 0, some it⟩
  | .nil, p :: ps => (stepW ops { it with curr := p, pos := 0, paths := ps }).more 0 1 id
  | _, _ => stepW ops it

/-- A call on the iterator of a `SortedMap` with its work: `Next`, `HasNext` and `Peek` call `advance` once and have no loop
of their own, /repo/src/collection/avl.go:358-398, sorted_map.go:47-67. -/
def sortedCallW (ops : KeyOps K) (it : AvlIter K V) (c : IterCall) : Work (AvlIter K V × IterRes (K × V)) :=
  (advanceW ops it).more 0 0 fun _ => it.sortedCall ops c

end AvlIter

end Poodle
