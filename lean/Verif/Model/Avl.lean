import Verif.Model.Basic

/-
Model of /repo/src/collection/avl.go (AVL tree), /repo/src/collection/sorted_map.go and
/repo/src/collection/sorted_set.go (without iterators, see `AvlIter`).

Node pointers become an algebraic tree (`AvlHeap` has pointers; that the code never shares nodes is C129).  Keys are abstract; the two methods of the
`IComparable` interface the code calls are the fields of `KeyOps`.  A comparison may panic, and what the tree looks like
after a recovered panic is part of the model.  The nil interface as a key is in `NilKey` (avl.go:37-38, :55-56 panic).
-/

namespace Poodle

/-- The methods of `IComparable` used by the tree, /repo/src/collection/comparable.go:12-21; `none`: the
comparison panics. -/
structure KeyOps (K : Type) where
  equal : K → K → Bool
  compare : K → K → Option Int

/-- `AVLNode` and nil, /repo/src/collection/avl.go:100-105; `l` is `link[0]`, `r` is `link[1]`. -/
inductive Tree (K V : Type) where
  | nil : Tree K V
  | node (key : K) (val : V) (bal : Int) (l r : Tree K V) : Tree K V
deriving DecidableEq, Repr

variable {K V : Type}

namespace Tree

/-- `root.link[dir]`, /repo/src/collection/avl.go:104; `none`: nil dereference.  `dir` 0 is `false`, 1 is `true`. -/
def link? : Tree K V → Bool → Option (Tree K V)
  | nil, _ => none
  | node _ _ _ l r, dir => some (if dir then r else l)

/-- `root.link[dir] = t`, /repo/src/collection/avl.go:104. -/
def setLink? : Tree K V → Bool → Tree K V → Option (Tree K V)
  | nil, _, _ => none
  | node k v b l r, dir, t => some (if dir then node k v b l t else node k v b t r)

/-- `root.balance`, /repo/src/collection/avl.go:103. -/
def bal? : Tree K V → Option Int
  | nil => none
  | node _ _ b _ _ => some b

/-- `root.balance = b`, /repo/src/collection/avl.go:103. -/
def setBal? : Tree K V → Int → Option (Tree K V)
  | nil, _ => none
  | node k v _ l r, b => some (node k v b l r)

/-- `2*dir - 1`, /repo/src/collection/avl.go:153, :188, :200. -/
def dirBal (dir : Bool) : Int := if dir then 1 else -1

/-- `single`, /repo/src/collection/avl.go:112-117 (`none`: nil dereference, here and below). -/
def single (root : Tree K V) (dir : Bool) : Option (Tree K V) := do
  let save ← root.link? (!dir)
  let x ← save.link? dir
  let root ← root.setLink? (!dir) x
  save.setLink? dir root

/-- `double`, /repo/src/collection/avl.go:120-131. -/
def double (root : Tree K V) (dir : Bool) : Option (Tree K V) := do
  let n ← root.link? (!dir)
  let save ← n.link? dir
  let x ← save.link? (!dir)
  let n ← n.setLink? dir x
  let save ← save.setLink? (!dir) n
  let root ← root.setLink? (!dir) save
  let save ← root.link? (!dir)
  let y ← save.link? dir
  let root ← root.setLink? (!dir) y
  save.setLink? dir root

/-- `adjustBalance`, /repo/src/collection/avl.go:134-149. -/
def adjustBalance (root : Tree K V) (dir : Bool) (bal : Int) : Option (Tree K V) := do
  let n ← root.link? dir
  let nn ← n.link? (!dir)
  let b ← nn.bal?
  let (rb, nb) := if b = 0 then ((0 : Int), (0 : Int)) else if b = bal then (-bal, 0) else (0, bal)
  let root ← root.setBal? rb
  let n ← n.setBal? nb
  let nn ← nn.setBal? 0
  let n ← n.setLink? (!dir) nn
  root.setLink? dir n

/-- `putBalance`, /repo/src/collection/avl.go:151-161. -/
def putBalance (root : Tree K V) (dir : Bool) : Option (Tree K V) := do
  let n ← root.link? dir
  let b ← n.bal?
  if b = dirBal dir then
    let root ← root.setBal? 0
    let n ← n.setBal? 0
    let root ← root.setLink? dir n
    root.single (!dir)
  else
    let root ← root.adjustBalance dir (dirBal dir)
    root.double (!dir)

/-- `removeBalance`, /repo/src/collection/avl.go:198-213. -/
def removeBalance (root : Tree K V) (dir : Bool) : Option (Tree K V × Bool) := do
  let n ← root.link? (!dir)
  let b ← n.bal?
  if b = -dirBal dir then
    let root ← root.setBal? 0
    let n ← n.setBal? 0
    let root ← root.setLink? (!dir) n
    let root ← root.single dir
    return (root, false)
  else if b = dirBal dir then
    let root ← root.adjustBalance (!dir) (-dirBal dir)
    let root ← root.double dir
    return (root, false)
  else
    let root ← root.setBal? (-dirBal dir)
    let n ← n.setBal? (dirBal dir)
    let root ← root.setLink? (!dir) n
    let root ← root.single dir
    return (root, true)

/-- The code after the recursive call of `putR`, /repo/src/collection/avl.go:184-195: `t` is the new sub tree at `dir`.
(If the rotation panics the tree is reported without the partial rotation; this is shown unreachable.) -/
def putFinish (k0 : K) (v0 : V) (b : Int) (l r : Tree K V) (dir : Bool) (t : Tree K V) (old : Option (K × V)) (done : Bool) :
    Tree K V × Option (Option (K × V) × Bool) :=
  let l := if dir then l else t
  let r := if dir then t else r
  if done then (node k0 v0 b l r, some (old, true))
  else
    let b := b + dirBal dir
    if b = 0 then (node k0 v0 b l r, some (old, true))
    else if b = 1 ∨ b = -1 then (node k0 v0 b l r, some (old, false))
    else match (node k0 v0 b l r).putBalance dir with
      | some t => (t, some (old, true))
      | none => (node k0 v0 b l r, none)

/-- `putR`, /repo/src/collection/avl.go:167-196.  First component: the tree after the call (also after a panic); second:
`none` if the call panicked, else the replaced entry and the "balanced" flag.  If the recursive call panics, the
assignment `root.link[dir] = ...` does not happen, but the sub tree itself may have been mutated in place. -/
def putR (ops : KeyOps K) (key : K) (value : V) : Tree K V → Tree K V × Option (Option (K × V) × Bool)
  | nil => (node key value 0 nil nil, some (none, false))
  | node k v b l r =>
    if ops.equal k key then (node key value b l r, some (some (k, v), true))
    else match ops.compare k key with
      | none => (node k v b l r, none)
      | some c =>
        if c < 0 then
          match putR ops key value r with
          | (t, none) => (node k v b l t, none)
          | (t, some (old, done)) => putFinish k v b l r true t old done
        else
          match putR ops key value l with
          | (t, none) => (node k v b t r, none)
          | (t, some (old, done)) => putFinish k v b l r false t old done

/-- The rightmost node: the loop `heir := root.link[0]; for heir.link[1] != nil {...}`, /repo/src/collection/avl.go:233-236,
on the (non-nil) left sub tree. -/
def rightmost : Tree K V → Option (K × V)
  | nil => none
  | node k v _ _ r => match r with
    | nil => some (k, v)
    | _ => r.rightmost

/-- The code after the recursive call of `removeR`, /repo/src/collection/avl.go:247-262 (`found` already merged). -/
def removeFinish (k0 : K) (v0 : V) (b : Int) (l r : Tree K V) (dir : Bool) (t : Tree K V) (found : Option (K × V)) (done : Bool) :
    Tree K V × Option (Option (K × V) × Bool) :=
  let l := if dir then l else t
  let r := if dir then t else r
  if done then (node k0 v0 b l r, some (found, true))
  else
    let b := b - dirBal dir
    if b = 1 ∨ b = -1 then (node k0 v0 b l r, some (found, true))
    else if b = 0 then (node k0 v0 b l r, some (found, false))
    else match (node k0 v0 b l r).removeBalance dir with
      | some (t, d) => (t, some (found, d))
      | none => (node k0 v0 b l r, none)

/-- `removeR`, /repo/src/collection/avl.go:219-263; result as for `putR`.  In the two-children case the node takes over
key and value of its in-order predecessor *before* recursing (lines 237-239), and continues at line 241 with that key. -/
def removeR (ops : KeyOps K) (key : K) : Tree K V → Tree K V × Option (Option (K × V) × Bool)
  | nil => (nil, some (none, true))
  | node k v b l r =>
    if ops.equal k key then
      match l, r with
      | nil, _ => (r, some (some (k, v), false))
      | _, nil => (l, some (some (k, v), false))
      | _, _ =>
        match l.rightmost with
        | none => (node k v b l r, none)
        | some (hk, hv) =>
          match ops.compare hk hk with
          | none => (node hk hv b l r, none)
          | some c =>
            if c < 0 then
              match removeR ops hk r with
              | (t, none) => (node hk hv b l t, none)
              | (t, some (_, done)) => removeFinish hk hv b l r true t (some (k, v)) done
            else
              match removeR ops hk l with
              | (t, none) => (node hk hv b t r, none)
              | (t, some (_, done)) => removeFinish hk hv b l r false t (some (k, v)) done
    else match ops.compare k key with
      | none => (node k v b l r, none)
      | some c =>
        if c < 0 then
          match removeR ops key r with
          | (t, none) => (node k v b l t, none)
          | (t, some (node?, done)) => removeFinish k v b l r true t node? done
        else
          match removeR ops key l with
          | (t, none) => (node k v b t r, none)
          | (t, some (node?, done)) => removeFinish k v b l r false t node? done

/-- `getR`, /repo/src/collection/avl.go:265-278, and the nil test of `AVLTree.Get`, :27-33.  Outer `none`: the comparison
panics.  The second component counts the visited nodes (each costs at most one `Equal` and one `Compare`). -/
def getR (ops : KeyOps K) (key : K) : Tree K V → Option (Option (K × V) × Nat)
  | nil => some (none, 0)
  | node k v _ l r =>
    if ops.equal k key then some (some (k, v), 1)
    else match ops.compare k key with
      | none => none
      | some c =>
        if c < 0 then (getR ops key r).map fun (x, n) => (x, n + 1)
        else (getR ops key l).map fun (x, n) => (x, n + 1)

end Tree

/-- `AVLTree`, /repo/src/collection/avl.go:16-19; also the single field of `SortedMap` (sorted_map.go:3-5) and `SortedSet`
(sorted_set.go:3-5). -/
structure SortedMap (K V : Type) where
  root : Tree K V
  size : Int
deriving DecidableEq, Repr

namespace SortedMap

/-- `NewSortedMap` / `NewSortedSet` / `NewAVLTree`, /repo/src/collection/sorted_map.go:11-14, sorted_set.go:11-14, avl.go:22-24. -/
def new : SortedMap K V := ⟨.nil, 0⟩

/-- `AVLTree.Get`, /repo/src/collection/avl.go:27-33 (outer `none`: panic, inner `none`: nil). -/
def getNode (ops : KeyOps K) (m : SortedMap K V) (k : K) : Option (Option (K × V)) := (m.root.getR ops k).map Prod.fst

/-- `AVLTree.Put`, /repo/src/collection/avl.go:36-51. -/
def putNode (ops : KeyOps K) (m : SortedMap K V) (k : K) (v : V) : SortedMap K V × Option (Option (K × V)) :=
  match m.root with
  | .nil => (⟨.node k v 0 .nil .nil, m.size + 1⟩, some none)
  | root => match root.putR ops k v with
    | (t, none) => (⟨t, m.size⟩, none)
    | (t, some (old, _)) => (⟨t, if old.isNone then m.size + 1 else m.size⟩, some old)

/-- `AVLTree.Remove`, /repo/src/collection/avl.go:54-65.  A root replaced during a panicking call is not assigned, but no
rotation precedes a panic on the way up, so the mutated tree is still the root. -/
def removeNode (ops : KeyOps K) (m : SortedMap K V) (k : K) : SortedMap K V × Option (Option (K × V)) :=
  match m.root.removeR ops k with
  | (t, none) => (⟨t, m.size⟩, none)
  | (t, some (old, _)) => (⟨t, if old.isNone then m.size else m.size - 1⟩, some old)

/-- `SortedMap.Get`, /repo/src/collection/sorted_map.go:16-23 (the value, or nil as `none`). -/
def get (ops : KeyOps K) (m : SortedMap K V) (k : K) : Option (Option V) := (m.getNode ops k).map (Option.map Prod.snd)

/-- `SortedMap.Put`, /repo/src/collection/sorted_map.go:25-32. -/
def put (ops : KeyOps K) (m : SortedMap K V) (k : K) (v : V) : SortedMap K V × Option (Option V) :=
  let (m', r) := m.putNode ops k v
  (m', r.map (Option.map Prod.snd))

/-- `SortedMap.Remove`, /repo/src/collection/sorted_map.go:34-41. -/
def remove (ops : KeyOps K) (m : SortedMap K V) (k : K) : SortedMap K V × Option (Option V) :=
  let (m', r) := m.removeNode ops k
  (m', r.map (Option.map Prod.snd))

/-- `SortedSet.Exist`, /repo/src/collection/sorted_set.go:16-23. -/
def exist (ops : KeyOps K) (m : SortedMap K Unit) (k : K) : Option Bool := (m.getNode ops k).map Option.isSome

/-- `SortedSet.Put`, /repo/src/collection/sorted_set.go:25-32 (stores the value nil). -/
def setPut (ops : KeyOps K) (m : SortedMap K Unit) (k : K) : SortedMap K Unit × Option (Option K) :=
  let (m', r) := m.putNode ops k ()
  (m', r.map (Option.map Prod.fst))

/-- `SortedSet.Remove`, /repo/src/collection/sorted_set.go:34-41. -/
def setRemove (ops : KeyOps K) (m : SortedMap K Unit) (k : K) : SortedMap K Unit × Option (Option K) :=
  let (m', r) := m.removeNode ops k
  (m', r.map (Option.map Prod.fst))

end SortedMap

end Poodle
