import Verif.Model.AvlIter

/-
Model of /repo/src/collection/avl.go with pointers: nodes live in a heap, are changed in place, and several trees and iterators use
one heap.  `Model/Avl.lean` and `Model/AvlIter.lean` model the same code on algebraic trees; that the two agree is proved.

A heap is the list of all nodes ever made; addresses are positions, nothing is freed.  A recursion or loop along links is given fuel,
the number of nodes of the heap plus one (paths without repetition are shorter), for the loops of an iterator over its stack the length
of the stack, times that number where a loop also follows links; that it is enough is proved, also for an iterator of a map that has
been changed (Props/SortedIterSafe.lean).
-/

namespace Poodle

/-- `*AVLNode`, /repo/src/collection/avl.go:104; `none` is nil. -/
abbrev Ptr := Option Nat

/-- `AVLNode`, /repo/src/collection/avl.go:100-105. -/
structure HNode (K V : Type) where
  key : K
  val : V
  bal : Int
  l : Ptr
  r : Ptr
deriving DecidableEq, Repr

/-- All nodes (of the code in /repo/src/collection/avl.go). -/
abbrev AHeap (K V : Type) := List (HNode K V)

/-- A piece of code that changes a state and returns or panics (`none`).  Changes before a panic stay.  Used for
/repo/src/collection/avl.go. -/
def PM (σ α : Type) := σ → σ × Option α

/-- Sequential execution: the statements of /repo/src/collection/avl.go one after another, nothing after a panic. -/
instance {σ : Type} : Monad (PM σ) where
  pure a := fun h => (h, some a)
  bind x f := fun h => match x h with
    | (h, none) => (h, none)
    | (h, some a) => f a h

/-- A panic (or a nil dereference), /repo/src/collection/avl.go. -/
def PM.panic {σ α : Type} : PM σ α := fun h => (h, none)

/-- Code that works on the nodes, /repo/src/collection/avl.go:16-278. -/
abbrev HM (K V : Type) := PM (AHeap K V)

variable {K V : Type}

namespace HM

/-- Reading a node through a pointer, /repo/src/collection/avl.go:100-105. -/
def load (p : Ptr) : HM K V (HNode K V) := fun h => match p with
  | none => (h, none)
  | some a => (h, h[a]?)

/-- Writing fields of a node through a pointer, /repo/src/collection/avl.go:100-105. -/
def modify (p : Ptr) (f : HNode K V → HNode K V) : HM K V Unit := fun h => match p with
  | none => (h, none)
  | some a => match h[a]? with
    | none => (h, none)
    | some n => (h.set a (f n), some ())

/-- `&AVLNode{key: key, value: value}`, /repo/src/collection/avl.go:40, :169. -/
def alloc (key : K) (value : V) : HM K V Ptr := fun h => (h ++ [⟨key, value, 0, none, none⟩], some (some h.length))

/-- `root.link[dir]`, /repo/src/collection/avl.go:104. -/
def link (p : Ptr) (dir : Bool) : HM K V Ptr := do
  let n ← load p
  return if dir then n.r else n.l

/-- `root.link[dir] = q`, /repo/src/collection/avl.go:104. -/
def setLink (p : Ptr) (dir : Bool) (q : Ptr) : HM K V Unit := modify p fun n => if dir then { n with r := q } else { n with l := q }

/-- `root.balance`, /repo/src/collection/avl.go:103. -/
def bal (p : Ptr) : HM K V Int := do
  let n ← load p
  return n.bal

/-- `root.balance = b`, /repo/src/collection/avl.go:103. -/
def setBal (p : Ptr) (b : Int) : HM K V Unit := modify p fun n => { n with bal := b }

/-- `root.key = key; root.value = value`, /repo/src/collection/avl.go:174-175, :237-238. -/
def setEntry (p : Ptr) (key : K) (value : V) : HM K V Unit := modify p fun n => { n with key := key, val := value }

/-- `a.Compare(b)`, /repo/src/collection/avl.go:179, :242, :270, :348, :451-494. -/
def compare (ops : KeyOps K) (a b : K) : HM K V Int := fun h => (h, ops.compare a b)

/-- `single`, /repo/src/collection/avl.go:112-117. -/
def single (root : Ptr) (dir : Bool) : HM K V Ptr := do
  let save ← link root (!dir)
  let x ← link save dir
  setLink root (!dir) x
  setLink save dir root
  return save

/-- `double`, /repo/src/collection/avl.go:120-131. -/
def double (root : Ptr) (dir : Bool) : HM K V Ptr := do
  let n ← link root (!dir)
  let save ← link n dir
  let n ← link root (!dir)
  let x ← link save (!dir)
  setLink n dir x
  let n ← link root (!dir)
  setLink save (!dir) n
  setLink root (!dir) save
  let save ← link root (!dir)
  let y ← link save dir
  setLink root (!dir) y
  setLink save dir root
  return save

/-- `adjustBalance`, /repo/src/collection/avl.go:134-149. -/
def adjustBalance (root : Ptr) (dir : Bool) (b : Int) : HM K V Unit := do
  let n ← link root dir
  let nn ← link n (!dir)
  let c ← bal nn
  if c = 0 then do
    setBal root 0
    setBal n 0
  else if c = b then do
    setBal root (-b)
    setBal n 0
  else do
    setBal root 0
    setBal n b
  setBal nn 0

/-- `putBalance`, /repo/src/collection/avl.go:151-161. -/
def putBalance (root : Ptr) (dir : Bool) : HM K V Ptr := do
  let n ← link root dir
  let b ← bal n
  if b = Tree.dirBal dir then do
    setBal root 0
    setBal n 0
    single root (!dir)
  else do
    adjustBalance root dir (Tree.dirBal dir)
    double root (!dir)

/-- `removeBalance`, /repo/src/collection/avl.go:198-213. -/
def removeBalance (root : Ptr) (dir : Bool) : HM K V (Ptr × Bool) := do
  let n ← link root (!dir)
  let b ← bal n
  if b = -Tree.dirBal dir then do
    setBal root 0
    setBal n 0
    let p ← single root dir
    return (p, false)
  else if b = Tree.dirBal dir then do
    adjustBalance root (!dir) (-Tree.dirBal dir)
    let p ← double root dir
    return (p, false)
  else do
    setBal root (-Tree.dirBal dir)
    setBal n (Tree.dirBal dir)
    let p ← single root dir
    return (p, true)

/-- The code of `putR` after the recursive call, /repo/src/collection/avl.go:184-195. -/
def putFinish (root : Ptr) (dir : Bool) (p : Ptr) (node : Option (K × V)) (done : Bool) : HM K V (Ptr × Option (K × V) × Bool) := do
  setLink root dir p
  if done then return (root, node, true)
  else do
    let b ← bal root
    setBal root (b + Tree.dirBal dir)
    let b ← bal root
    if b = 0 then return (root, node, true)
    else if b = 1 ∨ b = -1 then return (root, node, false)
    else do
      let p ← putBalance root dir
      return (p, node, true)

/-- `putR`, /repo/src/collection/avl.go:167-196.  Results: the new root, the replaced entry, whether balanced. -/
def putR (ops : KeyOps K) (key : K) (value : V) : Nat → Ptr → HM K V (Ptr × Option (K × V) × Bool)
  | 0, _ => PM.panic
  | _ + 1, none => do
    let p ← alloc key value
    return (p, none, false)
  | fuel + 1, some a => do
    let n ← load (some a)
    if ops.equal n.key key then do
      setEntry (some a) key value
      return (some a, some (n.key, n.val), true)
    else do
      let c ← compare ops n.key key
      let q ← link (some a) (decide (c < 0))
      let (p, node, done) ← putR ops key value fuel q
      putFinish (some a) (decide (c < 0)) p node done

/-- The loop `for heir.link[1] != nil { heir = heir.link[1] }`, /repo/src/collection/avl.go:233-236: key and value of the heir. -/
def heir : Nat → Ptr → HM K V (K × V)
  | 0, _ => PM.panic
  | fuel + 1, p => do
    let n ← load p
    match n.r with
    | none => return (n.key, n.val)
    | some q => heir fuel (some q)

/-- The code of `removeR` after the recursive call, /repo/src/collection/avl.go:247-262 (`found` already merged). -/
def removeFinish (root : Ptr) (dir : Bool) (p : Ptr) (found : Option (K × V)) (done : Bool) : HM K V (Ptr × Option (K × V) × Bool) := do
  setLink root dir p
  if done then return (root, found, true)
  else do
    let b ← bal root
    setBal root (b - Tree.dirBal dir)
    let b ← bal root
    if b = 1 ∨ b = -1 then return (root, found, true)
    else if b = 0 then return (root, found, false)
    else do
      let (p, d) ← removeBalance root dir
      return (p, found, d)

/-- `removeR`, /repo/src/collection/avl.go:219-263. -/
def removeR (ops : KeyOps K) : Nat → K → Ptr → HM K V (Ptr × Option (K × V) × Bool)
  | 0, _, _ => PM.panic
  | _ + 1, _, none => return (none, none, true)
  | fuel + 1, key, some a => do
    let n ← load (some a)
    if ops.equal n.key key then
      match n.l, n.r with
      | none, r => return (r, some (n.key, n.val), false)
      | l, none => return (l, some (n.key, n.val), false)
      | l, _ => do
        let (hk, hv) ← heir fuel l
        setEntry (some a) hk hv
        let c ← compare ops hk hk
        let q ← link (some a) (decide (c < 0))
        let (p, _, done) ← removeR ops fuel hk q
        removeFinish (some a) (decide (c < 0)) p (some (n.key, n.val)) done
    else do
      let c ← compare ops n.key key
      let q ← link (some a) (decide (c < 0))
      let (p, node, done) ← removeR ops fuel key q
      removeFinish (some a) (decide (c < 0)) p node done

/-- `getR`, /repo/src/collection/avl.go:265-278, and the nil test of `AVLTree.Get`, :27-33. -/
def getR (ops : KeyOps K) (key : K) : Nat → Ptr → HM K V (Option (K × V))
  | 0, _ => PM.panic
  | _ + 1, none => return none
  | fuel + 1, some a => do
    let n ← load (some a)
    if ops.equal n.key key then return some (n.key, n.val)
    else do
      let c ← compare ops n.key key
      let q ← link (some a) (decide (c < 0))
      getR ops key fuel q

end HM

/-- `AVLTree`, /repo/src/collection/avl.go:16-19, and `SortedMap`, sorted_map.go:3-5. -/
structure HMap where
  root : Ptr
  size : Int
deriving DecidableEq, Repr

namespace HMap

/-- `NewSortedMap`, /repo/src/collection/sorted_map.go:11-14. -/
def new : HMap := ⟨none, 0⟩

/-- `AVLTree.Get` and `SortedMap.Get`, /repo/src/collection/avl.go:27-33, sorted_map.go:16-23. -/
def get (ops : KeyOps K) (m : HMap) (k : K) : HM K V (Option V) := fun h =>
  ((HM.getR ops k (h.length + 1) m.root h).1, (HM.getR ops k (h.length + 1) m.root h).2.map (Option.map Prod.snd))

/-- `AVLTree.Put` and `SortedMap.Put`, /repo/src/collection/avl.go:36-51, sorted_map.go:25-32.  After a panic the tree object is as
before (`t.root` is not assigned), but nodes may have been changed. -/
def put (ops : KeyOps K) (m : HMap) (k : K) (v : V) (h : AHeap K V) : AHeap K V × HMap × Option (Option V) :=
  match m.root with
  | none => ((HM.alloc k v h).1, ⟨some h.length, m.size + 1⟩, some none)
  | some a => match HM.putR ops k v (h.length + 1) (some a) h with
    | (h, none) => (h, m, none)
    | (h, some (p, old, _)) => (h, ⟨p, if old.isNone then m.size + 1 else m.size⟩, some (old.map Prod.snd))

/-- `AVLTree.Remove` and `SortedMap.Remove`, /repo/src/collection/avl.go:54-65, sorted_map.go:34-41. -/
def remove (ops : KeyOps K) (m : HMap) (k : K) (h : AHeap K V) : AHeap K V × HMap × Option (Option V) :=
  match HM.removeR ops (h.length + 1) k m.root h with
  | (h, none) => (h, m, none)
  | (h, some (p, old, _)) => (h, ⟨p, if old.isNone then m.size else m.size - 1⟩, some (old.map Prod.snd))

end HMap

/-! ### Iterators -/

/-- `AVLIterator`, /repo/src/collection/avl.go:323-330.  `paths` is the Go slice reversed. -/
structure HIter (K : Type) where
  paths : List Nat
  curr : Ptr
  pos : Nat
  start : Option K
  stop : Option K
deriving DecidableEq, Repr

/-- Code that works on an iterator and reads nodes, /repo/src/collection/avl.go:358-500. -/
abbrev IM (K : Type) := PM (HIter K)

namespace HIter

/-- The fields of the iterator, /repo/src/collection/avl.go:323-330. -/
def self : IM K (HIter K) := fun it => (it, some it)

/-- Assignment of fields of the iterator, /repo/src/collection/avl.go:323-330. -/
def assign (f : HIter K → HIter K) : IM K Unit := fun it => (f it, some ())

/-- Reading a node, /repo/src/collection/avl.go:100-105. -/
def node (h : AHeap K V) (p : Ptr) : IM K (HNode K V) := fun it => match p with
  | none => (it, none)
  | some a => (it, h[a]?)

/-- A comparison, /repo/src/collection/avl.go:451-494. -/
def compare (ops : KeyOps K) (a b : K) : IM K Int := fun it => (it, ops.compare a b)

/-- The loops that push a node and go to its left child, /repo/src/collection/avl.go:338-342, :425-429. -/
def descend (h : AHeap K V) : Nat → IM K Unit
  | 0 => PM.panic
  | fuel + 1 => do
    let it ← self
    match it.curr with
    | none => return ()
    | some a => do
      let n ← node h (some a)
      match n.l with
      | none => return ()
      | some q => do
        assign fun it => { it with paths := a :: it.paths, curr := some q, pos := 0 }
        descend h fuel

/-- `NewAVLIterator`, /repo/src/collection/avl.go:332-356 (`none`: panics). -/
def new (ops : KeyOps K) (h : AHeap K V) (root : Ptr) (start stop : Option K) : Option (HIter K) :=
  match descend h (h.length + 1) ⟨[], root, 0, none, none⟩ with
  | (_, none) => none
  | (it, some _) => match start, stop with
    | some s, some e => match ops.compare s e with
      | none => none
      | some c => if c > 0 then none else some { it with start := start, stop := stop }
    | _, _ => some { it with start := start, stop := stop }

/-- The start loop, /repo/src/collection/avl.go:451-473.  The result says whether the iterator is exhausted (line 463). -/
def startLoop (ops : KeyOps K) (h : AHeap K V) (s : K) : Nat → IM K Bool
  | 0 => PM.panic
  | fuel + 1 => do
    let it ← self
    let n ← node h it.curr
    let c ← compare ops s n.key
    if c < 0 then
      match n.r with
      | some q => do
        assign fun it => { it with curr := some q }
        startLoop ops h s fuel
      | none => match it.paths with
        | [] => do
          assign fun it => { it with curr := none }
          return true
        | p :: ps => do
          assign fun it => { it with curr := some p, pos := 0, paths := ps }
          startLoop ops h s fuel
    else return false

/-- The end loop, /repo/src/collection/avl.go:481-496. -/
def endLoop (ops : KeyOps K) (h : AHeap K V) (e : K) : Nat → IM K Unit
  | 0 => PM.panic
  | fuel + 1 => do
    let it ← self
    let n ← node h it.curr
    let c ← compare ops n.key e
    if c ≥ 0 then
      match it.paths with
      | [] => assign fun it => { it with curr := none, stop := none }
      | p :: ps => do
        assign fun it => { it with curr := some p, pos := 0, paths := ps }
        endLoop ops h e fuel
    else return ()

/-- Lines 479-499 of `advance`, /repo/src/collection/avl.go. -/
def boundEnd (ops : KeyOps K) (h : AHeap K V) : IM K Unit := do
  let it ← self
  match it.stop with
  | none => return ()
  | some e => endLoop ops h e (it.paths.length + 1)

/-- Lines 449-499 of `advance`, /repo/src/collection/avl.go. -/
def bounds (ops : KeyOps K) (h : AHeap K V) : IM K Unit := do
  let it ← self
  match it.start with
  | none => boundEnd ops h
  | some s => do
    let exhausted ← startLoop ops h s ((it.paths.length + 1) * (h.length + 1))
    if exhausted then return ()
    else do
      assign fun it => { it with start := none }
      boundEnd ops h

/-- Lines 416-499 of `advance`, /repo/src/collection/avl.go. -/
def step (ops : KeyOps K) (h : AHeap K V) : IM K Unit := do
  let it ← self
  match it.pos with
  | 0 => bounds ops h
  | 1 => do
    let n ← node h it.curr
    match n.r with
    | some q => do
      assign fun it => { it with curr := some q, pos := 0 }
      descend h (h.length + 1)
      bounds ops h
    | none => match it.paths with
      | p :: ps => do
        assign fun it => { it with curr := some p, pos := 0, paths := ps }
        bounds ops h
      | [] => assign fun it => { it with curr := none, start := none, stop := none }
  | _ => PM.panic

/-- `advance`, /repo/src/collection/avl.go:400-500. -/
def advance (ops : KeyOps K) (h : AHeap K V) : IM K Unit := do
  let it ← self
  match it.curr, it.paths with
  | none, [] => return ()
  | none, p :: ps => do
    assign fun it => { it with curr := some p, pos := 0, paths := ps }
    step ops h
  | some _, _ => step ops h

/-- `Next`, `HasNext` and `Peek` of the tree iterator, /repo/src/collection/avl.go:358-398. -/
def call (ops : KeyOps K) (h : AHeap K V) : IterCall → IM K (IterRes (K × V))
  | .next => do
    advance ops h
    let it ← self
    match it.curr, it.paths with
    | none, [] => return .nil
    | p, _ => do
      let n ← node h p
      assign fun it => { it with pos := 1 }
      return .yield (n.key, n.val)
  | .hasNext => do
    advance ops h
    let it ← self
    match it.curr, it.paths with
    | none, [] => return .bool false
    | _, _ => return .bool true
  | .peek => do
    advance ops h
    let it ← self
    match it.curr with
    | none => return .nil
    | some a => do
      let n ← node h (some a)
      return .yield (n.key, n.val)

/-- The same of the iterator of a `SortedMap`, /repo/src/collection/sorted_map.go:47-67: the type assertion panics on nil. -/
def sortedCall (ops : KeyOps K) (h : AHeap K V) (it : HIter K) (c : IterCall) : HIter K × IterRes (K × V) :=
  match call ops h c it with
  | (it, none) => (it, .crash)
  | (it, some .nil) => (it, .crash)
  | (it, some r) => (it, r)

end HIter

/-! ### Programs -/

/-- Calls of a program that uses sorted maps and iterators, /repo/src/collection/comparable.go:23-76. -/
inductive Cmd (K V : Type) where
  | newMap
  | get (i : Nat) (k : K)
  | put (i : Nat) (k : K) (v : V)
  | remove (i : Nat) (k : K)
  | size (i : Nat)
  | iter (i : Nat) (start stop : Option K)
  | call (j : Nat) (c : IterCall)
deriving DecidableEq, Repr

/-- What a call returns, /repo/src/collection/comparable.go:23-76.  `none` in `val`: nil.  `done`: an object was made; `bad`: there is
no such map or iterator (not a program). -/
inductive Out (K V : Type) where
  | done
  | val (v : Option V)
  | size (n : Int)
  | iter (r : IterRes (K × V))
  | crash
  | bad
deriving DecidableEq, Repr

/-- All objects of a program, /repo/src/collection/avl.go, sorted_map.go. -/
structure World (K V : Type) where
  heap : AHeap K V
  maps : List HMap
  iters : List (HIter K)
deriving DecidableEq, Repr

namespace World

/-- No objects (of /repo/src/collection/avl.go) yet. -/
def new : World K V := ⟨[], [], []⟩

/-- One call, /repo/src/collection/sorted_map.go:11-75. -/
def exec (ops : KeyOps K) (w : World K V) : Cmd K V → World K V × Out K V
  | .newMap => ({ w with maps := w.maps ++ [HMap.new] }, .done)
  | .get i k => match w.maps[i]? with
    | none => (w, .bad)
    | some m => match m.get ops k w.heap with
      | (h, none) => ({ w with heap := h }, .crash)
      | (h, some r) => ({ w with heap := h }, .val r)
  | .put i k v => match w.maps[i]? with
    | none => (w, .bad)
    | some m => match m.put ops k v w.heap with
      | (h, m, none) => ({ w with heap := h, maps := w.maps.set i m }, .crash)
      | (h, m, some r) => ({ w with heap := h, maps := w.maps.set i m }, .val r)
  | .remove i k => match w.maps[i]? with
    | none => (w, .bad)
    | some m => match m.remove ops k w.heap with
      | (h, m, none) => ({ w with heap := h, maps := w.maps.set i m }, .crash)
      | (h, m, some r) => ({ w with heap := h, maps := w.maps.set i m }, .val r)
  | .size i => match w.maps[i]? with
    | none => (w, .bad)
    | some m => (w, .size m.size)
  | .iter i start stop => match w.maps[i]? with
    | none => (w, .bad)
    | some m => match HIter.new ops w.heap m.root start stop with
      | none => (w, .crash)
      | some it => ({ w with iters := w.iters ++ [it] }, .done)
  | .call j c => match w.iters[j]? with
    | none => (w, .bad)
    | some it => match it.sortedCall ops w.heap c with
      | (it, .crash) => ({ w with iters := w.iters.set j it }, .crash)
      | (it, r) => ({ w with iters := w.iters.set j it }, .iter r)

/-- All calls of a program (on /repo/src/collection/sorted_map.go), one after another. -/
def run (ops : KeyOps K) (w : World K V) : List (Cmd K V) → World K V × List (Out K V)
  | [] => (w, [])
  | c :: cs => ((run ops (w.exec ops c).1 cs).1, (w.exec ops c).2 :: (run ops (w.exec ops c).1 cs).2)

end World

end Poodle
