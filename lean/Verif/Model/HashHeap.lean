import Verif.Model.Hash
import Verif.Model.AvlHeap

/-
Model of the hash table of /repo/src/collection/hash.go:41-254 and hash_map.go on nodes that are linked by pointers and changed in place;
several maps and iterators in one program.

All nodes of a program are in one list, a pointer is the position of a node in it, and a new node is put at the end.  `none` is a call
that panics or does not return.  The loops over a bucket get as many steps as there are nodes; a loop that needs more runs in a circle.
As in `Hash`, the seed is part of the hash function, and the computations with floats are an arbitrary `ResizePolicy`.
-/

namespace Poodle

/-- `HashNode`, /repo/src/collection/hash.go:55-59. -/
structure HNd (K V : Type) where
  key : K
  value : V
  link : Ptr
deriving DecidableEq, Repr

/-- The nodes of a program. -/
abbrev HHeap (K V : Type) := List (HNd K V)

/-- `Hash`, /repo/src/collection/hash.go:47-53. -/
structure HHash where
  array : List Ptr
  size : Int
deriving DecidableEq, Repr

namespace HHash
variable {K V : Type}

/-- `NewCustomHash`, /repo/src/collection/hash.go:74-101. -/
def new (capacity : Int) : HHash := ⟨List.replicate (if capacity < 10 then 10 else capacity.toNat) none, 0⟩

/-- The loops over a bucket, /repo/src/collection/hash.go:109-113, :125-134 and :156-182: the first node with an equal key, and the one
before it. -/
def scan (ops : HashOps K) (k : K) (h : HHeap K V) : Nat → Ptr → Ptr → Option (Option (Ptr × Nat))
  | _, _, none => some none
  | 0, _, some _ => none
  | n + 1, prev, some a => match h[a]? with
    | none => none
    | some nd => if ops.equal nd.key k then some (some (prev, a)) else scan ops k h n (some a) nd.link

/-- `Get`, /repo/src/collection/hash.go:103-117; the key and the value of the node. -/
def getNode (ops : HashOps K) (h : HHeap K V) (m : HHash) (k : K) : Option (Option (K × V)) :=
  match HashTab.index ops m.array.length k with
  | none => none
  | some i => match m.array[i]? with
    | none => none
    | some p => match scan ops k h h.length none p with
      | none => none
      | some none => some none
      | some (some (_, a)) => match h[a]? with
        | none => none
        | some nd => some (some (nd.key, nd.value))

/-- The loop over one bucket in `resize`, /repo/src/collection/hash.go:203-209: every node is copied to the new array. -/
def moveChain (ops : HashOps K) : Nat → Ptr → HHeap K V → List Ptr → Option (HHeap K V × List Ptr)
  | _, none, h, arr => some (h, arr)
  | 0, some _, _, _ => none
  | n + 1, some a, h, arr => match h[a]? with
    | none => none
    | some nd => match HashTab.index ops arr.length nd.key with
      | none => none
      | some i => match arr[i]? with
        | none => none
        | some prev => moveChain ops n nd.link (h ++ [⟨nd.key, nd.value, prev⟩]) (arr.set i (some h.length))

/-- The loop over the old array, /repo/src/collection/hash.go:202-210. -/
def moveAll (ops : HashOps K) : List Ptr → HHeap K V → List Ptr → Option (HHeap K V × List Ptr)
  | [], h, arr => some (h, arr)
  | p :: ps, h, arr => match moveChain ops h.length p h arr with
    | none => none
    | some (h', arr') => moveAll ops ps h' arr'

/-- `resize`, /repo/src/collection/hash.go:190-214. -/
def resize (ops : HashOps K) (h : HHeap K V) (m : HHash) (newCapacity : Int) : Option (HHeap K V × HHash) :=
  let n := if newCapacity < 10 then 10 else newCapacity.toNat
  if m.array.length = n then some (h, m)
  else if n > 2 ^ 45 then none
  else match moveAll ops m.array h (List.replicate n none) with
    | none => none
    | some (h', arr) => some (h', ⟨arr, m.size⟩)

/-- The conditional resize, /repo/src/collection/hash.go:142-145 and :170-173. -/
def resizeIf (ops : HashOps K) (h : HHeap K V) (m : HHash) : Option Int → Option (HHeap K V × HHash)
  | none => some (h, m)
  | some c => resize ops h m c

/-- `Put`, /repo/src/collection/hash.go:119-148; the key and the value that were replaced. -/
def putNode (ops : HashOps K) (pol : ResizePolicy) (h : HHeap K V) (m : HHash) (k : K) (v : V) :
    Option ((HHeap K V × HHash) × Option (K × V)) :=
  match HashTab.index ops m.array.length k with
  | none => none
  | some i => match m.array[i]? with
    | none => none
    | some p => match scan ops k h h.length none p with
      | none => none
      | some (some (_, a)) => match h[a]? with
        | none => none
        | some nd => some ((h.set a ⟨k, v, nd.link⟩, m), some (nd.key, nd.value))
      | some none =>
        let h' := h ++ [⟨k, v, p⟩]
        let m' : HHash := ⟨m.array.set i (some h.length), m.size + 1⟩
        match resizeIf ops h' m' (pol.grow m'.size m'.array.length) with
        | none => none
        | some r => some (r, none)

/-- The node `a` is taken out of its bucket, /repo/src/collection/hash.go:161-166: the first one stays linked to the rest. -/
def unlink (h : HHeap K V) (arr : List Ptr) (i : Nat) (prev : Ptr) (a : Nat) (nd : HNd K V) : Option (HHeap K V × List Ptr) :=
  match prev with
  | none => some (h, arr.set i nd.link)
  | some q => match h[q]? with
    | none => none
    | some nq => some ((h.set q ⟨nq.key, nq.value, nd.link⟩).set a ⟨nd.key, nd.value, none⟩, arr)

/-- `Remove`, /repo/src/collection/hash.go:150-184; the key and the value of the node removed. -/
def removeNode (ops : HashOps K) (pol : ResizePolicy) (h : HHeap K V) (m : HHash) (k : K) :
    Option ((HHeap K V × HHash) × Option (K × V)) :=
  match HashTab.index ops m.array.length k with
  | none => none
  | some i => match m.array[i]? with
    | none => none
    | some p => match scan ops k h h.length none p with
      | none => none
      | some none => some ((h, m), none)
      | some (some (prev, a)) => match h[a]? with
        | none => none
        | some nd => match unlink h m.array i prev a nd with
          | none => none
          | some (h', arr) =>
            let m' : HHash := ⟨arr, m.size - 1⟩
            match resizeIf ops h' m' (pol.shrink m'.size m'.array.length) with
            | none => none
            | some r => some (r, some (nd.key, nd.value))

end HHash

/-- `HashIterator`, /repo/src/collection/hash.go:61-65, with the number of its map. -/
structure HHIter where
  map : Nat
  pos : Nat
  curr : Ptr
deriving DecidableEq, Repr

namespace HHIter
variable {K V : Type}

/-- The loop of `advance`, /repo/src/collection/hash.go:242-247. -/
def advLoop (len : Nat) (it : HHIter) : Nat → HHIter × Bool
  | 0 => (it, false)
  | n + 1 => if it.pos < len then (if it.curr.isSome then (it, true) else advLoop len ⟨it.map, it.pos + 1, it.curr⟩ n) else (it, false)

/-- `advance`, /repo/src/collection/hash.go:240-251. -/
def advance (m : HHash) (it : HHIter) : HHIter :=
  match advLoop m.array.length it (m.array.length - it.pos) with
  | (it, true) => it
  | (it, false) => if it.pos < m.array.length then ⟨it.map, it.pos, (m.array[it.pos]?).getD none⟩ else it

/-- `Next`, `HasNext`, `Peek` of hash maps, /repo/src/collection/hash.go:216-238, hash_map.go:52-72: without a node, the first and the
last panic. -/
def call (h : HHeap K V) (m : HHash) (it : HHIter) : IterCall → HHIter × IterRes (K × V)
  | .hasNext => let it := advance m it
    (it, .bool (decide (it.pos < m.array.length ∧ it.curr.isSome)))
  | .next => let it := advance m it
    if it.pos ≥ m.array.length then (it, .crash) else
    match it.curr.bind fun a => h[a]? with
    | none => (it, .crash)
    | some nd => (⟨it.map, it.pos, nd.link⟩, .yield (nd.key, nd.value))
  | .peek => let it := advance m it
    if it.pos ≥ m.array.length then (it, .crash) else
    match it.curr.bind fun a => h[a]? with
    | none => (it, .crash)
    | some nd => (it, .yield (nd.key, nd.value))

end HHIter

/-- Calls of a program, on the maps and iterators numbered in the order they were made, /repo/src/collection/hash_map.go:13-76. -/
inductive HCmd (K V : Type) where
  | newMap (capacity : Int)
  | get (i : Nat) (k : K)
  | put (i : Nat) (k : K) (v : V)
  | remove (i : Nat) (k : K)
  | size (i : Nat)
  | iter (i : Nat)
  | call (j : Nat) (c : IterCall)
deriving DecidableEq, Repr

/-- The nodes, the maps and the iterators of a program, /repo/src/collection/hash.go:47-65. -/
structure HWorld (K V : Type) where
  heap : HHeap K V
  maps : List HHash
  iters : List HHIter
deriving DecidableEq, Repr

namespace HWorld
variable {K V : Type}

/-- Nothing was made yet (/repo/src/collection/hash_map.go:13-19). -/
def new : HWorld K V := ⟨[], [], []⟩

/-- A call, /repo/src/collection/hash_map.go:13-76; each map has its own seed and its own factors, so the operations depend on the map. -/
def exec (ops : Nat → HashOps K) (pol : Nat → ResizePolicy) (w : HWorld K V) : HCmd K V → Option (HWorld K V × Out K V)
  | .newMap cap => some ({ w with maps := w.maps ++ [HHash.new cap] }, .done)
  | .get i k => match w.maps[i]? with
    | none => some (w, .bad)
    | some m => match m.getNode (ops i) w.heap k with
      | none => none
      | some r => some (w, .val (r.map Prod.snd))
  | .put i k v => match w.maps[i]? with
    | none => some (w, .bad)
    | some m => match m.putNode (ops i) (pol i) w.heap k v with
      | none => none
      | some (r, o) => some (⟨r.1, w.maps.set i r.2, w.iters⟩, .val (o.map Prod.snd))
  | .remove i k => match w.maps[i]? with
    | none => some (w, .bad)
    | some m => match m.removeNode (ops i) (pol i) w.heap k with
      | none => none
      | some (r, o) => some (⟨r.1, w.maps.set i r.2, w.iters⟩, .val (o.map Prod.snd))
  | .size i => match w.maps[i]? with
    | none => some (w, .bad)
    | some m => some (w, .size m.size)
  | .iter i => match w.maps[i]? with
    | none => some (w, .bad)
    | some _ => some ({ w with iters := w.iters ++ [⟨i, 0, none⟩] }, .done)
  | .call j c => match w.iters[j]? with
    | none => some (w, .bad)
    | some it => match w.maps[it.map]? with
      | none => some (w, .bad)
      | some m => some ({ w with iters := w.iters.set j (it.call w.heap m c).1 }, .iter (it.call w.heap m c).2)

/-- A program and the results of its calls, /repo/src/collection/hash_map.go:13-76. -/
def run (ops : Nat → HashOps K) (pol : Nat → ResizePolicy) (w : HWorld K V) : List (HCmd K V) → Option (HWorld K V × List (Out K V))
  | [] => some (w, [])
  | c :: cs => match w.exec ops pol c with
    | none => none
    | some (w', o) => match run ops pol w' cs with
      | none => none
      | some (w'', os) => some (w'', o :: os)

end HWorld
end Poodle
