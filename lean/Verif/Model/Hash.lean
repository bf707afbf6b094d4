import Verif.Model.AvlIter

/-
Model of the hash table of /repo/src/collection/hash.go:41-254, hash_map.go and hash_set.go.

A bucket is the list of its nodes, head of the linked list first.  The seed is folded into the hash function of the keys.
The load factor and multiplier computations are `float32`; they only decide *when* to resize and to *which* capacity, and
are replaced by an arbitrary `ResizePolicy`.
-/

namespace Poodle

variable {K V : Type}

/-- The methods of `IHashable` as used by the table, /repo/src/collection/hashable.go:13-25; `hash k` is
`k.HashUint32(h.seed.Hash)`. -/
structure HashOps (K : Type) where
  equal : K → K → Bool
  hash : K → UInt32

/-- The float computations at /repo/src/collection/hash.go:142-145 (`grow`) and :170-173 (`shrink`): from size and capacity,
the capacity to request from `resize`, if any. -/
structure ResizePolicy where
  grow : Int → Nat → Option Int
  shrink : Int → Nat → Option Int

/-- `Hash`, /repo/src/collection/hash.go:47-53. -/
structure HashTab (K V : Type) where
  array : List (List (K × V))
  size : Int
deriving DecidableEq, Repr

namespace HashTab

/-- `NewCustomHash`, /repo/src/collection/hash.go:74-101 (the clamping of the two floats is part of the policy). -/
def new (capacity : Int) : HashTab K V :=
  ⟨List.replicate (if capacity < 10 then 10 else capacity.toNat) [], 0⟩

/-- `k.HashUint32(seed) % uint32(len(array))`, /repo/src/collection/hash.go:106, :122, :153, :205 (`none`: division by zero,
when the length is a multiple of 2^32). -/
def index (ops : HashOps K) (len : Nat) (k : K) : Option Nat :=
  if len % 2 ^ 32 = 0 then none else some ((ops.hash k).toNat % (len % 2 ^ 32))

/-- Scan of a bucket, /repo/src/collection/hash.go:109-113. -/
def chainGet (ops : HashOps K) (k : K) : List (K × V) → Option (K × V)
  | [] => none
  | e :: es => if ops.equal e.1 k then some e else chainGet ops k es

/-- Scan of a bucket replacing the first node with an equal key, /repo/src/collection/hash.go:125-134; the previous content
of the node and the new bucket. -/
def chainPut (ops : HashOps K) (k : K) (v : V) : List (K × V) → Option ((K × V) × List (K × V))
  | [] => none
  | e :: es => if ops.equal e.1 k then some (e, (k, v) :: es) else (chainPut ops k v es).map fun (o, es') => (o, e :: es')

/-- Scan of a bucket unlinking the first node with an equal key, /repo/src/collection/hash.go:158-180. -/
def chainRemove (ops : HashOps K) (k : K) : List (K × V) → Option ((K × V) × List (K × V))
  | [] => none
  | e :: es => if ops.equal e.1 k then some (e, es) else (chainRemove ops k es).map fun (o, es') => (o, e :: es')

/-- `Hash.Get`, /repo/src/collection/hash.go:103-117 (outer `none`: panics). -/
def getNode (ops : HashOps K) (h : HashTab K V) (k : K) : Option (Option (K × V)) :=
  match index ops h.array.length k with
  | none => none
  | some i => match h.array[i]? with
    | none => none
    | some c => some (chainGet ops k c)

/-- Inserting a node at the head of its bucket in the new array, /repo/src/collection/hash.go:205-207. -/
def rehash1 (ops : HashOps K) (arr : List (List (K × V))) (e : K × V) : Option (List (List (K × V))) :=
  match index ops arr.length e.1 with
  | none => none
  | some i => match arr[i]? with
    | none => none
    | some c => some (arr.set i (e :: c))

/-- The loop over one bucket, /repo/src/collection/hash.go:203-209. -/
def rehashChain (ops : HashOps K) (arr : List (List (K × V))) : List (K × V) → Option (List (List (K × V)))
  | [] => some arr
  | e :: es => match rehash1 ops arr e with
    | none => none
    | some arr' => rehashChain ops arr' es

/-- The loop over the old array, /repo/src/collection/hash.go:202-210. -/
def rehash (ops : HashOps K) (arr : List (List (K × V))) : List (List (K × V)) → Option (List (List (K × V)))
  | [] => some arr
  | c :: cs => match rehashChain ops arr c with
    | none => none
    | some arr' => rehash ops arr' cs

/-- `Hash.resize`, /repo/src/collection/hash.go:190-214 (`none`: panics; `make` fails above 2^45 pointers). -/
def resize (ops : HashOps K) (h : HashTab K V) (newCapacity : Int) : Option (HashTab K V) :=
  let n := if newCapacity < 10 then 10 else newCapacity.toNat
  if h.array.length = n then some h
  else if n > 2 ^ 45 then none
  else match rehash ops (List.replicate n []) h.array with
    | none => none
    | some arr => some ⟨arr, h.size⟩

/-- The conditional resize, /repo/src/collection/hash.go:142-145 and :170-173. -/
def resizeIf (ops : HashOps K) (h : HashTab K V) : Option Int → Option (HashTab K V)
  | none => some h
  | some c => h.resize ops c

/-- `Hash.Put`, /repo/src/collection/hash.go:119-148 (`none`: panics; the state after a panic is not modelled). -/
def putNode (ops : HashOps K) (pol : ResizePolicy) (h : HashTab K V) (k : K) (v : V) : Option (HashTab K V × Option (K × V)) :=
  match index ops h.array.length k with
  | none => none
  | some i => match h.array[i]? with
    | none => none
    | some c => match chainPut ops k v c with
      | some (old, c') => some (⟨h.array.set i c', h.size⟩, some old)
      | none =>
        let h' : HashTab K V := ⟨h.array.set i ((k, v) :: c), h.size + 1⟩
        match h'.resizeIf ops (pol.grow h'.size h'.array.length) with
        | none => none
        | some h'' => some (h'', none)

/-- `Hash.Remove`, /repo/src/collection/hash.go:150-184. -/
def removeNode (ops : HashOps K) (pol : ResizePolicy) (h : HashTab K V) (k : K) : Option (HashTab K V × Option (K × V)) :=
  match index ops h.array.length k with
  | none => none
  | some i => match h.array[i]? with
    | none => none
    | some c => match chainRemove ops k c with
      | none => some (h, none)
      | some (old, c') =>
        let h' : HashTab K V := ⟨h.array.set i c', h.size - 1⟩
        match h'.resizeIf ops (pol.shrink h'.size h'.array.length) with
        | none => none
        | some h'' => some (h'', some old)

/-- `HashMap.Get`, /repo/src/collection/hash_map.go:21-28. -/
def get (ops : HashOps K) (h : HashTab K V) (k : K) : Option (Option V) := (h.getNode ops k).map fun r => r.map Prod.snd

/-- `HashMap.Put`, /repo/src/collection/hash_map.go:30-37. -/
def put (ops : HashOps K) (pol : ResizePolicy) (h : HashTab K V) (k : K) (v : V) : Option (HashTab K V × Option V) :=
  (h.putNode ops pol k v).map fun r => (r.1, r.2.map Prod.snd)

/-- `HashMap.Remove`, /repo/src/collection/hash_map.go:39-46. -/
def remove (ops : HashOps K) (pol : ResizePolicy) (h : HashTab K V) (k : K) : Option (HashTab K V × Option V) :=
  (h.removeNode ops pol k).map fun r => (r.1, r.2.map Prod.snd)

/-- `HashSet.Exist`, /repo/src/collection/hash_set.go:21-28. -/
def exist (ops : HashOps K) (h : HashTab K Unit) (k : K) : Option Bool := (h.getNode ops k).map fun r => r.isSome

/-- `HashSet.Put`, /repo/src/collection/hash_set.go:30-37. -/
def setPut (ops : HashOps K) (pol : ResizePolicy) (h : HashTab K Unit) (k : K) : Option (HashTab K Unit × Option K) :=
  (h.putNode ops pol k ()).map fun r => (r.1, r.2.map Prod.fst)

/-- `HashSet.Remove`, /repo/src/collection/hash_set.go:39-46. -/
def setRemove (ops : HashOps K) (pol : ResizePolicy) (h : HashTab K Unit) (k : K) : Option (HashTab K Unit × Option K) :=
  (h.removeNode ops pol k).map fun r => (r.1, r.2.map Prod.fst)

end HashTab

/-- `HashIterator`, /repo/src/collection/hash.go:61-65; `curr` is the list starting at `currNode` (`[]`: nil pointer).  The
pointer to the table is passed to each call. -/
structure HashIter (K V : Type) where
  pos : Nat
  curr : List (K × V)
deriving DecidableEq, Repr

namespace HashIter

/-- `Hash.Iterator`, /repo/src/collection/hash.go:253-255 (hash_map.go:74-76, hash_set.go:74-76). -/
def new : HashIter K V := ⟨0, []⟩

/-- The loop of `advance`, /repo/src/collection/hash.go:242-247, with `fuel` iterations left; it runs at most
`len(array) - pos` times. -/
def advLoop (len : Nat) (it : HashIter K V) : Nat → HashIter K V × Bool
  | 0 => (it, false)
  | n + 1 => if it.pos < len then (if it.curr ≠ [] then (it, true) else advLoop len ⟨it.pos + 1, it.curr⟩ n) else (it, false)

/-- `advance`, /repo/src/collection/hash.go:240-251; the boolean of `advLoop` is the early `return` at line 244. -/
def advance (h : HashTab K V) (it : HashIter K V) : HashIter K V :=
  match advLoop h.array.length it (h.array.length - it.pos) with
  | (it, true) => it
  | (it, false) => if it.pos < h.array.length then ⟨it.pos, (h.array[it.pos]?).getD []⟩ else it

/-- `Next`, `HasNext`, `Peek`, /repo/src/collection/hash.go:216-238. -/
def call (h : HashTab K V) (it : HashIter K V) : IterCall → HashIter K V × IterRes (K × V)
  | .next => let it := advance h it
    if it.pos ≥ h.array.length then (it, .nil) else
    match it.curr with
    | [] => (it, .nil)
    | e :: es => (⟨it.pos, es⟩, .yield e)
  | .hasNext => let it := advance h it
    (it, .bool (decide (it.pos < h.array.length ∧ it.curr ≠ [])))
  | .peek => let it := advance h it
    if it.pos ≥ h.array.length then (it, .nil) else
    match it.curr with
    | [] => (it, .nil)
    | e :: _ => (it, .yield e)

/-- The iterators of `HashMap` and `HashSet`, /repo/src/collection/hash_map.go:52-72, hash_set.go:52-72: the type assertion
`.(*HashNode)` panics on nil. -/
def mapCall (h : HashTab K V) (it : HashIter K V) (c : IterCall) : HashIter K V × IterRes (K × V) :=
  match call h it c with
  | (it, .nil) => (it, .crash)
  | r => r

end HashIter

end Poodle
