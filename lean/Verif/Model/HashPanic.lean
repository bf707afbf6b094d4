import Verif.Model.Hash

/-
Model of /repo/src/collection/hash.go:103-214 when the methods of a key, `HashUint32` and `Equal`, may panic: the table after a panic.

Which call of a method panics is given by a `Trap`.  Arrays and chains are as in `Hash`; that a call without panic does what it does
there is proved.
-/

namespace Poodle

variable {K V : Type}

/-- A call of a method of a key, /repo/src/collection/hashable.go:13-25. -/
inductive KeyCall (K : Type) where
  | hash (k : K)
  | equal (a b : K)
deriving DecidableEq, Repr

/-- Which calls of methods of keys panic (in /repo/src/collection/hash.go:103-214): the argument is the number of such calls made
before by the same operation. -/
abbrev Trap (K : Type) := Nat → KeyCall K → Bool

/-- A call of a method of a key, /repo/src/collection/hash.go:106, :110, :122, :126, :153, :159, :205 (`none`: panics). -/
def keyCall (t : Trap K) (n : Nat) (c : KeyCall K) : Option Nat := if t n c then none else some (n + 1)

namespace HashTab

/-- Scan of a bucket, /repo/src/collection/hash.go:109-113. -/
def chainGetT (t : Trap K) (ops : HashOps K) (k : K) : List (K × V) → Nat → Option (Option (K × V) × Nat)
  | [], n => some (none, n)
  | e :: es, n => match keyCall t n (.equal e.1 k) with
    | none => none
    | some n => if ops.equal e.1 k then some (some e, n) else chainGetT t ops k es n

/-- `Hash.Get`, /repo/src/collection/hash.go:103-117 (outer `none`: panics). -/
def getNodeT (t : Trap K) (ops : HashOps K) (h : HashTab K V) (k : K) : Option (Option (K × V)) :=
  match keyCall t 0 (.hash k) with
  | none => none
  | some n => match index ops h.array.length k with
    | none => none
    | some i => match h.array[i]? with
      | none => none
      | some c => (chainGetT t ops k c n).map Prod.fst

/-- Scan of a bucket for the node to be replaced (`Put`) or unlinked (`Remove`), /repo/src/collection/hash.go:125-134, :158-180: the
nodes before it, the node, the nodes after it. -/
def chainFindT (t : Trap K) (ops : HashOps K) (k : K) : List (K × V) → Nat → Option (Option (List (K × V) × (K × V) × List (K × V)) × Nat)
  | [], n => some (none, n)
  | e :: es, n => match keyCall t n (.equal e.1 k) with
    | none => none
    | some n =>
      if ops.equal e.1 k then some (some ([], e, es), n)
      else match chainFindT t ops k es n with
        | none => none
        | some (r, n) => some (r.map fun (a, o, b) => (e :: a, o, b), n)

/-- The loop over one bucket, /repo/src/collection/hash.go:203-209. -/
def rehashChainT (t : Trap K) (ops : HashOps K) (arr : List (List (K × V))) : List (K × V) → Nat → Option (List (List (K × V)) × Nat)
  | [], n => some (arr, n)
  | e :: es, n => match keyCall t n (.hash e.1) with
    | none => none
    | some n => match rehash1 ops arr e with
      | none => none
      | some arr' => rehashChainT t ops arr' es n

/-- The loop over the old array, /repo/src/collection/hash.go:202-210. -/
def rehashT (t : Trap K) (ops : HashOps K) (arr : List (List (K × V))) : List (List (K × V)) → Nat → Option (List (List (K × V)) × Nat)
  | [], n => some (arr, n)
  | c :: cs, n => match rehashChainT t ops arr c n with
    | none => none
    | some (arr', n) => rehashT t ops arr' cs n

/-- `Hash.resize`, /repo/src/collection/hash.go:190-214; the new array is assigned at the end, so that a panic leaves the table as
it is (`none`). -/
def resizeT (t : Trap K) (ops : HashOps K) (h : HashTab K V) (newCapacity : Int) (calls : Nat) : Option (HashTab K V) :=
  let n := if newCapacity < 10 then 10 else newCapacity.toNat
  if h.array.length = n then some h
  else if n > 2 ^ 45 then none
  else match rehashT t ops (List.replicate n []) h.array calls with
    | none => none
    | some (arr, _) => some ⟨arr, h.size⟩

/-- The conditional resize, /repo/src/collection/hash.go:142-145 and :170-173. -/
def resizeIfT (t : Trap K) (ops : HashOps K) (h : HashTab K V) (c : Option Int) (calls : Nat) : Option (HashTab K V) :=
  match c with
  | none => some h
  | some c => h.resizeT t ops c calls

/-- `Hash.Put`, /repo/src/collection/hash.go:119-148: the table afterwards, and the result (`none`: panics). -/
def putNodeT (t : Trap K) (ops : HashOps K) (pol : ResizePolicy) (h : HashTab K V) (k : K) (v : V) : HashTab K V × Option (Option (K × V)) :=
  match keyCall t 0 (.hash k) with
  | none => (h, none)
  | some n => match index ops h.array.length k with
    | none => (h, none)
    | some i => match h.array[i]? with
      | none => (h, none)
      | some c => match chainFindT t ops k c n with
        | none => (h, none)
        | some (some (a, old, b), _) => (⟨h.array.set i (a ++ (k, v) :: b), h.size⟩, some (some old))
        | some (none, n) =>
          let h' : HashTab K V := ⟨h.array.set i ((k, v) :: c), h.size + 1⟩
          match h'.resizeIfT t ops (pol.grow h'.size h'.array.length) n with
          | none => (h', none)
          | some h'' => (h'', some none)

/-- `Hash.Remove`, /repo/src/collection/hash.go:150-184. -/
def removeNodeT (t : Trap K) (ops : HashOps K) (pol : ResizePolicy) (h : HashTab K V) (k : K) : HashTab K V × Option (Option (K × V)) :=
  match keyCall t 0 (.hash k) with
  | none => (h, none)
  | some n => match index ops h.array.length k with
    | none => (h, none)
    | some i => match h.array[i]? with
      | none => (h, none)
      | some c => match chainFindT t ops k c n with
        | none => (h, none)
        | some (none, _) => (h, some none)
        | some (some (a, old, b), n) =>
          let h' : HashTab K V := ⟨h.array.set i (a ++ b), h.size - 1⟩
          match h'.resizeIfT t ops (pol.shrink h'.size h'.array.length) n with
          | none => (h', none)
          | some h'' => (h'', some (some old))

/-- `HashMap.Get`, /repo/src/collection/hash_map.go:21-28. -/
def getT (t : Trap K) (ops : HashOps K) (h : HashTab K V) (k : K) : Option (Option V) := (h.getNodeT t ops k).map fun r => r.map Prod.snd

/-- `HashMap.Put`, /repo/src/collection/hash_map.go:30-37. -/
def putT (t : Trap K) (ops : HashOps K) (pol : ResizePolicy) (h : HashTab K V) (k : K) (v : V) : HashTab K V × Option (Option V) :=
  ((h.putNodeT t ops pol k v).1, (h.putNodeT t ops pol k v).2.map fun r => r.map Prod.snd)

/-- `HashMap.Remove`, /repo/src/collection/hash_map.go:39-46. -/
def removeT (t : Trap K) (ops : HashOps K) (pol : ResizePolicy) (h : HashTab K V) (k : K) : HashTab K V × Option (Option V) :=
  ((h.removeNodeT t ops pol k).1, (h.removeNodeT t ops pol k).2.map fun r => r.map Prod.snd)

end HashTab

end Poodle
