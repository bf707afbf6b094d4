import Verif.Model.Hash

/-
The number of calls of `Equal` that a lookup in the hash table makes (/repo/src/collection/hash.go:103-117).
-/

namespace Poodle

variable {K V : Type}

namespace HashTab

/-- The number of iterations of the scan of a bucket, each with one call of `Equal`, /repo/src/collection/hash.go:109-113. -/
def chainCalls (ops : HashOps K) (k : K) : List (K × V) → Nat
  | [] => 0
  | e :: es => if ops.equal e.1 k then 1 else chainCalls ops k es + 1

/-- The number of calls of `Equal` in `Hash.Get`, /repo/src/collection/hash.go:103-117 (`none`: panics). -/
def getCalls (ops : HashOps K) (h : HashTab K V) (k : K) : Option Nat :=
  match index ops h.array.length k with
  | none => none
  | some i => match h.array[i]? with
    | none => none
    | some c => some (chainCalls ops k c)

end HashTab

end Poodle
