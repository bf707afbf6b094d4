import Verif.Model.Value

/-
Specification of the operations of a value array: a list.
-/

namespace Poodle.Spec

/-- An operation on a value array. -/
inductive ArrOp where
  | append (v : CVal)
  | deleteAt (idx : Nat)
  | encode

/-- The effect on a list; nothing for an index out of range. -/
def ArrOp.onList (l : List CVal) : ArrOp → List CVal
  | .append v => l ++ [v]
  | .deleteAt i => l.eraseIdx i
  | .encode => l

/-- The lists passed through. -/
def listStates : List CVal → List ArrOp → List (List CVal)
  | l, [] => [l]
  | l, o :: os => l :: listStates (o.onList l) os

/-- The final list. -/
def listRun (l : List CVal) (ops : List ArrOp) : List CVal := ops.foldl ArrOp.onList l

/-- The effect on a value array: the array after the operation (unchanged if the operation panics). -/
def ArrOp.onArray (a : ValueArray) : ArrOp → ValueArray
  | .append v => a.append v
  | .deleteAt i => match a.deleteAt i with
    | .ok a' => a'
    | _ => a
  | .encode => a.encode

/-- The final value array. -/
def arrayRun (a : ValueArray) (ops : List ArrOp) : ValueArray := ops.foldl ArrOp.onArray a

end Poodle.Spec
