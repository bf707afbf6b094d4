import Verif.Model.NilHashKey
import Verif.Spec.HashObj

/-
Specification of nil keys of hash maps and of histories of calls with any keys.
-/

namespace Poodle.Spec
open Poodle

variable {V : Type}

/-- Nothing, or a nil pointer. -/
inductive NilHashKey : HashObj → Prop
  | absent : NilHashKey .absent
  | ints (k : HashKind) : NilHashKey (.nilInts k)
  | objs : NilHashKey .nilObjs

open Classical in
/-- Keys of the same type and content. -/
noncomputable def sameKey (a b : HashObj) : Bool := decide (content a = content b)

/-- A history of calls on a hash map; a panicking call is recovered and its result recorded as `none`. -/
def runAnyHash (f : Bytes → UInt32) (pol : ResizePolicy) (h : HashTab HashObj V) : List (MapOp HashObj V) → HashTab HashObj V × List (Option (Option V))
  | [] => (h, [])
  | .put k v :: os => let (h1, r) := h.putAny f pol k v; let (h2, rs) := runAnyHash f pol h1 os; (h2, r :: rs)
  | .remove k :: os => let (h1, r) := h.removeAny f pol k; let (h2, rs) := runAnyHash f pol h1 os; (h2, r :: rs)

/-- The calls with keys that can be hashed. -/
def usable : List (MapOp HashObj V) → List (MapOp HashObj V) := List.filter fun o => hashes (callKey o)

end Poodle.Spec
