import Verif.Model.HashObj
import Verif.Spec.HashPanic

/-
Specification of hashable objects: when two are the same, which can be hashed, and maps in which some keys cannot be used.
-/

namespace Poodle.Spec
open Poodle

variable {K V : Type}

mutual
/-- A hashable object without nil pointers in it; elements may be nothing. -/
def sound : HashObj → Prop
  | .absent => False
  | .nilInts _ => False
  | .nilObjs => False
  | .ints _ _ => True
  | .objsNil => True
  | .objs l => sounds l

/-- Elements that are nothing, or without nil pointers in them. -/
def sounds : List HashObj → Prop
  | [] => True
  | .absent :: l => sounds l
  | o :: l => sound o ∧ sounds l
end

mutual
/-- Type and content: without capacities, and a nil slice of objects counts as an empty one. -/
def content : HashObj → HashObj
  | .absent => .absent
  | .nilInts k => .nilInts k
  | .nilObjs => .nilObjs
  | .ints k s => .ints k ⟨s.elems, 0⟩
  | .objsNil => .objs []
  | .objs l => .objs (elemContents l)

/-- The contents of elements. -/
def elemContents : List HashObj → List HashObj
  | [] => []
  | o :: l => content o :: elemContents l
end

/-- The number of bytes of an integer of the type. -/
def elemBytes : HashKind → Nat
  | .byte => 1
  | .int16 | .uint16 => 2
  | .int32 | .uint32 => 4
  | .int64 | .uint64 => 8

/-- The objects that can be hashed: bytes, other integers if the capacity is large enough, and objects if they are all nothing. -/
def hashes : HashObj → Bool
  | .ints .byte _ => true
  | .ints k s => (s.elems.getD []).length * elemBytes k ≤ s.cap
  | .objsNil => true
  | .objs l => l.all HashObj.isAbsent
  | _ => false

/-- A history of a map in which some keys cannot be used: calls with them panic and have no effect. -/
def runBad (eqv : K → K → Bool) (bad : K → Bool) : (K → Option V) → List (MapOp K V) → (K → Option V) × List (Option (Option V))
  | m, [] => (m, [])
  | m, o :: os =>
    if bad (callKey o) then ((runBad eqv bad m os).1, none :: (runBad eqv bad m os).2)
    else ((runBad eqv bad (applyE eqv m o) os).1, some (m (callKey o)) :: (runBad eqv bad (applyE eqv m o) os).2)

end Poodle.Spec
