import Verif.Model.NilKey
import Verif.Spec.Map

/-
Specification of nil keys and of histories of calls with any keys.
-/

namespace Poodle.Spec
open Poodle

/-- A nil pointer in an interface. -/
inductive NilPointer : CmpObj → Prop
  | ints (k : ElemKind) : NilPointer (.nilInts k)
  | objs : NilPointer .nilObjs

/-- Neither nothing nor a nil pointer. -/
def ProperKey (k : CmpObj) : Prop := k ≠ .absent ∧ ¬ NilPointer k

/-- The pointers have the same type. -/
inductive SameType : CmpObj → CmpObj → Prop
  | ints (k : ElemKind) (s : Option (List Int)) : SameType (.nilInts k) (.ints k s)
  | objs (l : List CmpObj) : SameType .nilObjs (.objs l)
  | objsNil : SameType .nilObjs .objsNil

/-- The key of a call. -/
def anyCallKey {V : Type} : MapOp CmpObj V → CmpObj
  | .put k _ => k
  | .remove k => k

/-- A history of calls; a panicking call is recovered and its result recorded as `none`. -/
def runAny {V : Type} (m : SortedMap CmpObj V) : List (MapOp CmpObj V) → SortedMap CmpObj V × List (Option (Option V))
  | [] => (m, [])
  | .put k v :: os => let (m1, r) := m.putAny k v; let (m2, rs) := runAny m1 os; (m2, r :: rs)
  | .remove k :: os => let (m1, r) := m.removeAny k; let (m2, rs) := runAny m1 os; (m2, r :: rs)

end Poodle.Spec
