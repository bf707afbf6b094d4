import Verif.Spec.ValueObj
import Verif.Spec.ValueCopy

/-
Specification of copies of objects that refer to each other.
-/

namespace Poodle.Spec
open Poodle

/-- Contents that can occur in a program. -/
def realContent : Content → Prop
  | .inl v => realVal v
  | .inr r => realRec r

/-- Contents that can be copied, see C102. -/
def copyableContent : Content → Prop
  | .inl v => copyable v
  | .inr r => copyableR r

/-- The same contents. -/
def sameContent : Content → Content → Prop
  | .inl v, c => ∃ v', c = .inl v' ∧ sameVal v v'
  | .inr r, c => ∃ r', c = .inr r' ∧ sameRec r r'

/-- The objects that a call is given. -/
def VOp.mentions : VOp → List Nat
  | .new _ => []
  | .append id i => [id, i]
  | .deleteAt id _ => [id]
  | .setKey id _ => [id]
  | .setValue id i => [id, i]
  | .setScheme id i => [id, i]
  | .setTimestamp id _ => [id]
  | .setSignature id _ _ => [id]
  | .encode id _ => [id]
  | .copy id _ => [id]

/-- The objects after further calls. -/
def VOp.runAll (h : VHeap) (ops : List VOp) : VHeap := ops.foldl VOp.run h

end Poodle.Spec
