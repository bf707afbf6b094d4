import Verif.Spec.ValueObj

/-
Specification of size estimates over histories of calls: what each call adds to the estimate of an object.
-/

namespace Poodle.Spec
open Poodle

/-- The object may be appended: values to arrays, records to lists of records. -/
def fits (h : VHeap) (id i : Nat) : Bool :=
  match h[id]? with
  | some (.array _ _ _ _) => h.isValue i
  | some (.list _ _ _ _) => h.isRecord i
  | _ => false

/-- The element at an index below the size (as a 16 bit number). -/
def elementAt (h : VHeap) (id idx : Nat) : Option Nat :=
  (h[id]?).bind fun n => if idx < (VNode.refs n).length % 65536 then (VNode.refs n)[idx]? else none

/-- The estimate, at the time of the call, of what is appended to object `id`, or minus that of what is deleted from it. -/
def gain (h : VHeap) (id : Nat) : VOp → Int
  | .append x i => if x = id ∧ fits h id i = true then h.est i else 0
  | .deleteAt x idx => if x = id then (elementAt h id idx).elim 0 fun i => - h.est i else 0
  | _ => 0

/-- All that calls added to the estimate of object `id`. -/
def balance (id : Nat) : VHeap → List VOp → Int
  | _, [] => 0
  | h, op :: ops => gain h id op + balance id (op.run h) ops

/-- The bytes of an object that is encoded. -/
def bytesOf (h : VHeap) (id : Nat) : Option Bytes :=
  (h[id]?).bind fun n => if n.isEncoded then (match n.getBuf with | .ok b => some b | _ => none) else none

/-- What becomes of the number `x` that goes with object `id`: the number of its bytes whenever it is encoded, and otherwise each call adds
what it appends or deletes. -/
def tracked (id : Nat) : VHeap → Int → List VOp → Int
  | _, x, [] => x
  | h, x, op :: ops => tracked id (op.run h) (((bytesOf (op.run h) id).map fun b => (b.length : Int)).getD (x + gain h id op)) ops

/-- What the last call that sets something has set, `d` if there was none. -/
def latest {α : Type} (q : VHeap → VOp → Option α) : VHeap → List VOp → α → α
  | _, [], d => d
  | h, op :: ops, d => latest q (op.run h) ops ((q h op).getD d)

/-- The estimate of the key that a call sets. -/
def keySet (id : Nat) (_ : VHeap) : VOp → Option Int
  | .setKey x k => if x = id then some k.estBufSize else none
  | _ => none

/-- The estimate, at the time of the call, of the value that a call sets. -/
def valueSet (id : Nat) (h : VHeap) : VOp → Option Int
  | .setValue x i => if x = id ∧ h.isValue i = true then some (h.est i) else none
  | _ => none

/-- The estimate, at the time of the call, of the scheme that a call sets. -/
def schemeSet (id : Nat) (h : VHeap) : VOp → Option Int
  | .setScheme x i => if x = id ∧ h.isValue i = true then some (h.est i) else none
  | _ => none

/-- The bytes of the timestamp that a call sets. -/
def timeSet (id : Nat) (_ : VHeap) : VOp → Option Int
  | .setTimestamp x t => if x = id then some (if t.isSome then 8 else 0) else none
  | _ => none

/-- The bytes of the signature that a call sets. -/
def signatureSet (id : Nat) (_ : VHeap) : VOp → Option Int
  | .setSignature x r s => if x = id then some (if r.isSome ∧ s.isSome then 64 else 0) else none
  | _ => none

end Poodle.Spec
