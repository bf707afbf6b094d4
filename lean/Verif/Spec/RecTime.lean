import Verif.Model.RecTime
import Verif.Spec.ValueCopy

/-
Specification for the times and signatures of records: programs, and what is seen.
-/

namespace Poodle.Spec
open Poodle

/-- A step of a program: a new time or big integer, a change of one in place, or a call on a record. -/
inductive TCall where
  | newNum (v : Int)
  | assign (p : Nat) (v : Int)
  | newRecord
  | decode (buf : Bytes)
  | setTimestamp (r : Nat) (p : Option Nat)
  | setSignature (r : Nat) (p q : Option Nat)
  | setKey (r : Nat) (k : KeyObj)
  | setValue (r : Nat) (v : CVal)
  | setScheme (r : Nat) (v : CVal)
  | encode (r : Nat)
  | copy (r : Nat)
  | copyConstruct (r : Nat)

/-- Its effect, and how it ends. -/
def TCall.run (w : TWorld) : TCall → TWorld × Res Unit
  | .newNum v => ({ w with nums := w.nums ++ [v] }, .ok ())
  | .assign p v => ({ w with nums := w.nums.set p v }, .ok ())
  | .newRecord => ({ w with objs := w.objs ++ [.record TRec.new] }, .ok ())
  | .decode buf => w.decode buf
  | .setTimestamp r p => w.setTimestamp r p
  | .setSignature r p q => w.setSignature r p q
  | .setKey r k => w.setKey r k
  | .setValue r v => w.setValue r v
  | .setScheme r v => w.setScheme r v
  | .encode r => w.encode r
  | .copy r => w.copy r
  | .copyConstruct r => w.copyConstruct r

/-- The state after a program whose calls may panic and be recovered. -/
def TCall.runs (w : TWorld) (l : List TCall) : TWorld := l.foldl (fun w c => (c.run w).1) w

/-- The state after a program that begins with nothing. -/
def timed (p : List TCall) : TWorld := TCall.runs ⟨[], []⟩ p

/-- The time of a record: nanoseconds, or nil. -/
def timeOf (w : TWorld) (r : Nat) : Option Int := (w.objs[r]?).bind fun o => w.deref o.time

/-- The signature of a record. -/
def sigOf (w : TWorld) (r : Nat) : Option Int × Option Int :=
  ((w.objs[r]?).bind fun o => w.deref o.signature.1, (w.objs[r]?).bind fun o => w.deref o.signature.2)

/-- The pointers that `Timestamp` and `Signature` return. -/
def pointers (w : TWorld) (r : Nat) : Option (Option Nat × Option Nat × Option Nat) :=
  (w.objs[r]?).map fun o => (o.time, o.signature.1, o.signature.2)

/-- The call sets the time or the signature of the record. -/
def TCall.stamps (r : Nat) : TCall → Bool
  | .setTimestamp r' _ => r' == r
  | .setSignature r' _ _ => r' == r
  | _ => false

/-- The call sets anything of the record. -/
def TCall.sets (r : Nat) : TCall → Bool
  | .setTimestamp r' _ => r' == r
  | .setSignature r' _ _ => r' == r
  | .setKey r' _ => r' == r
  | .setValue r' _ => r' == r
  | .setScheme r' _ => r' == r
  | _ => false

/-- The call encodes the record. -/
def TCall.encodes (r : Nat) : TCall → Bool
  | .encode r' => r' == r
  | _ => false

/-- The number at a pointer after a program, if it was `v` before: the last one assigned. -/
def lastAssigned (q : Nat) (v : Int) : List TCall → Int
  | [] => v
  | .assign p x :: l => lastAssigned q (if p = q then x else v) l
  | _ :: l => lastAssigned q v l

/-- The same for a pointer that may be nil. -/
def lastAt (w : TWorld) (p : Option Nat) (l : List TCall) : Option Int := p.bind fun q => (w.nums[q]?).map fun v => lastAssigned q v l

/-- The program does not change the objects from a position on in place. -/
def KeepsFrom (n : Nat) (l : List TCall) : Prop := ∀ c ∈ l, ∀ q v, c = .assign q v → q < n

/-- The record with its current time and signature is encoded to these bytes. -/
def encodesTo (w : TWorld) (r : Nat) (b : Bytes) : Prop := ∃ x, w.objs[r]? = some (.record x) ∧
  (CRec.record x.key x.value x.scheme (w.deref x.time) (w.deref x.sigR) (w.deref x.sigS)).encode = .ok b

/-- The bytes of the current time and signature of a record. -/
def stampBytes (w : TWorld) (r : Nat) : Bytes :=
  match timeOf w r, sigOf w r with
  | none, _ => []
  | some t, (some a, some b) => timeToBytes t ++ (bigIntToByteArray a ++ bigIntToByteArray b)
  | some t, _ => timeToBytes t

end Poodle.Spec
