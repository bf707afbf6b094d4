import Verif.Model.KeyShare
import Verif.Spec.ValueObj

/-
Specification for records that refer to keys: what a record contains, programs, and which calls are about a record or a key.
-/

namespace Poodle.Spec
open Poodle

/-- What a record contains: the sub keys of its key as they are now, and the other parts. -/
def recContent (w : KWorld) (r : Nat) : Option CRec :=
  (w.recs[r]?).map fun x => .record ((x.key.bind (w.keys[·]?)).map bareKey) x.value x.scheme x.timestamp x.sigR x.sigS

/-- The key object of a record. -/
def recKey (w : KWorld) (r : Nat) : Option Nat := (w.recs[r]?).bind KRec.key

/-- A call on a key or a record. -/
inductive KCall where
  | newKey
  | newSimpleKey (s : Slice)
  | newEmptyKey
  | newMappedKey (buf : Bytes)
  | add (k : Nat) (s : Slice)
  | encodeKey (k : Nat)
  | newRecord
  | setKey (r k : Nat)
  | setK (r : Nat) (s : Slice)
  | setValue (r : Nat) (v : CVal) (est : Int)
  | setScheme (r : Nat) (v : CVal) (est : Int)
  | setTimestamp (r : Nat) (t : Option Int)
  | setSignature (r : Nat) (R S : Option Int)
  | encode (r : Nat)
  | copy (r : Nat)

/-- The effect of a call, and how it ends. -/
def KCall.run (w : KWorld) : KCall → KWorld × Res Unit
  | .newKey => (w.addKey (.key Poodle.newKey), .ok ())
  | .newSimpleKey s => (w.addKey (.key (Poodle.newSimpleKey s)), .ok ())
  | .newEmptyKey => (w.addKey .empty, .ok ())
  | .newMappedKey buf =>
    match Poodle.newMappedKey buf with
    | .ok (m, _) => (w.addKey (.mapped m), .ok ())
    | .err => (w, .err)
    | .panic => (w, .panic)
  | .add k s => w.add k s
  | .encodeKey k => w.encodeKey k
  | .newRecord => ({ w with recs := w.recs ++ [KRec.new] }, .ok ())
  | .setKey r k => w.setKey r k
  | .setK r s => w.setK r s
  | .setValue r v est => w.setValue r v est
  | .setScheme r v est => w.setScheme r v est
  | .setTimestamp r t => w.setTimestamp r t
  | .setSignature r R S => w.setSignature r R S
  | .encode r => w.encode r
  | .copy r => w.copy r

/-- The keys and records after a program whose calls may panic and be recovered. -/
def sharing (p : List KCall) : KWorld := p.foldl (fun w c => (c.run w).1) ⟨[], []⟩

/-- The call is a setter of the record.  (`SetK` of no bytes panics before it does anything.) -/
def KCall.sets (r : Nat) : KCall → Bool
  | .setKey r' _ => r' == r
  | .setK r' s => r' == r && !s.bytes.isEmpty
  | .setValue r' _ _ => r' == r
  | .setScheme r' _ _ => r' == r
  | .setTimestamp r' _ => r' == r
  | .setSignature r' _ _ => r' == r
  | _ => false

/-- The call is `Encode` of the record. -/
def KCall.encodes (r : Nat) : KCall → Bool
  | .encode r' => r' == r
  | _ => false

/-- The call adds a sub key to the key. -/
def KCall.adds (k : Nat) : KCall → Bool
  | .add k' s => k' == k && !s.bytes.isEmpty
  | _ => false

/-- The key object is one that sub keys can be added to. -/
def growing (w : KWorld) (k : Nat) : Prop := ∃ x, w.keys[k]? = some (.key x)

end Poodle.Spec
