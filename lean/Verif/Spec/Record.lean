import Verif.Model.Record
import Verif.Spec.Codec
import Verif.Spec.Conv
import Verif.Spec.Value

/-
Specification of the wire format of records.
-/

namespace Poodle.Spec

/-- The components of an encoded record; `none` is an absent component. -/
structure RecParts where
  key : Option Bytes
  value : Option Bytes
  scheme : Option Bytes
  time : Option Bytes
  signature : Option Bytes

/-- `w` consists of a magic byte telling which components are present, and the present components in order. -/
def RecLayout (p : RecParts) (w : Bytes) : Prop :=
  ∃ m : UInt8, w = m :: (p.key.getD [] ++ p.value.getD [] ++ p.scheme.getD [] ++ p.time.getD [] ++ p.signature.getD []) ∧
    m.toNat.testBit 7 = false ∧ m.toNat.testBit 6 = p.key.isSome ∧ m.toNat.testBit 5 = p.value.isSome ∧
    m.toNat.testBit 4 = p.scheme.isSome ∧ m.toNat.testBit 3 = false ∧ m.toNat.testBit 2 = p.time.isSome ∧
    m.toNat.testBit 1 = p.signature.isSome ∧ m.toNat.testBit 0 = false

/-- A key component is its own encoding if the key is there and not empty. -/
def IsKeyPart (k : Option KeyObj) (b : Option Bytes) : Prop :=
  match k with
  | none => b = none
  | some k => if k.isEmpty then b = none else ∃ w, keyPartBytes k = .ok w ∧ b = some w

/-- A value component is its own encoding if the value is there and not nil. -/
def IsValuePart (v : Option CVal) (b : Option Bytes) : Prop :=
  match v with
  | none => b = none
  | some v => if v.isNil then b = none else ∃ w, v.encode = .ok w ∧ b = some w

/-- `buf` starts with a record that decodes to `r` and occupies `n` bytes: a magic byte announcing key, value and scheme; one byte, which
starts the key count zero; the value of at most 57344 bytes, the scheme of at most 1024 bytes; if announced, a timestamp of 8 bytes, and
if announced and there are 64 more bytes, the two halves of a signature. -/
def IsMappedRecord (buf : Bytes) (r : RecInfo) (n : Nat) : Prop :=
  ∃ (m k : UInt8) (ts sg rest : Bytes), buf = m :: k :: (r.value.buf ++ r.scheme.buf ++ ts ++ sg ++ rest) ∧
    r.buf = m :: k :: (r.value.buf ++ r.scheme.buf ++ ts ++ sg) ∧ n = r.buf.length ∧
    m.toNat.testBit 6 = true ∧ m.toNat.testBit 5 = true ∧ m.toNat.testBit 4 = true ∧
    (∃ p q, buf.drop 1 = p ++ q ∧ IsUvarint p 0 ∧ p.length ≤ 10) ∧ r.key = { keys := [], buf := buf.drop 1 } ∧
    IsStdWire r.value.buf r.value.kind r.value.size r.value.content ∧ r.value.buf.length ≤ 57344 ∧
    IsStdWire r.scheme.buf r.scheme.kind r.scheme.size r.scheme.content ∧ r.scheme.buf.length ≤ 1024 ∧
    (if m.toNat.testBit 2 then ts.length = 8 ∧ ∃ t, r.timestamp = some t ∧ TwosComplement 64 (bigEndian ts) t
      else ts = [] ∧ r.timestamp = none) ∧
    (if m.toNat.testBit 1 ∧ 64 ≤ (sg ++ rest).length then
      ∃ R S, sg = R ++ S ∧ R.length = 32 ∧ S.length = 32 ∧ r.signature = some ((bigEndian R : Int), (bigEndian S : Int))
      else sg = [] ∧ r.signature = none)

/-- Setters and `Encode`. -/
inductive RecOp where
  | setKey (k : Option KeyObj)
  | setK (s : Slice)
  | setValue (v : Option CVal)
  | setV (s : Slice)
  | setScheme (v : Option CVal)
  | setS (s : Slice)
  | setTimestamp (t : Option Int)
  | setSignature (R S : Option Int)
  | encode

/-- The record after an operation, whether or not it fails or panics. -/
def RecOp.run (r : RecordObj) : RecOp → RecordObj
  | .setKey k => (r.setKey k).1
  | .setK s => (r.setK s).1
  | .setValue v => (r.setValue v).1
  | .setV s => (r.setV s).1
  | .setScheme v => (r.setScheme v).1
  | .setS s => (r.setS s).1
  | .setTimestamp t => (r.setTimestamp t).1
  | .setSignature R S => (r.setSignature R S).1
  | .encode => r.encode.1

/-- The argument of the last operation that sets something, as told by `f`. -/
def lastSet {α : Type} (f : RecOp → Option (Option α)) (ops : List RecOp) : Option α := ((ops.filterMap f).getLast?).getD none

/-- The sub keys an operation sets. -/
def RecOp.keySet : RecOp → Option (Option (List Slice))
  | .setKey k => some (k.map KeyObj.subKeys)
  | .setK s => if s.bytes = [] then none else some (some [s])
  | _ => none

/-- The value an operation sets. -/
def RecOp.valueSet : RecOp → Option (Option CVal)
  | .setValue v => some v
  | .setV s => some (some (.prim s))
  | _ => none

/-- The scheme an operation sets. -/
def RecOp.schemeSet : RecOp → Option (Option CVal)
  | .setScheme v => some v
  | .setS s => some (some (.prim s))
  | _ => none

/-- The timestamp an operation sets. -/
def RecOp.timeSet : RecOp → Option (Option Int)
  | .setTimestamp t => some t
  | _ => none

/-- The halves of the signature an operation sets. -/
def RecOp.sigSet : RecOp → Option (Option Int × Option Int)
  | .setSignature R S => some (R, S)
  | _ => none

/-- The record after a history of operations. -/
def recHistory (ops : List RecOp) : RecordObj := ops.foldl RecOp.run .new

end Poodle.Spec
