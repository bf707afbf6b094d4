import Verif.Model.CopyConstruct
import Verif.Model.ValueCopy

/-
Model of the times and signatures of records as objects: a record holds pointers to a `time.Time` and two `big.Int`, which the program
and other records may hold as well.  /repo/src/util/record_util.go:38-70, :105-123, :255-293, :299-364, :409-468, :481-542, :546-599.

Simplifications: a time is its nanoseconds; times and big integers are numbers in the same list; keys, values and schemes are values here
(shared keys are C192, shared values C107 to C118), and the bytes kept by a key are left out; a call that does not type check has no
effect; a pointer to no object stands for nil.
-/

namespace Poodle

/-- The fields of a `Record`, /repo/src/util/record_util.go:299-313; pointers are positions in the list of numbers.  The size estimates
are left out. -/
structure TRec where
  encoded : Bool
  buf : Bytes
  key : Option KeyObj
  value : Option CVal
  scheme : Option CVal
  time : Option Nat
  sigR : Option Nat
  sigS : Option Nat

/-- A `Record` or a `MappedRecord`, /repo/src/util/record_util.go:38-49; the times of the latter are pointers as well (:45-48). -/
inductive TObj where
  | record (r : TRec)
  | mapped (i : RecInfo) (time sigR sigS : Option Nat)

/-- All times, big integers and records.  (Go runtime; no file in /repo.) -/
structure TWorld where
  nums : List Int
  objs : List TObj

/-- `NewRecord`, /repo/src/util/record_util.go:318-320. -/
def TRec.new : TRec := ⟨false, [], none, none, none, none, none, none⟩

/-- What a pointer points to; nil for nil.  (Go language; no file in /repo.) -/
def TWorld.deref (w : TWorld) (p : Option Nat) : Option Int := p.bind (w.nums[·]?)

/-- A new time or big integer, if there is one: /repo/src/collection/util.go:775-781, :789-793. -/
def TWorld.store (w : TWorld) : Option Int → TWorld × Option Nat
  | none => (w, none)
  | some v => ({ w with nums := w.nums ++ [v] }, some w.nums.length)

/-- A decoded record, with new objects for its time and signature, /repo/src/util/record_util.go:220, :239-240. -/
def TWorld.addMapped (w : TWorld) (i : RecInfo) : TWorld :=
  let t := w.store i.timestamp
  let a := t.1.store (i.signature.map Prod.fst)
  let b := a.1.store (i.signature.map Prod.snd)
  { b.1 with objs := b.1.objs ++ [.mapped i t.2 a.2 b.2] }

/-- `NewMappedRecord`, /repo/src/util/record_util.go:54-70. -/
def TWorld.decode (w : TWorld) (buf : Bytes) : TWorld × Res Unit :=
  match decodeRecord buf with
  | .ok (i, _) => (w.addMapped i, .ok ())
  | .err => (w, .err)
  | .panic => (w, .panic)

/-- A setter on a `Record`; each marks the record as not encoded, /repo/src/util/record_util.go:546-599. -/
def TWorld.set (w : TWorld) (r : Nat) (f : TRec → TRec) : TWorld × Res Unit :=
  match w.objs[r]? with
  | some (.record x) => ({ w with objs := w.objs.set r (.record { f x with encoded := false }) }, .ok ())
  | _ => (w, .panic)

/-- A pointer handed in; /repo/src/util/record_util.go:588-599. -/
def TWorld.ptr (w : TWorld) (p : Option Nat) : Option Nat := p.bind fun q => if q < w.nums.length then some q else none

/-- `SetTimestamp`, /repo/src/util/record_util.go:588-592. -/
def TWorld.setTimestamp (w : TWorld) (r : Nat) (p : Option Nat) : TWorld × Res Unit := w.set r fun x => { x with time := w.ptr p }

/-- `SetSignature`, /repo/src/util/record_util.go:594-599. -/
def TWorld.setSignature (w : TWorld) (r : Nat) (p q : Option Nat) : TWorld × Res Unit :=
  w.set r fun x => { x with sigR := w.ptr p, sigS := w.ptr q }

/-- `SetKey` and `SetK`, /repo/src/util/record_util.go:546-558, with a key that is not nil. -/
def TWorld.setKey (w : TWorld) (r : Nat) (k : KeyObj) : TWorld × Res Unit := w.set r fun x => { x with key := some k }

/-- `SetValue` and `SetV`, /repo/src/util/record_util.go:560-572, with a value that is not nil. -/
def TWorld.setValue (w : TWorld) (r : Nat) (v : CVal) : TWorld × Res Unit := w.set r fun x => { x with value := some v }

/-- `SetScheme` and `SetS`, /repo/src/util/record_util.go:574-586, with a value that is not nil. -/
def TWorld.setScheme (w : TWorld) (r : Nat) (v : CVal) : TWorld × Res Unit := w.set r fun x => { x with scheme := some v }

/-- The record as seen by `Encode`, /repo/src/util/record_util.go:409-468. -/
def TWorld.toRec (w : TWorld) (x : TRec) : CRec := .record x.key x.value x.scheme (w.deref x.time) (w.deref x.sigR) (w.deref x.sigS)

/-- `Encode`, /repo/src/util/record_util.go:149-151 and :409-468. -/
def TWorld.encode (w : TWorld) (r : Nat) : TWorld × Res Unit :=
  match w.objs[r]? with
  | some (.record x) =>
    match (w.toRec x).encode with
    | .ok b => ({ w with objs := w.objs.set r (.record { x with buf := b, encoded := true }) }, .ok ())
    | .err => (w, .err)
    | .panic => (w, .panic)
  | some (.mapped _ _ _ _) => (w, .err)
  | none => (w, .panic)

/-- `Copy`, /repo/src/util/record_util.go:255-264 and :481-504: a decoded record is decoded again, a constructed one has the pointers
(:499-501). -/
def TWorld.copy (w : TWorld) (r : Nat) : TWorld × Res Unit :=
  match w.objs[r]? with
  | some (.record x) =>
    match (CRec.record x.key x.value x.scheme none none none).copy with
    | .ok (.record k v s _ _ _) => ({ w with objs := w.objs ++ [.record ⟨false, [], k, v, s, x.time, x.sigR, x.sigS⟩] }, .ok ())
    | _ => (w, .panic)
  | some (.mapped i _ _ _) =>
    match i.copy with
    | .ok i => (w.addMapped i, .ok ())
    | _ => (w, .panic)
  | none => (w, .panic)

/-- `CopyConstruct`, /repo/src/util/record_util.go:266-293 and :506-542: the pointers in both cases (:289-290, :537-539). -/
def TWorld.copyConstruct (w : TWorld) (r : Nat) : TWorld × Res Unit :=
  match w.objs[r]? with
  | some (.record x) =>
    match (CRec.record x.key x.value x.scheme none none none).copyConstruct with
    | .ok (.record k v s _ _ _) => ({ w with objs := w.objs ++ [.record ⟨false, [], k, v, s, x.time, x.sigR, x.sigS⟩] }, .ok ())
    | .err => (w, .err)
    | _ => (w, .panic)
  | some (.mapped i t a b) =>
    match (CRec.mapped i).copyConstruct with
    | .ok (.record k v s _ _ _) => ({ w with objs := w.objs ++ [.record ⟨false, [], k, v, s, t, a, b⟩] }, .ok ())
    | .err => (w, .err)
    | _ => (w, .panic)
  | none => (w, .panic)

/-- `Timestamp`, /repo/src/util/record_util.go:105-113 and :337-339: the pointer. -/
def TObj.time : TObj → Option Nat
  | .record x => x.time
  | .mapped _ t _ _ => t

/-- `Signature`, /repo/src/util/record_util.go:115-123 and :341-343: the pointers. -/
def TObj.signature : TObj → Option Nat × Option Nat
  | .record x => (x.sigR, x.sigS)
  | .mapped _ _ a b => (a, b)

/-- `Buf`, /repo/src/util/record_util.go:137-139 and :357-364. -/
def TObj.buf : TObj → Res Bytes
  | .record x => if x.encoded then .ok x.buf else .panic
  | .mapped i _ _ _ => .ok i.buf

/-- `IsEncoded`, /repo/src/util/record_util.go:145-147 and :405-407. -/
def TObj.isEncoded : TObj → Bool
  | .record x => x.encoded
  | .mapped _ _ _ _ => true

end Poodle
