import Verif.Model.Value

/-
Model of the `Record` object and its setters, /repo/src/util/record_util.go:299-321, :348-364, :405-468, :546-599.
-/

namespace Poodle

/-- `Record`, /repo/src/util/record_util.go:299-313, without the size estimates. -/
structure RecordObj where
  encoded : Bool
  buf : Bytes
  key : Option KeyObj
  value : Option CVal
  scheme : Option CVal
  timestamp : Option Int
  sigR : Option Int
  sigS : Option Int

/-- `NewRecord`, /repo/src/util/record_util.go:318-320. -/
def RecordObj.new : RecordObj :=
  { encoded := false, buf := [], key := none, value := none, scheme := none, timestamp := none, sigR := none, sigS := none }

/-- The record as seen by `Encode`, /repo/src/util/record_util.go:409-468. -/
def RecordObj.toRec (r : RecordObj) : CRec := .record r.key r.value r.scheme r.timestamp r.sigR r.sigS

/-- `Record.SetKey`, /repo/src/util/record_util.go:546-551; a nil key is stored before `EstBufSize` panics. -/
def RecordObj.setKey (r : RecordObj) (k : Option KeyObj) : RecordObj × Res Unit :=
  ({ r with key := k, encoded := false }, if k.isSome then .ok () else .panic)

/-- `Record.SetK`, /repo/src/util/record_util.go:553-558; `NewKey().Add` panics on an empty sub key, before anything is stored. -/
def RecordObj.setK (r : RecordObj) (s : Slice) : RecordObj × Res Unit :=
  match newKey.add s with
  | .ok k => ({ r with key := some (.key k), encoded := false }, .ok ())
  | .err => (r, .err)
  | .panic => (r, .panic)

/-- `Record.SetValue`, /repo/src/util/record_util.go:560-565. -/
def RecordObj.setValue (r : RecordObj) (v : Option CVal) : RecordObj × Res Unit :=
  ({ r with value := v, encoded := false }, if v.isSome then .ok () else .panic)

/-- `Record.SetV`, /repo/src/util/record_util.go:567-572. -/
def RecordObj.setV (r : RecordObj) (s : Slice) : RecordObj × Res Unit :=
  ({ r with value := some (.prim s), encoded := false }, .ok ())

/-- `Record.SetScheme`, /repo/src/util/record_util.go:574-579. -/
def RecordObj.setScheme (r : RecordObj) (v : Option CVal) : RecordObj × Res Unit :=
  ({ r with scheme := v, encoded := false }, if v.isSome then .ok () else .panic)

/-- `Record.SetS`, /repo/src/util/record_util.go:581-586. -/
def RecordObj.setS (r : RecordObj) (s : Slice) : RecordObj × Res Unit :=
  ({ r with scheme := some (.prim s), encoded := false }, .ok ())

/-- `Record.SetTimestamp`, /repo/src/util/record_util.go:588-592. -/
def RecordObj.setTimestamp (r : RecordObj) (t : Option Int) : RecordObj × Res Unit :=
  ({ r with timestamp := t, encoded := false }, .ok ())

/-- `Record.SetSignature`, /repo/src/util/record_util.go:594-599. -/
def RecordObj.setSignature (r : RecordObj) (R S : Option Int) : RecordObj × Res Unit :=
  ({ r with sigR := R, sigS := S, encoded := false }, .ok ())

/-- The effect of `Record.Encode` on the stored key, /repo/src/util/record_util.go:414-417: `Key.Encode` stores its buffer. -/
def encodedKey (k : Option KeyObj) : Option KeyObj :=
  match k with
  | none => none
  | some k => if k.isEmpty then some k else some k.encode.1

/-- `Record.Encode`, /repo/src/util/record_util.go:409-468: `buf` and `encoded` are changed only on success, the key also on failure. -/
def RecordObj.encode (r : RecordObj) : RecordObj × Res Unit :=
  match r.toRec.encode with
  | .ok w => ({ r with key := encodedKey r.key, buf := w, encoded := true }, .ok ())
  | .err => ({ r with key := encodedKey r.key }, .err)
  | .panic => ({ r with key := encodedKey r.key }, .panic)

/-- `Record.Buf`, /repo/src/util/record_util.go:357-364. -/
def RecordObj.getBuf (r : RecordObj) : Res Bytes := if r.encoded then .ok r.buf else .panic

end Poodle
