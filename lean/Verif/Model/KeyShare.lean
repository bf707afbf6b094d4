import Verif.Model.ValueObj
import Verif.Model.ValueCopy

/-
Model of keys and records as objects: a `Record` refers to the key that was handed to `SetKey`, which the program and other records may
refer to as well.  /repo/src/util/key_util.go:351-430, :545-554 and /repo/src/util/record_util.go:299-599.

Simplifications: the values and schemes of records are values here, with what their `EstBufSize` said when they were handed in (values
that are changed later are C107 to C118); a call that does not type check has no effect.
-/

namespace Poodle

/-- The fields of a `Record`, /repo/src/util/record_util.go:299-313; the key is the number of an object. -/
structure KRec where
  encoded : Bool
  buf : Bytes
  estKey : Int
  estValue : Int
  estScheme : Int
  key : Option Nat
  value : Option CVal
  scheme : Option CVal
  timestamp : Option Int
  sigR : Option Int
  sigS : Option Int

/-- All keys and records.  (Go runtime; no file in /repo.) -/
structure KWorld where
  keys : List KeyObj
  recs : List KRec

/-- `NewRecord`, /repo/src/util/record_util.go:318-320. -/
def KRec.new : KRec := ⟨false, [], 0, 0, 0, none, none, none, none, none, none⟩

/-- A key that was made: `NewKey`, `NewSimpleKey`, `NewEmptyKey` and `NewMappedKey`, /repo/src/util/key_util.go:358-360, :362-364, :38-40,
:147-157. -/
def KWorld.addKey (w : KWorld) (k : KeyObj) : KWorld := { w with keys := w.keys ++ [k] }

/-- `Key.Add`, /repo/src/util/key_util.go:545-554; only `Key` has the method. -/
def KWorld.add (w : KWorld) (i : Nat) (s : Slice) : KWorld × Res Unit :=
  match w.keys[i]? with
  | some (.key k) =>
    match k.add s with
    | .ok k => ({ w with keys := w.keys.set i (.key k) }, .ok ())
    | _ => (w, .panic)
  | _ => (w, .panic)

/-- `Encode` of a key, /repo/src/util/key_util.go:69-71, :211-213, :403-430. -/
def KWorld.encodeKey (w : KWorld) (i : Nat) : KWorld × Res Unit :=
  match w.keys[i]? with
  | some k => ({ w with keys := w.keys.set i k.encode.1 }, if k.encode.2 then .ok () else .err)
  | none => (w, .panic)

/-- `Record.SetKey`, /repo/src/util/record_util.go:546-551: nil is stored before `EstBufSize` panics.  A number without a key stands for
nil. -/
def KWorld.setKey (w : KWorld) (r : Nat) (i : Nat) : KWorld × Res Unit :=
  match w.recs[r]? with
  | none => (w, .panic)
  | some x =>
    match w.keys[i]? with
    | none => ({ w with recs := w.recs.set r { x with key := none, encoded := false } }, .panic)
    | some k => ({ w with recs := w.recs.set r { x with key := some i, encoded := false, estKey := k.estBufSize } }, .ok ())

/-- `Record.SetK`, /repo/src/util/record_util.go:553-558: a key of its own. -/
def KWorld.setK (w : KWorld) (r : Nat) (s : Slice) : KWorld × Res Unit :=
  match w.recs[r]? with
  | none => (w, .panic)
  | some x =>
    match newKey.add s with
    | .ok k =>
      ({ keys := w.keys ++ [.key k],
         recs := w.recs.set r { x with key := some w.keys.length, encoded := false, estKey := (KeyObj.key k).estBufSize } }, .ok ())
    | _ => (w, .panic)

/-- `Record.SetValue` and `SetV`, /repo/src/util/record_util.go:560-572, with a value that is not nil and what its `EstBufSize` says. -/
def KWorld.setValue (w : KWorld) (r : Nat) (v : CVal) (est : Int) : KWorld × Res Unit :=
  match w.recs[r]? with
  | none => (w, .panic)
  | some x => ({ w with recs := w.recs.set r { x with value := some v, encoded := false, estValue := est } }, .ok ())

/-- `Record.SetScheme` and `SetS`, /repo/src/util/record_util.go:574-586, likewise. -/
def KWorld.setScheme (w : KWorld) (r : Nat) (v : CVal) (est : Int) : KWorld × Res Unit :=
  match w.recs[r]? with
  | none => (w, .panic)
  | some x => ({ w with recs := w.recs.set r { x with scheme := some v, encoded := false, estScheme := est } }, .ok ())

/-- `Record.SetTimestamp`, /repo/src/util/record_util.go:588-592. -/
def KWorld.setTimestamp (w : KWorld) (r : Nat) (t : Option Int) : KWorld × Res Unit :=
  match w.recs[r]? with
  | none => (w, .panic)
  | some x => ({ w with recs := w.recs.set r { x with timestamp := t, encoded := false } }, .ok ())

/-- `Record.SetSignature`, /repo/src/util/record_util.go:594-599. -/
def KWorld.setSignature (w : KWorld) (r : Nat) (R S : Option Int) : KWorld × Res Unit :=
  match w.recs[r]? with
  | none => (w, .panic)
  | some x => ({ w with recs := w.recs.set r { x with sigR := R, sigS := S, encoded := false } }, .ok ())

/-- The key that a record refers to, /repo/src/util/record_util.go:325-327. -/
def KWorld.keyOf (w : KWorld) (x : KRec) : Option KeyObj := x.key.bind (w.keys[·]?)

/-- `Record.Encode`, /repo/src/util/record_util.go:409-468.  The key is encoded in any case (:414-417), so that its own bytes and size
estimate change, also if the rest fails. -/
def KWorld.encode (w : KWorld) (r : Nat) : KWorld × Res Unit :=
  match w.recs[r]? with
  | none => (w, .panic)
  | some x =>
    let keys := match x.key, encodedKey (w.keyOf x) with
      | some i, some k => w.keys.set i k
      | _, _ => w.keys
    match (CRec.record (w.keyOf x) x.value x.scheme x.timestamp x.sigR x.sigS).encode with
    | .ok b => ({ keys := keys, recs := w.recs.set r { x with buf := b, encoded := true } }, .ok ())
    | .err => ({ w with keys := keys }, .err)
    | .panic => ({ w with keys := keys }, .panic)

/-- `Record.IsEncoded`, /repo/src/util/record_util.go:405-407. -/
def KWorld.isEncoded (w : KWorld) (r : Nat) : Bool :=
  match w.recs[r]? with
  | none => false
  | some x => x.encoded

/-- `Record.Buf`, /repo/src/util/record_util.go:357-364. -/
def KWorld.getBuf (w : KWorld) (r : Nat) : Res Bytes :=
  match w.recs[r]? with
  | none => .panic
  | some x => if x.encoded then .ok x.buf else .panic

/-- `Record.EstBufSize`, /repo/src/util/record_util.go:366-403. -/
def KWorld.est (w : KWorld) (r : Nat) : Int :=
  match w.recs[r]? with
  | none => 0
  | some x => 1 + atLeastOne x.estKey + atLeastOne x.estValue + atLeastOne x.estScheme + (if x.timestamp.isSome then 8 else 0) +
      (if x.sigR.isSome && x.sigS.isSome then 32 * 2 else 0)

/-- `Record.Copy`, /repo/src/util/record_util.go:481-504: a new key, and no estimates. -/
def KWorld.copy (w : KWorld) (r : Nat) : KWorld × Res Unit :=
  match w.recs[r]? with
  | none => (w, .panic)
  | some x =>
    match copyKeyPart (w.keyOf x) with
    | .ok k =>
      match copyValuePart x.value with
      | .ok v =>
        match copyValuePart x.scheme with
        | .ok s =>
          ({ keys := w.keys ++ k.toList,
             recs := w.recs ++ [⟨false, [], 0, 0, 0, k.map fun _ => w.keys.length, v, s, x.timestamp, x.sigR, x.sigS⟩] }, .ok ())
        | _ => (w, .panic)
      | _ => (w, .panic)
    | _ => (w, .panic)

end Poodle
