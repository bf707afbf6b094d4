import Verif.Model.Record

/-
Model of constructed values and records as objects that refer to each other: `Primitive`, `ValueArray`, `RecordList`
(/repo/src/util/value_util.go:591-1242) and `Record` (/repo/src/util/record_util.go:299-599), with their encoded
buffers and size estimates.  An object may be an element of several others, and even of itself.

Simplifications: objects are numbered; keys are values (a key that is changed after it was given to a record is modelled in
`KeyShare`); the elements have the static types of the Go program (a call that does not type check has no effect here).
-/

namespace Poodle

/-- The fields of a `Record`, /repo/src/util/record_util.go:299-313 (`estDataSize` is `estValue` here). -/
structure RecNode where
  key : Option KeyObj
  value : Option Nat
  scheme : Option Nat
  timestamp : Option Int
  sigR : Option Int
  sigS : Option Int
  encoded : Bool
  buf : Bytes
  estKey : Int
  estValue : Int
  estScheme : Int
deriving DecidableEq

/-- An object: `Primitive` (/repo/src/util/value_util.go:591-598), `ValueArray` (:772-779), `RecordList` (:1011-1018), `Record`
(/repo/src/util/record_util.go:299-313), a mapped value (:55-61, :189-200 of value_util.go) or a `MappedRecord`
(/repo/src/util/record_util.go:38-49). -/
inductive VNode where
  | prim (data : Slice) (encoded : Bool) (buf : Bytes)
  | array (elems : List Nat) (encoded : Bool) (buf : Bytes) (est : Int)
  | list (elems : List Nat) (encoded : Bool) (buf : Bytes) (est : Int)
  | record (r : RecNode)
  | mappedSimple (content buf : Bytes)
  | mappedStd (d : StdValue)
  | mappedRec (r : RecInfo)
deriving DecidableEq

/-- All objects.  (Go runtime; no file in /repo.) -/
abbrev VHeap := List VNode

/-- The object is an `IValue`, /repo/src/util/value_util.go:14-34. -/
def VNode.isValue : VNode → Bool
  | .record _ => false
  | .mappedRec _ => false
  | _ => true

/-- `IsNil` of each implementation of `IValue`, /repo/src/util/value_util.go:80-82, :225-227, :610-612, :791-793, :1030-1032. -/
def VNode.isNil : VNode → Bool
  | .prim data _ _ => data.bytes.length == 0
  | .array elems _ _ _ => elems.length == 0
  | .list elems _ _ _ => elems.length == 0
  | .mappedSimple content _ => content.length == 0
  | .mappedStd d => d.isNil
  | _ => false

/-- `IsEncoded`, /repo/src/util/value_util.go:135-137, :384-386, :686-688, :866-868, :1105-1107 and
/repo/src/util/record_util.go:145-147, :405-407. -/
def VNode.isEncoded : VNode → Bool
  | .prim _ e _ => e
  | .array _ e _ _ => e
  | .list _ e _ _ => e
  | .record r => r.encoded
  | _ => true

/-- `Buf`, /repo/src/util/value_util.go:127-129, :376-378, :665-672, :849-856, :1088-1095 and /repo/src/util/record_util.go:137-139,
:357-364. -/
def VNode.getBuf : VNode → Res Bytes
  | .prim _ e b => if e then .ok b else .panic
  | .array _ e b _ => if e then .ok b else .panic
  | .list _ e b _ => if e then .ok b else .panic
  | .record r => if r.encoded then .ok r.buf else .panic
  | .mappedSimple _ b => .ok b
  | .mappedStd d => .ok d.buf
  | .mappedRec r => .ok r.buf

/-- `Primitive.EstBufSize`, /repo/src/util/value_util.go:674-684, of data of the given length. -/
def primEst (n : Nat) : Int :=
  if n < 1 <<< 7 then 1 + n
  else if n < 1 <<< 15 then 2 + n
  else if n < 1 <<< 23 then 3 + n
  else 4 + n

/-- At least one, as in `ValueArray.EstBufSize` and `RecordList.EstBufSize`, /repo/src/util/value_util.go:858-864, :1097-1103, and in the
three parts of `Record.EstBufSize`, /repo/src/util/record_util.go:371-390. -/
def atLeastOne (n : Int) : Int := if n ≤ 0 then 1 else n

/-- `EstBufSize`, /repo/src/util/value_util.go:131-133, :380-382, :674-684, :858-864, :1097-1103 and
/repo/src/util/record_util.go:141-143, :366-403. -/
def VNode.est : VNode → Int
  | .prim data _ _ => primEst data.bytes.length
  | .array _ _ _ n => atLeastOne n
  | .list _ _ _ n => atLeastOne n
  | .record r =>
    1 + atLeastOne r.estKey + atLeastOne r.estValue + atLeastOne r.estScheme + (if r.timestamp.isSome then 8 else 0) +
      (if r.sigR.isSome && r.sigS.isSome then 32 * 2 else 0)
  | .mappedSimple _ b => b.length
  | .mappedStd d => d.buf.length
  | .mappedRec r => r.buf.length

/-- The loop over the elements of `ValueArray.Encode`, /repo/src/util/value_util.go:894-901, and `RecordList.Encode`, :1132-1140. -/
def encodeElems (enc : VHeap → Nat → VHeap × Option (Res Bytes)) : VHeap → List Nat → VHeap × Option (Res Bytes)
  | h, [] => (h, some (.ok []))
  | h, i :: l =>
    match enc h i with
    | (h, some (.ok b)) =>
      match encodeElems enc h l with
      | (h, some (.ok bs)) => (h, some (.ok (b ++ bs)))
      | (h, r) => (h, r)
    | (h, r) => (h, r)

/-- The value or scheme in `Record.Encode`, /repo/src/util/record_util.go:425-435 and :437-447: the bytes, if it is there. -/
def encodePart (enc : VHeap → Nat → VHeap × Option (Res Bytes)) (h : VHeap) (v : Option Nat) :
    VHeap × Option (Res (Option Bytes)) :=
  match v with
  | none => (h, some (.ok none))
  | some i =>
    match h[i]? with
    | none => (h, some .panic)
    | some n =>
      if n.isNil then (h, some (.ok none))
      else match enc h i with
        | (h, some (.ok b)) => (h, some (.ok (some b)))
        | (h, some .err) => (h, some .err)
        | (h, some .panic) => (h, some .panic)
        | (h, none) => (h, none)

/-- `Encode` followed by `Buf` on success, /repo/src/util/value_util.go:139-141, :388-390, :690-736, :870-936, :1109-1172 and
/repo/src/util/record_util.go:149-151, :409-468.  The first argument bounds the depth of the recursion; `none` stands for reaching
this bound. -/
def VHeap.encode : Nat → VHeap → Nat → VHeap × Option (Res Bytes)
  | 0, h, _ => (h, none)
  | f + 1, h, id =>
    match h[id]? with
    | none => (h, some .panic)
    | some (.prim data _ _) =>
      match encodePrimitive data with
      | .ok w => (h.set id (.prim data true w), some (.ok w))
      | r => (h, some r)
    | some (.array elems _ _ _) =>
      match countHeader 6 elems.length with
      | .ok (m, c) =>
        match encodeElems (VHeap.encode f) h elems with
        | (h, some (.ok content)) =>
          match withContent m c content with
          | .ok w => (h.set id (.array elems true w w.length), some (.ok w))
          | r => (h, some r)
        | (h, r) => (h, r)
      | .err => (h, some .err)
      | .panic => (h, some .panic)
    | some (.list elems _ _ est) =>
      match countHeader 4 elems.length with
      | .ok (m, c) =>
        match encodeElems (VHeap.encode f) h elems with
        | (h, some (.ok content)) =>
          match withContent m c content with
          | .ok w => (h.set id (.list elems true w est), some (.ok w))
          | r => (h, some r)
        | (h, r) => (h, r)
      | .err => (h, some .err)
      | .panic => (h, some .panic)
    | some (.record r) =>
      let h := h.set id (.record { r with key := encodedKey r.key })
      match recKeyPart r.key with
      | .ok (m1, b1) =>
        match encodePart (VHeap.encode f) h r.value with
        | (h, some (.ok o1)) =>
          match encodePart (VHeap.encode f) h r.scheme with
          | (h, some (.ok o2)) =>
            let (m4, b4) := timePart r.timestamp r.sigR r.sigS
            let m2 := if o1.isSome then (0x01 : UInt8) <<< 5 else 0
            let m3 := if o2.isSome then (0x01 : UInt8) <<< 4 else 0
            let w := (0x00 ||| m1 ||| m2 ||| m3 ||| m4) :: (b1 ++ o1.getD [] ++ o2.getD [] ++ b4)
            (h.set id (.record { r with key := encodedKey r.key, encoded := true, buf := w }), some (.ok w))
          | (h, some .err) => (h, some .err)
          | (h, some .panic) => (h, some .panic)
          | (h, none) => (h, none)
        | (h, some .err) => (h, some .err)
        | (h, some .panic) => (h, some .panic)
        | (h, none) => (h, none)
      | .err => (h, some .err)
      | .panic => (h, some .panic)
    | some (.mappedSimple _ _) => (h, some .err)
    | some (.mappedStd _) => (h, some .err)
    | some (.mappedRec _) => (h, some .err)

/-- The object is there and is an `IValue`; static typing of Go, see /repo/src/util/value_util.go:14-34. -/
def VHeap.isValue (h : VHeap) (i : Nat) : Bool :=
  match h[i]? with
  | some n => n.isValue
  | none => false

/-- The object is there and is an `IRecord`; static typing of Go, see /repo/src/util/record_util.go:14-31. -/
def VHeap.isRecord (h : VHeap) (i : Nat) : Bool :=
  match h[i]? with
  | some n => !n.isValue
  | none => false

/-- `EstBufSize` of an object by number (0 if there is none), /repo/src/util/value_util.go:992, :1002, :1228, :1238. -/
def VHeap.est (h : VHeap) (i : Nat) : Int :=
  match h[i]? with
  | some n => n.est
  | none => 0

/-- `ValueArray.Append`, /repo/src/util/value_util.go:989-994, and `RecordList.Append`, :1225-1230. -/
def VHeap.append (h : VHeap) (id i : Nat) : VHeap :=
  match h[id]? with
  | some (.array elems _ b est) => if h.isValue i then h.set id (.array (elems ++ [i]) false b (est + h.est i)) else h
  | some (.list elems _ b est) => if h.isRecord i then h.set id (.list (elems ++ [i]) false b (est + h.est i)) else h
  | _ => h

/-- `ValueArray.DeleteAt`, /repo/src/util/value_util.go:996-1006, and `RecordList.DeleteAt`, :1232-1242; `idx` is a `uint16`, and so is
`idx+1`. -/
def VHeap.deleteAt (h : VHeap) (id idx : Nat) : VHeap × Res Unit :=
  match h[id]? with
  | some (.array elems _ b est) =>
    if idx ≥ elems.length % 65536 then (h, .panic)
    else (h.set id (.array (elems.take idx ++ elems.drop ((idx + 1) % 65536)) false b (est - h.est (elems.getD idx 0))), .ok ())
  | some (.list elems _ b est) =>
    if idx ≥ elems.length % 65536 then (h, .panic)
    else (h.set id (.list (elems.take idx ++ elems.drop ((idx + 1) % 65536)) false b (est - h.est (elems.getD idx 0))), .ok ())
  | _ => (h, .ok ())

/-- A new object: `NewPrimitive`, `NewValueArray`, `NewRecordList`, `NewRecord`, or a mapped one, /repo/src/util/value_util.go:603-605,
:784-786, :1023-1025, :66-75, :205-220 and /repo/src/util/record_util.go:318-320, :54-70. -/
inductive NewObj where
  | prim (data : Slice)
  | array
  | list
  | record
  | simple (content buf : Bytes)
  | std (d : StdValue)
  | mapped (r : RecInfo)

/-- The new object, /repo/src/util/value_util.go:603-605, :784-786, :1023-1025, :66-75, :205-220 and
/repo/src/util/record_util.go:318-320, :54-70. -/
def NewObj.node : NewObj → VNode
  | .prim data => .prim data false []
  | .array => .array [] false [] 1
  | .list => .list [] false [] 1
  | .record => .record ⟨none, none, none, none, none, none, false, [], 0, 0, 0⟩
  | .simple content buf => .mappedSimple content buf
  | .std d => .mappedStd d
  | .mapped r => .mappedRec r

/-- `Record.SetKey`, /repo/src/util/record_util.go:546-551, with a key that is not nil. -/
def VHeap.setKey (h : VHeap) (id : Nat) (k : KeyObj) : VHeap :=
  match h[id]? with
  | some (.record r) => h.set id (.record { r with key := some k, encoded := false, estKey := k.estBufSize })
  | _ => h

/-- `Record.SetValue`, /repo/src/util/record_util.go:560-565, with a value that is not nil. -/
def VHeap.setValue (h : VHeap) (id i : Nat) : VHeap :=
  match h[id]? with
  | some (.record r) =>
    if h.isValue i then h.set id (.record { r with value := some i, encoded := false, estValue := h.est i }) else h
  | _ => h

/-- `Record.SetScheme`, /repo/src/util/record_util.go:574-579, with a scheme that is not nil. -/
def VHeap.setScheme (h : VHeap) (id i : Nat) : VHeap :=
  match h[id]? with
  | some (.record r) =>
    if h.isValue i then h.set id (.record { r with scheme := some i, encoded := false, estScheme := h.est i }) else h
  | _ => h

/-- `Record.SetTimestamp`, /repo/src/util/record_util.go:588-592. -/
def VHeap.setTimestamp (h : VHeap) (id : Nat) (t : Option Int) : VHeap :=
  match h[id]? with
  | some (.record r) => h.set id (.record { r with timestamp := t, encoded := false })
  | _ => h

/-- `Record.SetSignature`, /repo/src/util/record_util.go:594-599. -/
def VHeap.setSignature (h : VHeap) (id : Nat) (R S : Option Int) : VHeap :=
  match h[id]? with
  | some (.record r) => h.set id (.record { r with sigR := R, sigS := S, encoded := false })
  | _ => h

end Poodle
