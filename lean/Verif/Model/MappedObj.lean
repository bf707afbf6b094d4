import Verif.Model.Value

/-
Model of the objects made from bytes, with the part of their interface that is about encoding and decoding
(/repo/src/util/encodable.go:10-51): mapped keys, simple and standard values, and records.  `Key` and `Value` have what decoding computes;
here are the fields that `Decode` writes, so that it may be called again, and fail half way.

Simplified: elements of arrays and lists are not read here (see `ValueHeap`), so that the slices of elements are given by their lengths;
the bytes handed in are not changed while the object is in use; a buffer cut to its first part is never extended again.
-/

namespace Poodle

/-! ### Keys -/

/-- `MappedKey`, /repo/src/util/key_util.go:137-142.  (`keys` is never nil.) -/
structure MKey where
  decoded : Bool
  keys : List Slice
  buf : Bytes
deriving DecidableEq, Repr

/-- The loop over the sub keys, /repo/src/util/key_util.go:231-237, over the last `n` of them: what they are afterwards (nil where the loop
did not get, and where `DecodeVarchar` returned an error), and the bytes read. -/
def subKeyLoop : Nat → Bytes → List Slice × Res Nat
  | 0, _ => ([], .ok 0)
  | n + 1, buf => match decodeVarchar buf with
    | .ok (d, len) => match subKeyLoop n (buf.drop len) with
      | (ks, .ok m) => (some d :: ks, .ok (len + m))
      | (ks, .err) => (some d :: ks, .err)
      | (ks, .panic) => (some d :: ks, .panic)
    | .err => (List.replicate (n + 1) none, .err)
    | .panic => (List.replicate (n + 1) none, .panic)

/-- `MappedKey.Decode`, /repo/src/util/key_util.go:219-242. -/
def MKey.decode (k : MKey) : MKey × Res Nat :=
  match decodeUvarint64 k.buf with
  | .err => (k, .err)
  | .panic => (k, .panic)
  | .ok (n, len) =>
    if n > maxMake24 then (k, .panic)
    else match subKeyLoop n (k.buf.drop len) with
      | (ks, .ok m) => ({ k with keys := ks, decoded := true }, .ok (len + m))
      | (ks, .err) => ({ k with keys := ks }, .err)
      | (ks, .panic) => ({ k with keys := ks }, .panic)

/-- `MappedKey.IsDecoded`, /repo/src/util/key_util.go:215-217: the test is `k.keys == nil`, and neither the constructor (:149) nor
`Decode` (:230) leaves `keys` nil. -/
def MKey.isDecoded (_ : MKey) : Bool := false

/-- `MappedKey.IsEmpty`, /repo/src/util/key_util.go:159-169. -/
def MKey.isEmpty (k : MKey) : Res Bool :=
  if k.buf.isEmpty then .ok true
  else if k.decoded then .ok k.keys.isEmpty else .panic

/-- `MappedKey.Buf`, /repo/src/util/key_util.go:193-198. -/
def MKey.getBuf (k : MKey) : Res Bytes := do
  let e ← k.isEmpty
  .ok (if e then [0x00] else k.buf)

/-- `MappedKey.EstBufSize`, /repo/src/util/key_util.go:200-205. -/
def MKey.est (k : MKey) : Res Nat := do
  let e ← k.isEmpty
  .ok (if e then 1 else k.buf.length)

/-- `MappedKey.Key`, /repo/src/util/key_util.go:171-178. -/
def MKey.getKey (k : MKey) : Res (List Slice) := if k.decoded then .ok k.keys else .panic

/-! ### Simple values -/

/-- `SimpleMappedValue`, /repo/src/util/value_util.go:55-61. -/
structure MSimple where
  decoded : Bool
  buf : Bytes
  content : Slice
deriving DecidableEq, Repr

/-- `SimpleMappedValue.Decode`, /repo/src/util/value_util.go:147-160. -/
def MSimple.decode (d : MSimple) : MSimple × Res Nat :=
  match decodeVarchar d.buf with
  | .err => (d, .err)
  | .panic => (d, .panic)
  | .ok (c, n) => ({ decoded := true, buf := d.buf.take n, content := some c }, .ok n)

/-! ### Standard values -/

/-- `StandardMappedValue`, /repo/src/util/value_util.go:189-200; `arr` and `recs` are the lengths of `data_array` and `record_list`, or
none where these are nil. -/
structure MStd where
  decoded : Bool
  buf : Bytes
  arr : Option Nat
  recs : Option Nat
  size : Nat
  content : Slice
deriving DecidableEq, Repr

/-- The assignments at /repo/src/util/value_util.go:413-414, :421-422. -/
def MStd.setArr (d : MStd) : Option Nat → MStd
  | none => d
  | some n => { d with arr := some n, size := n }

/-- The assignments at /repo/src/util/value_util.go:442-443, :453-454. -/
def MStd.setRecs (d : MStd) : Option Nat → MStd
  | none => d
  | some n => { d with recs := some n, size := n }

/-- The end of `StandardMappedValue.Decode`, /repo/src/util/value_util.go:460-510. -/
def MStd.decodeEnd (d : MStd) (magic : UInt8) (pos : Nat) : MStd × Res Nat :=
  if (magic >>> 3) &&& 0x01 = 1 then (d, .err)
  else if (magic >>> 2) &&& 0x01 = 1 then (d, .err)
  else match decodeContent d.buf (magic &&& 0x03) pos with
    | .err => (d, .err)
    | .panic => (d, .panic)
    | .ok (len, pos) => match goSlice d.buf ((pos : Int) - len) pos with
      | .err => (d, .err)
      | .panic => (d, .panic)
      | .ok c => ({ d with content := some c, buf := d.buf.take pos, decoded := true }, .ok pos)

/-- `StandardMappedValue.Decode`, /repo/src/util/value_util.go:396-511. -/
def MStd.decode (d : MStd) : MStd × Res Nat :=
  match d.buf with
  | [] => (d, .panic)
  | magic :: _ => match decodeCount d.buf ((magic >>> 6) &&& 0x03) false 1 with
    | .err => (d, .err)
    | .panic => (d, .panic)
    | .ok (arr, pos) => match decodeCount d.buf ((magic >>> 4) &&& 0x03) arr.isSome pos with
      | .err => (d.setArr arr, .err)
      | .panic => (d.setArr arr, .panic)
      | .ok (recs, pos) => ((d.setArr arr).setRecs recs).decodeEnd magic pos

/-- What `IsPrimitive`, `IsValueArray` and `IsRecordList` say (the first that is true), /repo/src/util/value_util.go:229-254. -/
def MStd.kind (d : MStd) : VKind :=
  if d.arr.isSome then .array else if d.recs.isSome then .records else .prim

/-- The getters `IsPrimitive`, ..., `Size`, `Value`, /repo/src/util/value_util.go:229-263, :356-367, together; all panic if the value is not
decoded. -/
def MStd.content' (d : MStd) : Res (VKind × Nat × Slice) :=
  if d.decoded then .ok (d.kind, d.size, if d.kind = .prim then d.content else none) else .panic

/-! ### Records -/

/-- `MappedRecord`, /repo/src/util/record_util.go:38-49. -/
structure MRecord where
  decoded : Bool
  buf : Bytes
  key : Option MappedKey
  value : Option StdValue
  scheme : Option StdValue
  timestamp : Option Int
  signature : Option (Int × Int)
deriving DecidableEq, Repr

/-- The signature, and the end of `MappedRecord.Decode`, /repo/src/util/record_util.go:228-249. -/
def MRecord.decodeSig (r : MRecord) (magic : UInt8) (pos : Nat) : MRecord × Res Nat :=
  match decodeRecSig r.buf ((magic >>> 1) &&& 0x01) pos with
  | .err => (r, .err)
  | .panic => (r, .panic)
  | .ok (g, pos) =>
    let r := if (magic >>> 1) &&& 0x01 ≠ 0 then { r with signature := g } else r
    match goSlice r.buf 0 pos with
    | .err => (r, .err)
    | .panic => (r, .panic)
    | .ok b => ({ r with buf := b, decoded := true }, .ok pos)

/-- The timestamp and what follows, /repo/src/util/record_util.go:214-226.  `BytesToTime` returns nil with its error. -/
def MRecord.decodeTime (r : MRecord) (magic : UInt8) (pos : Nat) : MRecord × Res Nat :=
  match decodeRecTime r.buf ((magic >>> 2) &&& 0x01) pos with
  | .err => (if r.buf.length < pos then r else { r with timestamp := none }, .err)
  | .panic => (r, .panic)
  | .ok (t, pos) => (if (magic >>> 2) &&& 0x01 ≠ 0 then { r with timestamp := t } else r).decodeSig magic pos

/-- The value and the scheme, and what follows, /repo/src/util/record_util.go:180-212. -/
def MRecord.decodeValues (r : MRecord) (magic : UInt8) (pos : Nat) : MRecord × Res Nat :=
  match decodeRecPart r.buf ((magic >>> 5) &&& 0x01) maxValueLength pos with
  | .err => (r, .err)
  | .panic => (r, .panic)
  | .ok (v, pos) => match decodeRecPart r.buf ((magic >>> 4) &&& 0x01) maxRecSchemeLength pos with
    | .err => ({ r with value := some v }, .err)
    | .panic => ({ r with value := some v }, .panic)
    | .ok (s, pos) => { r with value := some v, scheme := some s }.decodeTime magic pos

/-- `MappedRecord.Decode`, /repo/src/util/record_util.go:157-250; without the bit for the key, the key is nil and `key.Buf()` panics. -/
def MRecord.decode (r : MRecord) : MRecord × Res Nat :=
  match r.buf with
  | [] => (r, .panic)
  | magic :: _ =>
    if (magic >>> 6) &&& 0x01 = 0 then (r, .panic)
    else match newMappedKey (r.buf.drop 1) with
      | .err => (r, .err)
      | .panic => (r, .panic)
      | .ok (k, _) =>
        if k.getBuf.length > maxKeyLength then (r, .err)
        else { r with key := some k }.decodeValues magic (1 + k.getBuf.length)

/-! ### All of them -/

/-- The types, /repo/src/util/key_util.go:137, /repo/src/util/value_util.go:55, :189, /repo/src/util/record_util.go:38. -/
inductive MType where
  | key
  | simple
  | std
  | record
deriving DecidableEq, Repr

/-- An object of one of the types, /repo/src/util/key_util.go:137, /repo/src/util/value_util.go:55, :189, /repo/src/util/record_util.go:38. -/
inductive MObj where
  | key (k : MKey)
  | simple (d : MSimple)
  | std (d : MStd)
  | record (r : MRecord)
deriving DecidableEq, Repr

/-- The object before its first `Decode`, /repo/src/util/key_util.go:149, /repo/src/util/value_util.go:68, :211,
/repo/src/util/record_util.go:61. -/
def MType.fresh (buf : Bytes) : MType → MObj
  | .key => .key { decoded := false, keys := [], buf := buf }
  | .simple => .simple { decoded := false, buf := buf, content := none }
  | .std => .std { decoded := false, buf := buf, arr := none, recs := none, size := 0, content := none }
  | .record => .record { decoded := false, buf := buf, key := none, value := none, scheme := none, timestamp := none, signature := none }

/-- `Decode`, see the types: /repo/src/util/key_util.go:219, /repo/src/util/value_util.go:147, :396, /repo/src/util/record_util.go:157. -/
def MObj.decode : MObj → MObj × Res Nat
  | .key k => (.key k.decode.1, k.decode.2)
  | .simple d => (.simple d.decode.1, d.decode.2)
  | .std d => (.std d.decode.1, d.decode.2)
  | .record r => (.record r.decode.1, r.decode.2)

/-- The constructors `NewMappedKey`, `NewSimpleMappedValue`, `NewStandardMappedValue`, `NewMappedRecord`: /repo/src/util/key_util.go:147-157,
/repo/src/util/value_util.go:66-75, :205-220, /repo/src/util/record_util.go:54-70.  The last two refuse empty bytes. -/
def MType.make (t : MType) (buf : Bytes) : Res (MObj × Nat) :=
  if (t = .std ∨ t = .record) ∧ buf.length < 1 then .err
  else match (t.fresh buf).decode with
    | (o, .ok n) => .ok (o, n)
    | (_, .err) => .err
    | (_, .panic) => .panic

/-- The calls, /repo/src/util/encodable.go:10-51 (`Copy` and `CopyConstruct` are in `ValueCopy` and `Key`), and `content` for the getters of
the type. -/
inductive MCall where
  | decode
  | encode
  | isDecoded
  | isEncoded
  | buf
  | est
  | content
deriving DecidableEq, Repr

/-- What getters return: the sub keys of a key, the bytes of a simple value, the kind, size and bytes of a standard value, the parts of a
record (whose key is given by its sub keys and its bytes).  /repo/src/util/key_util.go:171, /repo/src/util/value_util.go:81, :107, :229-367,
/repo/src/util/record_util.go:75-123. -/
inductive MContent where
  | key (empty : Bool) (keys : List Slice)
  | simple (isNil : Bool) (value : Slice)
  | std (kind : VKind) (size : Nat) (value : Slice)
  | record (key : Option (List Slice × Bytes)) (value scheme : Option StdValue) (timestamp : Option Int) (signature : Option (Int × Int))
deriving DecidableEq, Repr

/-- The getters together: `Key`, `IsEmpty` (/repo/src/util/key_util.go:159-178); `IsNil`, `Value` (/repo/src/util/value_util.go:80-82, :116-118);
those of standard values (see there); `Key`, `Value`, `Scheme`, `Timestamp`, `Signature` (/repo/src/util/record_util.go:75-123). -/
def MObj.content : MObj → Res MContent
  | .key k => do
    let e ← k.isEmpty
    let ks ← k.getKey
    .ok (.key e ks)
  | .simple d => .ok (.simple (d.content.bytes.length == 0) d.content)
  | .std d => do
    let (k, n, c) ← d.content'
    .ok (.std k n c)
  | .record r =>
    if r.decoded then .ok (.record (r.key.map fun k => (k.keys, k.getBuf)) r.value r.scheme r.timestamp r.signature) else .panic

/-- What a call returns, /repo/src/util/encodable.go:10-51. -/
inductive MOut where
  | unit
  | flag (b : Bool)
  | number (n : Nat)
  | bytes (b : Bytes)
  | content (c : MContent)
deriving DecidableEq, Repr

/-- `Buf`, /repo/src/util/key_util.go:193-198, /repo/src/util/value_util.go:127-129, :376-378, /repo/src/util/record_util.go:137-139. -/
def MObj.getBuf : MObj → Res Bytes
  | .key k => k.getBuf
  | .simple d => .ok d.buf
  | .std d => .ok d.buf
  | .record r => .ok r.buf

/-- `EstBufSize`, /repo/src/util/key_util.go:200-205, /repo/src/util/value_util.go:131-133, :380-382, /repo/src/util/record_util.go:141-143. -/
def MObj.est : MObj → Res Nat
  | .key k => k.est
  | .simple d => .ok d.buf.length
  | .std d => .ok d.buf.length
  | .record r => .ok r.buf.length

/-- `IsDecoded`, /repo/src/util/key_util.go:215-217, /repo/src/util/value_util.go:143-145, :392-394, /repo/src/util/record_util.go:153-155. -/
def MObj.isDecoded : MObj → Bool
  | .key k => k.isDecoded
  | .simple d => d.decoded
  | .std d => d.decoded
  | .record r => r.decoded

/-- `Encode`, /repo/src/util/key_util.go:211-213, /repo/src/util/value_util.go:139-141, :388-390, /repo/src/util/record_util.go:149-151: an error,
but for keys. -/
def MObj.encode : MObj → Res Unit
  | .key _ => .ok ()
  | _ => .err

/-- One call; `IsEncoded` is /repo/src/util/key_util.go:207-209, /repo/src/util/value_util.go:135-137, :384-386, /repo/src/util/record_util.go:145-147. -/
def MObj.call (o : MObj) : MCall → MObj × Res MOut
  | .decode => (o.decode.1, o.decode.2.bind fun n => .ok (.number n))
  | .encode => (o, o.encode.bind fun _ => .ok .unit)
  | .isDecoded => (o, .ok (.flag o.isDecoded))
  | .isEncoded => (o, .ok (.flag true))
  | .buf => (o, o.getBuf.bind fun b => .ok (.bytes b))
  | .est => (o, o.est.bind fun n => .ok (.number n))
  | .content => (o, o.content.bind fun c => .ok (.content c))

/-- A sequence of calls, /repo/src/util/encodable.go:10-51: what they return. -/
def MObj.calls (o : MObj) : List MCall → MObj × List (Res MOut)
  | [] => (o, [])
  | c :: cs => (((o.call c).1.calls cs).1, (o.call c).2 :: ((o.call c).1.calls cs).2)

end Poodle
