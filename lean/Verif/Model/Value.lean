import Verif.Model.Key
import Verif.Model.Conv

/-
Model of /repo/src/util/value_util.go (`SimpleMappedValue`, `StandardMappedValue`, `Primitive`, `ValueArray`, `RecordList`) and
of /repo/src/util/record_util.go (`MappedRecord`, `Record`): encoding and decoding.  Access to the elements of decoded values,
which caches, is modelled in `Verif.Model.ValueHeap`.

Simplifications: nil interface values are modelled only where the code produces them (absent key, value or scheme of a record);
the size estimates (`EstBufSize`) are not modelled; constructed values are trees (a value is not appended to itself).
-/

namespace Poodle

/-! ### Decoding -/

/-- The index expression `buf[i]`.  (Go language; no file in /repo.) -/
def goByte (buf : Bytes) (i : Nat) : Res UInt8 :=
  match buf[i]? with
  | some b => .ok b
  | none => .panic

/-- `binary.BigEndian.Uint16(buf[pos:])`, /repo/src/util/value_util.go:421, :452, :497. -/
def be16At (buf : Bytes) (pos : Nat) : Res Nat := do
  let hi ← goByte buf pos
  let lo ← goByte buf (pos + 1)
  .ok (hi.toNat * 256 + lo.toNat)

/-- What a `StandardMappedValue` is: `data_array != nil` (value array), `record_list != nil` (record list) or neither,
/repo/src/util/value_util.go:229-254. -/
inductive VKind where
  | prim
  | array
  | records
deriving DecidableEq, Repr

/-- A decoded `StandardMappedValue`, /repo/src/util/value_util.go:189-200, without the caches `data_array` and `record_list`
(see `Verif.Model.ValueHeap`) and without `lookup` and `compression`, which are always nil. -/
structure StdValue where
  buf : Bytes
  kind : VKind
  size : Nat
  content : Bytes
deriving DecidableEq, Repr

/-- The element count of a value array, /repo/src/util/value_util.go:403-426, or of a record list, :428-457.  `bits` is the two bit
width, `isSet` is `format_is_set`; returns the count if present and the next position. -/
def decodeCount (buf : Bytes) (bits : UInt8) (isSet : Bool) (pos : Nat) : Res (Option Nat × Nat) :=
  if bits = 0 then .ok (none, pos)
  else if bits = 1 then
    if isSet then .err
    else if buf.length < 1 + pos then .err
    else do
      let n ← goByte buf pos
      .ok (some n.toNat, pos + 1)
  else if bits = 2 then
    if isSet then .err
    else if buf.length < 2 + pos then .err
    else do
      let n ← be16At buf pos
      .ok (some n, pos + 2)
  else .err

/-- The content length, /repo/src/util/value_util.go:479-504; returns `content_length` and the position after the content. -/
def decodeContent (buf : Bytes) (bits : UInt8) (pos : Nat) : Res (Nat × Nat) :=
  if bits = 0 then .ok (0, pos)
  else if bits = 1 then
    if buf.length < 1 + pos then .err
    else do
      let n ← goByte buf pos
      if buf.length < 1 + pos + n.toNat then .err
      else .ok (n.toNat, pos + (1 + n.toNat))
  else if bits = 2 then
    if buf.length < 2 + pos then .err
    else do
      let n ← be16At buf pos
      if buf.length < 2 + pos + n then .err
      else .ok (n, pos + (2 + n))
  else .err

/-- `NewStandardMappedValue` and `StandardMappedValue.Decode`, /repo/src/util/value_util.go:205-220 and :396-511. -/
def decodeStd (buf : Bytes) : Res (StdValue × Nat) :=
  if buf.length < 1 then .err
  else do
    let magic ← goByte buf 0
    let (arr, pos) ← decodeCount buf ((magic >>> 6) &&& 0x03) false 1
    let (recs, pos) ← decodeCount buf ((magic >>> 4) &&& 0x03) arr.isSome pos
    if (magic >>> 3) &&& 0x01 = 1 then .err
    else if (magic >>> 2) &&& 0x01 = 1 then .err
    else do
      let (len, pos) ← decodeContent buf (magic &&& 0x03) pos
      let content ← goSlice buf ((pos : Int) - len) pos
      let kind := if arr.isSome then VKind.array else if recs.isSome then VKind.records else VKind.prim
      .ok ({ buf := buf.take pos, kind := kind, size := (arr.or recs).getD 0, content := content }, pos)

/-- `StandardMappedValue.IsNil`, /repo/src/util/value_util.go:225-227. -/
def StdValue.isNil (d : StdValue) : Bool := d.buf.head? == some 0x00

/-- `StandardMappedValue.Value`, /repo/src/util/value_util.go:356-367. -/
def StdValue.value (d : StdValue) : Slice := if d.kind = .prim then some d.content else none

/-- `NewSimpleMappedValue` and `SimpleMappedValue.Decode`, /repo/src/util/value_util.go:66-75 and :147-160: content, buffer and
length. -/
def decodeSimple (buf : Bytes) : Res (Bytes × Bytes × Nat) := do
  let (d, n) ← decodeVarchar buf
  .ok (d, buf.take n, n)

/-- `MAX_VALUE_LENGTH`, /repo/src/util/const_util.go:20. -/
def maxValueLength : Nat := 57344

/-- `MAX_SCHEME_LENGTH` as used for records, /repo/src/util/const_util.go:21. -/
def maxRecSchemeLength : Nat := 1024

/-- A decoded `MappedRecord`, /repo/src/util/record_util.go:38-49.  `Decode` only succeeds with a key, a value and a scheme. -/
structure RecInfo where
  buf : Bytes
  key : MappedKey
  value : StdValue
  scheme : StdValue
  timestamp : Option Int
  signature : Option (Int × Int)
deriving DecidableEq, Repr

/-- One component of a record that is a value (value or scheme), /repo/src/util/record_util.go:180-195 and :197-212.  Without the
presence bit the interface stays nil and `value.Buf()` panics. -/
def decodeRecPart (buf : Bytes) (bit : UInt8) (limit pos : Nat) : Res (StdValue × Nat) :=
  if buf.length < pos then .err
  else if bit ≠ 0 then do
    let (d, _) ← decodeStd (buf.drop pos)
    if d.buf.length > limit then .err
    else .ok (d, pos + d.buf.length)
  else .panic

/-- The timestamp in `MappedRecord.Decode`, /repo/src/util/record_util.go:214-226. -/
def decodeRecTime (buf : Bytes) (bit : UInt8) (pos : Nat) : Res (Option Int × Nat) :=
  if bit ≠ 0 then
    if buf.length < pos then .err
    else do
      let t ← bytesToTime (buf.drop pos)
      .ok (some t, pos + 8)
  else .ok (none, pos)

/-- The signature in `MappedRecord.Decode`, /repo/src/util/record_util.go:228-242. -/
def decodeRecSig (buf : Bytes) (bit : UInt8) (pos : Nat) : Res (Option (Int × Int) × Nat) :=
  if bit ≠ 0 then
    if buf.length < pos then .err
    else if buf.length < pos + 64 then .ok (none, pos)
    else do
      let r ← goSlice buf pos (pos + 32)
      let s ← goSlice buf (pos + 32) (pos + 64)
      .ok (some (byteArrayToBigInt r, byteArrayToBigInt s), pos + 64)
  else .ok (none, pos)

/-- `NewMappedRecord` and `MappedRecord.Decode`, /repo/src/util/record_util.go:54-70 and :157-250.  The key is followed by the value
at the position given by `len(key.Buf())`, which is the whole rest of the buffer unless the key is empty. -/
def decodeRecord (buf : Bytes) : Res (RecInfo × Nat) :=
  if buf.length < 1 then .err
  else do
    let magic ← goByte buf 0
    if (magic >>> 6) &&& 0x01 = 0 then .panic
    else do
      let k ← newMappedKey (buf.drop 1)
      if k.1.getBuf.length > maxKeyLength then .err
      else do
        let v ← decodeRecPart buf ((magic >>> 5) &&& 0x01) maxValueLength (1 + k.1.getBuf.length)
        let s ← decodeRecPart buf ((magic >>> 4) &&& 0x01) maxRecSchemeLength v.2
        let t ← decodeRecTime buf ((magic >>> 2) &&& 0x01) s.2
        let g ← decodeRecSig buf ((magic >>> 1) &&& 0x01) t.2
        let b ← goSlice buf 0 g.2
        .ok ({ buf := b, key := k.1, value := v.1, scheme := s.1, timestamp := t.1, signature := g.1 }, g.2)

/-! ### Constructed values and records, encoding -/

mutual
/-- The implementations of `IValue`: `Primitive` (/repo/src/util/value_util.go:591-598), `ValueArray` (:772-779), `RecordList`
(:1011-1018), `SimpleMappedValue` (:55-61) and `StandardMappedValue` (:189-200). -/
inductive CVal where
  | prim (data : Slice)
  | array (elems : List CVal)
  | records (recs : List CRec)
  | simple (content buf : Bytes)
  | std (d : StdValue)

/-- The implementations of `IRecord`: `Record` (/repo/src/util/record_util.go:299-313) and `MappedRecord` (:38-49). -/
inductive CRec where
  | record (key : Option KeyObj) (value scheme : Option CVal) (timestamp : Option Int) (r s : Option Int)
  | mapped (r : RecInfo)
end

/-- `IsNil` of each implementation, /repo/src/util/value_util.go:80-82, :225-227, :610-612, :791-793, :1030-1032. -/
def CVal.isNil : CVal → Bool
  | .prim data => data.bytes.length == 0
  | .array elems => elems.length == 0
  | .records recs => recs.length == 0
  | .simple content _ => content.length == 0
  | .std d => d.isNil

/-- `Primitive.Encode`, /repo/src/util/value_util.go:690-736: the bytes stored in `d.buf` (nil counts as no bytes). -/
def encodePrimitive (data : Slice) : Res Bytes :=
  match data with
  | none => .ok []
  | some d =>
    if d.length = 0 then .ok [0x00]
    else if d.length < 256 then .ok (0x01 :: ([UInt8.ofNat d.length] ++ d))
    else if d.length < 65536 then .ok (0x02 :: ([UInt8.ofNat (d.length >>> 8), UInt8.ofNat d.length] ++ d))
    else .err

/-- The magic byte and element count of a value array (`shift` 6), /repo/src/util/value_util.go:877-891, or record list (`shift` 4),
:1115-1129. -/
def countHeader (shift : UInt8) (size : Nat) : Res (UInt8 × Bytes) :=
  if size = 0 then .ok (0x00 ||| 0x00, [])
  else if size < 256 then .ok (0x00 ||| ((0x01 : UInt8) <<< shift), [UInt8.ofNat size])
  else if size < 65536 then .ok (0x00 ||| ((0x02 : UInt8) <<< shift), [UInt8.ofNat (size >>> 8), UInt8.ofNat size])
  else .err

/-- Appending the content, /repo/src/util/value_util.go:903-935 and :1142-1171. -/
def withContent (magic : UInt8) (count content : Bytes) : Res Bytes :=
  if content.length = 0 then .ok (magic :: count)
  else if content.length < 256 then .ok ((magic ||| 0x01) :: (count ++ [UInt8.ofNat content.length] ++ content))
  else if content.length < 65536 then
    .ok ((magic ||| 0x02) :: (count ++ [UInt8.ofNat (content.length >>> 8), UInt8.ofNat content.length] ++ content))
  else .err

/-- `r.key.Encode(nil)` followed by `r.key.Buf()`, /repo/src/util/record_util.go:416-422. -/
def keyPartBytes (k : KeyObj) : Res Bytes :=
  if k.encode.2 then k.encode.1.getBuf else .err

/-- The timestamp and signature of `Record.Encode`, /repo/src/util/record_util.go:449-461: magic bits and bytes. -/
def timePart (timestamp r s : Option Int) : UInt8 × Bytes :=
  match timestamp with
  | none => (0, [])
  | some t =>
    match r, s with
    | some r, some s => (((0x01 : UInt8) <<< 2) ||| ((0x01 : UInt8) <<< 1), timeToBytes t ++ bigIntToByteArray r ++ bigIntToByteArray s)
    | _, _ => ((0x01 : UInt8) <<< 2, timeToBytes t)

/-- The key of `Record.Encode`, /repo/src/util/record_util.go:413-423: magic bit and bytes. -/
def recKeyPart (key : Option KeyObj) : Res (UInt8 × Bytes) :=
  match key with
  | none => .ok (0, [])
  | some k => if k.isEmpty then .ok (0, []) else do
    let b ← keyPartBytes k
    .ok ((0x01 : UInt8) <<< 6, b)

mutual
/-- `Encode` followed by `Buf` of each implementation of `IValue`, /repo/src/util/value_util.go:139-141, :388-390, :690-736, :870-936,
:1109-1172. -/
def CVal.encode : CVal → Res Bytes
  | .prim data => encodePrimitive data
  | .array elems => do
    let (m, c) ← countHeader 6 elems.length
    let content ← encodeVals elems
    withContent m c content
  | .records recs => do
    let (m, c) ← countHeader 4 recs.length
    let content ← encodeRecs recs
    withContent m c content
  | .simple _ _ => .err
  | .std _ => .err

/-- The element loop of `ValueArray.Encode`, /repo/src/util/value_util.go:894-901. -/
def encodeVals : List CVal → Res Bytes
  | [] => .ok []
  | v :: l => do
    let b ← v.encode
    let bs ← encodeVals l
    .ok (b ++ bs)

/-- The value or scheme of `Record.Encode`, /repo/src/util/record_util.go:425-435 and :437-447: magic bit and bytes. -/
def recValuePart (bit : UInt8) : Option CVal → Res (UInt8 × Bytes)
  | none => .ok (0, [])
  | some v => if v.isNil then .ok (0, []) else do
    let b ← v.encode
    .ok ((0x01 : UInt8) <<< bit, b)

/-- `Encode` followed by `Buf` of each implementation of `IRecord`, /repo/src/util/record_util.go:149-151 and :409-468. -/
def CRec.encode : CRec → Res Bytes
  | .record key value scheme timestamp r s => do
    let (m1, b1) ← recKeyPart key
    let (m2, b2) ← recValuePart 5 value
    let (m3, b3) ← recValuePart 4 scheme
    let (m4, b4) := timePart timestamp r s
    .ok ((0x00 ||| m1 ||| m2 ||| m3 ||| m4) :: (b1 ++ b2 ++ b3 ++ b4))
  | .mapped _ => .err

/-- The element loop of `RecordList.Encode`, /repo/src/util/value_util.go:1132-1140. -/
def encodeRecs : List CRec → Res Bytes
  | [] => .ok []
  | r :: l => do
    let b ← r.encode
    let bs ← encodeRecs l
    .ok (b ++ bs)
end

/-- A `ValueArray` object, /repo/src/util/value_util.go:772-779: its elements and whether `buf` is current.  The size estimate is
left out. -/
structure ValueArray where
  elems : List CVal
  encoded : Bool

/-- `NewValueArray`, /repo/src/util/value_util.go:784-786. -/
def ValueArray.new : ValueArray := { elems := [], encoded := false }

/-- `ValueArray.Append`, /repo/src/util/value_util.go:989-994. -/
def ValueArray.append (a : ValueArray) (v : CVal) : ValueArray := { elems := a.elems ++ [v], encoded := false }

/-- `ValueArray.DeleteAt`, /repo/src/util/value_util.go:996-1006; `idx` is a `uint16`, and so is `idx+1`. -/
def ValueArray.deleteAt (a : ValueArray) (idx : Nat) : Res ValueArray :=
  if idx ≥ a.elems.length % 65536 then .panic
  else .ok { elems := a.elems.take idx ++ a.elems.drop ((idx + 1) % 65536), encoded := false }

/-- `ValueArray.Encode`, /repo/src/util/value_util.go:870-936: on success the object is encoded, on an error it is left as it was. -/
def ValueArray.encode (a : ValueArray) : ValueArray :=
  match (CVal.array a.elems).encode with
  | .ok _ => { a with encoded := true }
  | _ => a

/-- `Size` of each implementation, /repo/src/util/value_util.go:96-98, :256-263, :626-628, :807-809, :1046-1048 (`uint16` conversion
wraps). -/
def CVal.size : CVal → Nat
  | .prim _ => 0
  | .array elems => elems.length % 65536
  | .records recs => recs.length % 65536
  | .simple _ _ => 0
  | .std d => d.size

/-- `Value` of each implementation, /repo/src/util/value_util.go:116-118, :356-367, :648-651, :833-835, :1072-1074. -/
def CVal.value : CVal → Slice
  | .prim data => data
  | .array _ => none
  | .records _ => none
  | .simple content _ => some content
  | .std d => d.value

/-- `ValueAt` of the constructed values and of `SimpleMappedValue`, /repo/src/util/value_util.go:100-102, :630-633, :811-818,
:1050-1053; `idx` is a `uint16`.  For `StandardMappedValue` see `Verif.Model.ValueHeap`; here it is not used. -/
def CVal.valueAt (v : CVal) (idx : Nat) : Res CVal :=
  match v with
  | .array elems =>
    if idx ≥ elems.length % 65536 then .err
    else match elems[idx]? with
      | some e => .ok e
      | none => .panic
  | _ => .err

/-- `RecordAt` of the constructed values and of `SimpleMappedValue`, /repo/src/util/value_util.go:104-106, :635-638, :820-823,
:1055-1062. -/
def CVal.recordAt (v : CVal) (idx : Nat) : Res CRec :=
  match v with
  | .records recs =>
    if idx ≥ recs.length % 65536 then .err
    else match recs[idx]? with
      | some e => .ok e
      | none => .panic
  | _ => .err

end Poodle
