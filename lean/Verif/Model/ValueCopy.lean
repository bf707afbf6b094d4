import Verif.Model.Value

/-
Model of `Copy` of values and records (/repo/src/util/value_util.go:165-175, :516-526, :749-761, :949-963, :1185-1199,
/repo/src/util/record_util.go:255-264, :481-504) and of the kind predicates of values.

A copy is a tree of new objects, so `Copy` maps trees to trees; the bytes shared between a mapped key and its copy are not modelled.
-/

namespace Poodle

/-- `IsPrimitive` of each implementation, /repo/src/util/value_util.go:84-86, :229-236, :614-616, :795-797, :1034-1036. -/
def CVal.isPrimitive : CVal → Bool
  | .prim _ => true
  | .array elems => (CVal.array elems).isNil || false
  | .records recs => (CVal.records recs).isNil || false
  | .simple _ _ => true
  | .std d => d.kind == .prim

/-- `IsValueArray` of each implementation, /repo/src/util/value_util.go:88-90, :238-245, :618-620, :799-801, :1038-1040. -/
def CVal.isValueArray : CVal → Bool
  | .prim _ => false
  | .array _ => true
  | .records _ => false
  | .simple _ _ => false
  | .std d => d.kind == .array

/-- `IsRecordList` of each implementation, /repo/src/util/value_util.go:92-94, :247-254, :622-624, :803-805, :1042-1044. -/
def CVal.isRecordList : CVal → Bool
  | .prim _ => false
  | .array _ => false
  | .records _ => true
  | .simple _ _ => false
  | .std d => d.kind == .records

/-- `SimpleMappedValue.Copy`, /repo/src/util/value_util.go:165-175: decodes a copy of the buffer, an error becomes a panic. -/
def copySimple (buf : Bytes) : Res CVal :=
  match decodeSimple buf with
  | .ok (content, buf, _) => .ok (.simple content buf)
  | _ => .panic

/-- `StandardMappedValue.Copy`, /repo/src/util/value_util.go:516-526: decodes a copy of the buffer, an error becomes a panic. -/
def copyStd (d : StdValue) : Res CVal :=
  match decodeStd d.buf with
  | .ok (d, _) => .ok (.std d)
  | _ => .panic

/-- `MappedRecord.Copy`, /repo/src/util/record_util.go:255-264: decodes a copy of the buffer, an error becomes a panic. -/
def RecInfo.copy (r : RecInfo) : Res RecInfo :=
  match decodeRecord r.buf with
  | .ok (r, _) => .ok r
  | _ => .panic

/-- The key in `Record.Copy`, /repo/src/util/record_util.go:484-487. -/
def copyKeyPart : Option KeyObj → Res (Option KeyObj)
  | none => .ok none
  | some k => do
    let k ← k.copy
    .ok (some k)

mutual
/-- `Copy` of each implementation of `IValue`, /repo/src/util/value_util.go:165-175, :516-526, :749-761, :949-963, :1185-1199. -/
def CVal.copy : CVal → Res CVal
  | .prim data => .ok (.prim data)
  | .array elems => do
    let l ← copyVals elems
    .ok (.array l)
  | .records recs => do
    let l ← copyRecs recs
    .ok (.records l)
  | .simple _ buf => copySimple buf
  | .std d => copyStd d

/-- The loop of `ValueArray.Copy`, /repo/src/util/value_util.go:958-960. -/
def copyVals : List CVal → Res (List CVal)
  | [] => .ok []
  | v :: l => do
    let v ← v.copy
    let l ← copyVals l
    .ok (v :: l)

/-- The value or scheme in `Record.Copy`, /repo/src/util/record_util.go:489-492 and :494-497. -/
def copyValuePart : Option CVal → Res (Option CVal)
  | none => .ok none
  | some v => do
    let v ← v.copy
    .ok (some v)

/-- `Copy` of each implementation of `IRecord`, /repo/src/util/record_util.go:255-264 and :481-504. -/
def CRec.copy : CRec → Res CRec
  | .record key value scheme timestamp r s => do
    let key ← copyKeyPart key
    let value ← copyValuePart value
    let scheme ← copyValuePart scheme
    .ok (.record key value scheme timestamp r s)
  | .mapped r => do
    let r ← r.copy
    .ok (.mapped r)

/-- The loop of `RecordList.Copy`, /repo/src/util/value_util.go:1194-1196. -/
def copyRecs : List CRec → Res (List CRec)
  | [] => .ok []
  | r :: l => do
    let r ← r.copy
    let l ← copyRecs l
    .ok (r :: l)
end

end Poodle
