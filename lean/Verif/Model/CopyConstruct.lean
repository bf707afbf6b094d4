import Verif.Model.ValueHeap

/-
Model of `CopyConstruct` of values and records that may contain decoded ones, /repo/src/util/value_util.go:177-183, :763-766, :965-984,
:1201-1220 and /repo/src/util/record_util.go:506-542.

Simplification: a decoded part is copied with its caches empty (`Verif.Model.ValueHeap` models the caches, and C47 shows that they
make no difference for parts that were encoded from primitives and arrays).
-/

namespace Poodle

/-- The key in `Record.CopyConstruct`, /repo/src/util/record_util.go:509-516. -/
def constructKeyPart : Option KeyObj → Res (Option KeyObj)
  | none => .ok none
  | some k => do
    let k ← k.copyConstruct
    .ok (some k)

mutual
/-- `CopyConstruct` of each implementation of `IValue`, /repo/src/util/value_util.go:177-183, :528-585, :763-766, :965-984, :1201-1220.
Every level of nesting takes a byte of the buffer, so the bound on the depth is never reached. -/
def CVal.copyConstruct : CVal → Res CVal
  | .prim data => .ok (.prim data)
  | .array elems => do
    let l ← constructVals elems
    .ok (.array l)
  | .records recs => do
    let l ← constructRecs recs
    .ok (.records l)
  | .simple content _ => .ok (.prim (some content))
  | .std d => (copyVal (d.buf.length + 1) [freshVal d] 0).2

/-- The loop of `ValueArray.CopyConstruct`, /repo/src/util/value_util.go:974-981. -/
def constructVals : List CVal → Res (List CVal)
  | [] => .ok []
  | v :: l => do
    let v ← v.copyConstruct
    let l ← constructVals l
    .ok (v :: l)

/-- The value or scheme in `Record.CopyConstruct`, /repo/src/util/record_util.go:518-525 and :527-534. -/
def constructValuePart : Option CVal → Res (Option CVal)
  | none => .ok none
  | some v => do
    let v ← v.copyConstruct
    .ok (some v)

/-- `CopyConstruct` of each implementation of `IRecord`, /repo/src/util/record_util.go:266-293 and :506-542. -/
def CRec.copyConstruct : CRec → Res CRec
  | .record key value scheme timestamp r s => do
    let key ← constructKeyPart key
    let value ← constructValuePart value
    let scheme ← constructValuePart scheme
    .ok (.record key value scheme timestamp r s)
  | .mapped r => (copyRec (r.buf.length + 2) [freshVal r.value, freshVal r.scheme, .record r 0 1] 2).2

/-- The loop of `RecordList.CopyConstruct`, /repo/src/util/value_util.go:1210-1217. -/
def constructRecs : List CRec → Res (List CRec)
  | [] => .ok []
  | r :: l => do
    let r ← r.copyConstruct
    let l ← constructRecs l
    .ok (r :: l)
end

end Poodle
