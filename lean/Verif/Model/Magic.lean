import Verif.Model.Record

/-
Model of the calls that return the magic byte of records and values: /repo/src/util/record_util.go:128-135, :348-355,
/repo/src/util/value_util.go:123-125, :372-374, :656-663.
-/

namespace Poodle

/-- `MappedRecord.RecordMagic`, /repo/src/util/record_util.go:128-135, of an object with these fields. -/
def mappedRecordMagic (decoded : Bool) (buf : Bytes) : Res UInt8 := if ¬ decoded then .ok 0xff else goByte buf 0

/-- `Record.RecordMagic`, /repo/src/util/record_util.go:348-355. -/
def RecordObj.magic (r : RecordObj) : Res UInt8 := if ¬ r.encoded then .panic else goByte r.buf 0

/-- `SimpleMappedValue.ValueMagic` and `StandardMappedValue.ValueMagic`, /repo/src/util/value_util.go:123-125, :372-374. -/
def mappedValueMagic (buf : Bytes) : Res UInt8 := goByte buf 0

/-- `Primitive.ValueMagic`, /repo/src/util/value_util.go:656-663, after `Encode` was called: the byte it stored (:693, :705, :716, :727);
after an error the object is not encoded. -/
def primitiveMagic (data : Slice) : Res UInt8 :=
  match data with
  | none => .ok 0x00
  | some d =>
    if d.length = 0 then .ok 0x00
    else if d.length < 256 then .ok 0x01
    else if d.length < 65536 then .ok 0x02
    else .panic

end Poodle
