import Verif.Model.SSTable
import Verif.Spec.Consensus
import Verif.Spec.Value

/-
Specification of the layout of a table file.
-/

namespace Poodle.Spec

/-- Four bytes, most significant first. -/
def u32 (n : Nat) : Bytes := [UInt8.ofNat (n / 16777216), UInt8.ofNat (n / 65536), UInt8.ofNat (n / 256), UInt8.ofNat n]

/-- The bytes of a consensus time in a file. -/
inductive IsTime : Bytes → CTime → Prop
  | ledger (e : UInt32) : IsTime (1 :: u32 e.toNat) (.ledger e)
  | raft (t m c : UInt32) : IsTime (2 :: (u32 t.toNat ++ u32 m.toNat ++ u32 c.toNat)) (.raft t m c)

/-- The value holds its own bytes, which are a value of the wire format. -/
def IsValue (v : StdValue) : Prop := IsStdWire v.buf v.kind v.size v.content

/-- The bytes of the header before its checksum: version 1, consensus id, domain, table, start and end time, start and end key,
level, and a count of at most 2^20. -/
structure IsSSHeader (w : Bytes) (h : SSHeader) : Prop where
  version : h.version = 1
  cid : IsCid h.consensusId.buf h.consensusId
  domain : IsValue h.domain
  table : IsValue h.table
  startKey : IsValue h.startKey
  endKey : IsValue h.endKey
  level : h.level < 2 ^ 32
  count : h.count ≤ 2 ^ 20
  bytes : ∃ st et, IsTime st h.startTime ∧ IsTime et h.endTime ∧
    w = [0, 0, 0, 1] ++ h.consensusId.buf ++ h.domain.buf ++ h.table.buf ++ st ++ et ++ h.startKey.buf ++ h.endKey.buf ++
      u32 h.level ++ u32 h.count

/-- A table file: header `hw` and its checksum, the lookup table `mw`, the number of offsets (at most 2^20) and the offsets, the
checksum of these three, and records. -/
structure IsSSTable (data : Bytes) (h : SSHeader) (mph : MphTable KeyObj) (offsets : List UInt32) (hw mw records : Bytes) : Prop where
  header : IsSSHeader hw h
  few : offsets.length ≤ 2 ^ 20
  lookup : newMphTable (data.drop (hw.length + 4)) = .ok (mph, mw.length)
  bytes : data = hw ++ u32 (crc32 hw).toNat ++ mw ++ u32 offsets.length ++ offsets.flatMap (fun x => u32 x.toNat) ++
    u32 (crc32 (mw ++ u32 offsets.length ++ offsets.flatMap (fun x => u32 x.toNat))).toNat ++ records

end Poodle.Spec
