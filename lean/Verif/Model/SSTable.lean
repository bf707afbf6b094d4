import Verif.Model.Value
import Verif.Model.Consensus
import Verif.Model.Mph
import Verif.Model.Crc

/-
Model of /repo/src/pdb/sstable.go: loading a table file.

The package still uses the names `util.IData` and `util.NewStandardMappedData`, which in /repo/src/util/value_util.go are now called
`IValue` and `NewStandardMappedValue`; the model uses the latter (`decodeStd`).  The model starts from the mapped bytes (an empty file
cannot be mapped, which is an error here as well); opening, mapping and closing the file are in `SSTableFile.lean`.  Not modelled: the
operations that only return a "TODO" error.
-/

namespace Poodle

/-- `SSTABLE_MAX_RECORDS`, /repo/src/pdb/sstable.go:17. -/
def sstableMaxRecords : Nat := 1024 * 1024

/-- The attributes of `SSTableV1` in the header of the file, /repo/src/pdb/sstable.go:47-59. -/
structure SSHeader where
  version : Nat
  consensusId : ConsensusID
  domain : StdValue
  table : StdValue
  startTime : CTime
  endTime : CTime
  startKey : StdValue
  endKey : StdValue
  level : Nat
  count : Nat
deriving DecidableEq, Repr

/-- `SSTableV1`, /repo/src/pdb/sstable.go:47-67, without the file name and the mapping. -/
structure SSTable where
  header : SSHeader
  mph : MphTable KeyObj
  offsets : List UInt32
  recordStart : Nat

/-- `mmap_data[pos:]`, e.g. /repo/src/pdb/sstable.go:109. -/
def goFrom (data : Bytes) (pos : Nat) : Res Bytes := if pos ≤ data.length then .ok (data.drop pos) else .panic

/-- A length test followed by `binary.BigEndian.Uint32(mmap_data[pos : pos+4])` and `pos += 4`, e.g.
/repo/src/pdb/sstable.go:158-163. -/
def ssU32 (data : Bytes) (pos : Nat) : Res (Nat × Nat) :=
  if data.length < pos + 4 then .err
  else do
    let b ← goSlice data pos (pos + 4)
    .ok (beVal b, pos + 4)

/-- A value, /repo/src/pdb/sstable.go:116-120, :123-127, :144-148, :151-155. -/
def ssValue (data : Bytes) (pos : Nat) : Res (StdValue × Nat) := do
  let r ← goFrom data pos
  let (v, _) ← decodeStd r
  .ok (v, pos + v.buf.length)

/-- A consensus time, /repo/src/pdb/sstable.go:130-134, :137-141. -/
def ssTime (data : Bytes) (pos : Nat) : Res (CTime × Nat) := do
  let r ← goFrom data pos
  let t ← newConsensusTime r
  .ok (t, pos + t.buf.length)

/-- The consensus id, /repo/src/pdb/sstable.go:109-113. -/
def ssCid (data : Bytes) (pos : Nat) : Res (ConsensusID × Nat) := do
  let r ← goFrom data pos
  let c ← newMappedConsensusID r
  .ok (c, pos + c.buf.length)

/-- The comparison of a checksum of `mmap_data[start:pos]` with the four bytes at `pos`, /repo/src/pdb/sstable.go:178-188,
:225-235; the new position. -/
def ssCrc (data : Bytes) (start pos : Nat) : Res Nat := do
  let part ← goSlice data start pos
  let (c, next) ← ssU32 data pos
  if (crc32 part).toNat ≠ c then .err else .ok next

/-- The header, /repo/src/pdb/sstable.go:91-188: attributes and position of the lookup table. -/
def ssHeader (data : Bytes) : Res (SSHeader × Nat) := do
  let (version, pos) ← ssU32 data 0
  if version ≠ 1 then .err
  else do
    let (cid, pos) ← ssCid data pos
    let (domain, pos) ← ssValue data pos
    let (table, pos) ← ssValue data pos
    let (startTime, pos) ← ssTime data pos
    let (endTime, pos) ← ssTime data pos
    let (startKey, pos) ← ssValue data pos
    let (endKey, pos) ← ssValue data pos
    let (level, pos) ← ssU32 data pos
    let (count, pos) ← ssU32 data pos
    if count > sstableMaxRecords then .err
    else do
      let pos ← ssCrc data 0 pos
      .ok (⟨version, cid, domain, table, startTime, endTime, startKey, endKey, level, count⟩, pos)

/-- The loop reading the record offsets, /repo/src/pdb/sstable.go:219-222: no length test, slicing out of range panics. -/
def ssOffsets : Nat → Bytes → Nat → Res (List UInt32 × Nat)
  | 0, _, pos => .ok ([], pos)
  | n + 1, data, pos => do
    let b ← goSlice data pos (pos + 4)
    let (l, pos) ← ssOffsets n data (pos + 4)
    .ok (UInt32.ofNat (beVal b) :: l, pos)

/-- The lookup table and the record offsets, /repo/src/pdb/sstable.go:193-235, and the final position.  If the offsets do not fit,
:215-217 sets `err` but does not return; since the loop then panics, the assignment has no effect on the
result (for its effect on the mapping see `loadErrSet`). -/
def ssIndex (data : Bytes) (mphPos : Nat) : Res (MphTable KeyObj × List UInt32 × Nat) := do
  let r ← goFrom data mphPos
  let (mph, n) ← newMphTable r
  let (size, pos) ← ssU32 data (mphPos + n)
  if size > sstableMaxRecords then .err
  else do
    let (offsets, pos) ← ssOffsets size data pos
    let pos ← ssCrc data mphPos pos
    .ok (mph, offsets, pos)

/-- `LoadSSTableV1`, /repo/src/pdb/sstable.go:69-246, on the mapped bytes; `record_start_pos` is a `uint32` (:240). -/
def loadSSTable (data : Bytes) : Res SSTable := do
  let (h, pos) ← ssHeader data
  let (mph, offsets, pos) ← ssIndex data pos
  .ok ⟨h, mph, offsets, pos % 2 ^ 32⟩

/-- `Version`, /repo/src/pdb/sstable.go:248-250. -/
def SSTable.version (_ : SSTable) : Nat := 1

/-- `Domain`, /repo/src/pdb/sstable.go:256-258. -/
def SSTable.domain (t : SSTable) : Slice := t.header.domain.value

/-- `Table`, /repo/src/pdb/sstable.go:260-262. -/
def SSTable.table (t : SSTable) : Slice := t.header.table.value

end Poodle
