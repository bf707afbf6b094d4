import Verif.Model.SSTable

/-
Model of the resources behind a table of /repo/src/pdb/sstable.go: the open file, the mapping, `Close`, and where the attributes of a
table live.

The operating system is an environment: whether the file can be opened and what it contains, where it is mapped (never over a live
mapping), whether unmapping works.  A mapping occupies one abstract address; partial overlaps of a new mapping with the place of an
old one are not modelled.  Unmapping that fails leaves the mapping in place.  The finalizer that closes a file handle when the garbage
collector finds it unreachable is not modelled.  The package uses old names of package util, see `Model/SSTable.lean`.
-/

namespace Poodle

/-- `*SSTableV1`, /repo/src/pdb/sstable.go:47-67: the attributes, `mmap_data` (nil after `Close`), and the address its byte slices point
to (they are parts of `mmap_data`, :109-155). -/
structure TableObj where
  tab : SSTable
  mapping : Option Nat
  addr : Nat

/-- The process using tables: the number of file handles opened and not closed (/repo/src/pdb/sstable.go:71), the live mappings with the
bytes behind them (:76), and the tables `LoadSSTableV1` has returned so far. -/
structure Proc where
  files : Nat
  maps : List (Nat × Bytes)
  tables : List TableObj

/-- What the system does during one `LoadSSTableV1`, /repo/src/pdb/sstable.go:69-88: the content of the file if it can be opened, the
address the mapping would get if it can be mapped, and whether unmapping would work. -/
structure LoadEnv where
  file : Option Bytes
  addr : Option Nat
  unmapOk : Bool

/-- The bytes mapped at an address.  (Operating system; no file in /repo.) -/
def Proc.mapped (p : Proc) (a : Nat) : Option Bytes := (p.maps.find? fun m => m.1 == a).map (·.2)

/-- Unmapping.  (Operating system, called through `MMap.Unmap` in /repo/src/pdb/sstable.go:302.) -/
def Proc.unmap (p : Proc) (a : Nat) : Proc := { p with maps := p.maps.filter fun m => m.1 != a }

/-- Whether `err` is set when `LoadSSTableV1` panics: only by the length test of the record offsets,
/repo/src/pdb/sstable.go:215-217, which does not return. -/
def loadErrSet (data : Bytes) : Bool :=
  match ssHeader data with
  | .ok (_, mphPos) =>
    match newMphTable (data.drop mphPos) with
    | .ok (_, n) =>
      match ssU32 data (mphPos + n) with
      | .ok (size, pos) => decide (size ≤ sstableMaxRecords) && decide (data.length < pos + 4 * size)
      | _ => false
    | _ => false
  | _ => false

/-- The deferred function of `LoadSSTableV1`, /repo/src/pdb/sstable.go:83-88, when `err` is set: `Close` on the new table; its own error
is dropped. -/
def Proc.abandon (p : Proc) (a : Nat) (unmapOk : Bool) : Proc := if unmapOk then p.unmap a else p

/-- `LoadSSTableV1`, /repo/src/pdb/sstable.go:69-246: the process afterwards and the result (the index of the new table).  The file
handle `f` is never closed.  Mapping an empty file is an error of the system. -/
def Proc.load (p : Proc) (e : LoadEnv) : Proc × Res Nat :=
  match e.file with
  | none => (p, .err)
  | some data =>
    let p := { p with files := p.files + 1 }
    match e.addr with
    | none => (p, .err)
    | some a =>
      if data = [] ∨ (p.mapped a).isSome then (p, .err)
      else
        let p := { p with maps := (a, data) :: p.maps }
        match loadSSTable data with
        | .ok t => ({ p with tables := p.tables ++ [⟨t, some a, a⟩] }, .ok p.tables.length)
        | .err => (p.abandon a e.unmapOk, .err)
        | .panic => (if loadErrSet data then p.abandon a e.unmapOk else p, .panic)

/-- `Close` on the `i`-th table, /repo/src/pdb/sstable.go:300-311; an index that is no table stands for a call on a nil pointer. -/
def Proc.close (p : Proc) (i : Nat) (unmapOk : Bool) : Proc × Res Unit :=
  match p.tables[i]? with
  | none => (p, .panic)
  | some t =>
    match t.mapping with
    | none => (p, .ok ())
    | some a =>
      if unmapOk then ({ p.unmap a with tables := p.tables.set i { t with mapping := none } }, .ok ())
      else (p, .err)

/-- The attributes of a table that are parts of the mapped file, /repo/src/pdb/sstable.go:252-278: the buffers of consensus id and
keys, the contents of domain and table name. -/
inductive TableAttr where
  | consensusId | domain | table | startKey | endKey
deriving DecidableEq, Repr

/-- The attribute as it was when the table was loaded, /repo/src/pdb/sstable.go:252-278 (and `Buf`). -/
def SSTable.attr (t : SSTable) : TableAttr → Slice
  | .consensusId => some t.header.consensusId.buf
  | .domain => t.domain
  | .table => t.table
  | .startKey => some t.header.startKey.buf
  | .endKey => some t.header.endKey.buf

/-- The position of an attribute's slice in the file, following `pos` in /repo/src/pdb/sstable.go:91-155; the content of a value is
the end of its buffer, /repo/src/util/value_util.go:505-506. -/
def SSTable.attrPos (t : SSTable) : TableAttr → Nat
  | .consensusId => 4
  | .domain => 4 + t.header.consensusId.buf.length + (t.header.domain.buf.length - t.header.domain.content.length)
  | .table => 4 + t.header.consensusId.buf.length + t.header.domain.buf.length +
      (t.header.table.buf.length - t.header.table.content.length)
  | .startKey => 4 + t.header.consensusId.buf.length + t.header.domain.buf.length + t.header.table.buf.length +
      t.header.startTime.buf.length + t.header.endTime.buf.length
  | .endKey => 4 + t.header.consensusId.buf.length + t.header.domain.buf.length + t.header.table.buf.length +
      t.header.startTime.buf.length + t.header.endTime.buf.length + t.header.startKey.buf.length

/-- Calling an accessor (/repo/src/pdb/sstable.go:252-278) and looking at the bytes it returns: the slice has a fixed place and
length in memory.  Nothing is read for a nil or empty slice; reading memory that is not mapped kills the process (`panic` here).
If something else has been mapped at the place, the bytes are those there. -/
def Proc.read (p : Proc) (i : Nat) (attr : TableAttr) : Res Slice :=
  match p.tables[i]? with
  | none => .panic
  | some t =>
    match t.tab.attr attr with
    | none => .ok none
    | some b =>
      if b = [] then .ok (some [])
      else match p.mapped t.addr with
        | none => .panic
        | some data => do
          let s ← goSlice data (t.tab.attrPos attr) (t.tab.attrPos attr + b.length)
          .ok (some s)

/-- What a program does with table files.  (Driver for the calls above; no file in /repo.) -/
inductive TableOp where
  | load (e : LoadEnv)
  | close (i : Nat) (unmapOk : Bool)

/-- One call.  (Driver; no file in /repo.) -/
def Proc.step (p : Proc) : TableOp → Proc
  | .load e => (p.load e).1
  | .close i u => (p.close i u).1

/-- A sequence of calls; panics are recovered by the caller.  (Driver; no file in /repo.) -/
def Proc.run (p : Proc) (ops : List TableOp) : Proc := ops.foldl Proc.step p

/-- A process that has not used tables yet.  (Driver; no file in /repo.) -/
def Proc.start : Proc := ⟨0, [], []⟩

end Poodle
