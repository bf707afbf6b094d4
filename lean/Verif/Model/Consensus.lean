import Verif.Model.Conv

/-
Model of /repo/src/util/consensus_util.go: ledger times, raft times, consensus ids.

Comparisons with a nil pointer inside a non-nil interface are in `NilTime.lean`.
-/

namespace Poodle

/-- The implementations of `IConsensusTime`, /repo/src/util/consensus_util.go:67-69 (`LedgerTime`) and :133-137 (`RaftTime`). -/
inductive CTime where
  | ledger (epoch : UInt32)
  | raft (term millis count : UInt32)
deriving DecidableEq, Repr

/-- `binary.BigEndian.Uint32(buf[pos:])`, /repo/src/util/consensus_util.go:47, :54-56; panics if there are less than 4 bytes. -/
def uint32At (buf : Bytes) (pos : Nat) : Res UInt32 :=
  if buf.length < pos + 4 then .panic else .ok (UInt32.ofNat (beVal ((buf.drop pos).take 4)))

/-- `NewConsensusTime`, /repo/src/util/consensus_util.go:35-62. -/
def newConsensusTime (buf : Bytes) : Res CTime :=
  match buf with
  | [] => .err
  | magic :: _ =>
    if magic = 0x01 then
      if buf.length < 1 + 4 then .err
      else do
        let e ← uint32At buf 1
        .ok (.ledger e)
    else if magic = 0x02 then
      if buf.length < 1 + 12 then .err
      else do
        let t ← uint32At buf 1
        let m ← uint32At buf 5
        let c ← uint32At buf 9
        .ok (.raft t m c)
    else .err

/-- `binary.BigEndian.PutUint32(buf[pos:], x)`, /repo/src/util/consensus_util.go:78, :146-148, within the length of the buffer. -/
def putUint32 (buf : Bytes) (pos : Nat) (x : UInt32) : Bytes := buf.take pos ++ beBytes 4 x.toNat ++ buf.drop (pos + 4)

/-- `Buf`, /repo/src/util/consensus_util.go:75-80 and :143-150. -/
def CTime.buf : CTime → Bytes
  | .ledger e => putUint32 ((List.replicate 5 0).set 0 0x01) 1 e
  | .raft t m c => putUint32 (putUint32 (putUint32 ((List.replicate 13 0).set 0 0x02) 0 t) 4 m) 8 c

/-- `GT`, /repo/src/util/consensus_util.go:82-88 and :152-173; the argument may be the nil interface. -/
def CTime.gt (a : CTime) (b : Option CTime) : Res Bool :=
  match a, b with
  | .ledger e, some (.ledger e') => .ok (e > e')
  | .raft t m c, some (.raft t' m' c') =>
    if t > t' then .ok true else if t < t' then .ok false
    else if m > m' then .ok true else if m < m' then .ok false
    else if c > c' then .ok true else if c < c' then .ok false
    else .ok false
  | _, _ => .err

/-- `GE`, /repo/src/util/consensus_util.go:90-96 and :175-196. -/
def CTime.ge (a : CTime) (b : Option CTime) : Res Bool :=
  match a, b with
  | .ledger e, some (.ledger e') => .ok (e ≥ e')
  | .raft t m c, some (.raft t' m' c') =>
    if t > t' then .ok true else if t < t' then .ok false
    else if m > m' then .ok true else if m < m' then .ok false
    else if c > c' then .ok true else if c < c' then .ok false
    else .ok true
  | _, _ => .err

/-- `EQ`, /repo/src/util/consensus_util.go:98-104 and :198-208. -/
def CTime.eq (a : CTime) (b : Option CTime) : Res Bool :=
  match a, b with
  | .ledger e, some (.ledger e') => .ok (e == e')
  | .raft t m c, some (.raft t' m' c') => if t == t' && m == m' && c == c' then .ok true else .ok false
  | _, _ => .err

/-- `NE`, /repo/src/util/consensus_util.go:106-112 and :210-220. -/
def CTime.ne (a : CTime) (b : Option CTime) : Res Bool :=
  match a, b with
  | .ledger e, some (.ledger e') => .ok (e != e')
  | .raft t m c, some (.raft t' m' c') => if t != t' || m != m' || c != c' then .ok true else .ok false
  | _, _ => .err

/-- `LT`, /repo/src/util/consensus_util.go:114-120 and :222-243.  In the raft case the second test of each pair repeats the
first one, as in the code. -/
def CTime.lt (a : CTime) (b : Option CTime) : Res Bool :=
  match a, b with
  | .ledger e, some (.ledger e') => .ok (e < e')
  | .raft t m c, some (.raft t' m' c') =>
    if t < t' then .ok true else if t < t' then .ok false
    else if m < m' then .ok true else if m < m' then .ok false
    else if c < c' then .ok true else if c < c' then .ok false
    else .ok false
  | _, _ => .err

/-- `LE`, /repo/src/util/consensus_util.go:122-128 and :245-266. -/
def CTime.le (a : CTime) (b : Option CTime) : Res Bool :=
  match a, b with
  | .ledger e, some (.ledger e') => .ok (e ≤ e')
  | .raft t m c, some (.raft t' m' c') =>
    if t < t' then .ok true else if t < t' then .ok false
    else if m < m' then .ok true else if m < m' then .ok false
    else if c < c' then .ok true else if c < c' then .ok false
    else .ok true
  | _, _ => .err

/-- `MappedConsensusID`, /repo/src/util/consensus_util.go:271-280; an absent field is nil. -/
structure ConsensusID where
  magic : UInt8
  universeId : Slice
  clusterId : Slice
  federationId : Slice
  serviceId : Slice
  shardStart : Slice
  shardEnd : Slice
  buf : Bytes
deriving DecidableEq, Repr

/-- One optional field of 32 bytes, /repo/src/util/consensus_util.go:294-300 (and :302-308, :310-316, :318-324): the field and
the new position. -/
def cidField (buf : Bytes) (magic : UInt8) (bit : UInt8) (pos : Nat) : Res (Slice × Nat) :=
  if (magic >>> bit) &&& 0x01 ≠ 0 then
    if buf.length < pos + 32 then .err
    else do
      let f ← goSlice buf pos (pos + 32)
      .ok (some f, pos + 32)
  else .ok (none, pos)

/-- `NewMappedConsensusID`, /repo/src/util/consensus_util.go:282-340.  On an empty buffer the error message itself indexes
`buf[0]`, which panics (:284). -/
def newMappedConsensusID (buf : Bytes) : Res ConsensusID :=
  match buf with
  | [] => .panic
  | magic :: _ =>
    if magic = 0x00 then .err
    else if magic &&& 0x7 ≠ 0 then .err
    else do
      let (u, pos) ← cidField buf magic 7 1
      let (c, pos) ← cidField buf magic 6 pos
      let (f, pos) ← cidField buf magic 5 pos
      let (s, pos) ← cidField buf magic 4 pos
      if (magic >>> 3) &&& 0x01 ≠ 0 then
        if buf.length < pos + 64 then .err
        else do
          let a ← goSlice buf pos (pos + 32)
          let b ← goSlice buf (pos + 32) (pos + 64)
          let r ← goSlice buf 0 (pos + 64)
          .ok ⟨magic, u, c, f, s, some a, some b, r⟩
      else do
        let r ← goSlice buf 0 pos
        .ok ⟨magic, u, c, f, s, none, none, r⟩

/-- `MappedConsensusID.Copy`, /repo/src/util/consensus_util.go:350-360; an error becomes a panic. -/
def ConsensusID.copy (c : ConsensusID) : Res ConsensusID :=
  match newMappedConsensusID c.buf with
  | .ok c' => .ok c'
  | .err => .panic
  | .panic => .panic

end Poodle
