import Verif.Model.Scheme
import Verif.Model.SSTable

/-
Model of the memory the decoders of /repo/src/util and /repo/src/pdb ask for: the sizes of the slices they `make`.

The decoders are those of the other model files with the calls of `make` written out (that they are the same decoders is proved, see
`Verif.Props.Memory`).  Only slices whose length depends on the input are counted; the decoded objects themselves have fixed sizes (one
per key of a lookup table).  Sizes of elements on a 64-bit platform: `[]byte` 24 bytes, interface 16, `uint32` 4.  An allocation may
fail for lack of memory, which ends the process; here it succeeds.
-/

namespace Poodle

/-- A decoder's outcome together with the number of bytes it has asked for.  (Go runtime; no file in /repo.) -/
structure Acc (α : Type) where
  bytes : Nat
  res : Res α

/-- A step that makes no slice.  (Go runtime; no file in /repo.) -/
def Acc.of {α : Type} (r : Res α) : Acc α := ⟨0, r⟩

/-- `make` of a slice of `n` elements of `size` bytes.  (Go runtime; e.g. /repo/src/util/key_util.go:230.) -/
def Acc.make (n size : Nat) : Acc Unit := ⟨n * size, .ok ()⟩

/-- One step after the other; what was allocated before an error or panic is counted.  (Go runtime; no file in /repo.) -/
def Acc.bind {α β : Type} (x : Acc α) (f : α → Acc β) : Acc β :=
  match x.res with
  | .ok a => ⟨x.bytes + (f a).bytes, (f a).res⟩
  | .err => ⟨x.bytes, .err⟩
  | .panic => ⟨x.bytes, .panic⟩

/-- `do` notation for `Acc.bind`.  (Go runtime; no file in /repo.) -/
instance : Monad Acc where
  pure a := ⟨0, .ok a⟩
  bind := Acc.bind

/-- `NewMappedKey` and `MappedKey.Decode`, /repo/src/util/key_util.go:147-157 and :219-242; `make` in :230. -/
def newMappedKeyMem (buf : Bytes) : Acc (MappedKey × Nat) := do
  let (n, len) ← Acc.of (decodeUvarint64 buf)
  if n > maxMake24 then Acc.of .panic
  else do
    Acc.make n 24
    let (ks, m) ← Acc.of (decodeSubKeys n (buf.drop len))
    Acc.of (.ok ({ keys := ks, buf := buf }, len + m))

/-- `MappedScheme.Decode`, /repo/src/util/scheme_util.go:154-198; `make` in :185. -/
def decodeSchemeMem (buf : Bytes) : Acc (Scheme × Nat) :=
  match buf with
  | [] => Acc.of .panic
  | _ :: rest => do
    let (d, n1) ← Acc.of (decodeVarchar rest)
    let (t, n2) ← Acc.of (decodeVarchar (rest.drop n1))
    let (n, n3) ← Acc.of (decodeUvarint64 ((rest.drop n1).drop n2))
    if n > maxMake24 then Acc.of .panic
    else do
      Acc.make n 24
      let (bs, n4) ← Acc.of (decodeSubKeys n (((rest.drop n1).drop n2).drop n3))
      Acc.of (.ok ({ domain := some d, tablet := some t, buckets := some bs }, 1 + n1 + n2 + n3 + n4))

/-- The element count and the slice of that length, /repo/src/util/value_util.go:403-426, :428-457; `make` in :414, :422, :442, :453. -/
def decodeCountMem (buf : Bytes) (bits : UInt8) (isSet : Bool) (pos : Nat) : Acc (Option Nat × Nat) := do
  let (c, pos) ← Acc.of (decodeCount buf bits isSet pos)
  Acc.make (c.getD 0) 16
  Acc.of (.ok (c, pos))

/-- `NewStandardMappedValue` and `StandardMappedValue.Decode`, /repo/src/util/value_util.go:205-220 and :396-511. -/
def decodeStdMem (buf : Bytes) : Acc (StdValue × Nat) :=
  if buf.length < 1 then Acc.of .err
  else do
    let magic ← Acc.of (goByte buf 0)
    let (arr, pos) ← decodeCountMem buf ((magic >>> 6) &&& 0x03) false 1
    let (recs, pos) ← decodeCountMem buf ((magic >>> 4) &&& 0x03) arr.isSome pos
    if (magic >>> 3) &&& 0x01 = 1 then Acc.of .err
    else if (magic >>> 2) &&& 0x01 = 1 then Acc.of .err
    else do
      let (len, pos) ← Acc.of (decodeContent buf (magic &&& 0x03) pos)
      let content ← Acc.of (goSlice buf ((pos : Int) - len) pos)
      let kind := if arr.isSome then VKind.array else if recs.isSome then VKind.records else VKind.prim
      Acc.of (.ok ({ buf := buf.take pos, kind := kind, size := (arr.or recs).getD 0, content := content }, pos))

/-- Value or scheme of a record, /repo/src/util/record_util.go:180-195 and :197-212. -/
def decodeRecPartMem (buf : Bytes) (bit : UInt8) (limit pos : Nat) : Acc (StdValue × Nat) :=
  if buf.length < pos then Acc.of .err
  else if bit ≠ 0 then do
    let (d, _) ← decodeStdMem (buf.drop pos)
    if d.buf.length > limit then Acc.of .err
    else Acc.of (.ok (d, pos + d.buf.length))
  else Acc.of .panic

/-- `NewMappedRecord` and `MappedRecord.Decode`, /repo/src/util/record_util.go:54-70 and :157-250. -/
def decodeRecordMem (buf : Bytes) : Acc (RecInfo × Nat) :=
  if buf.length < 1 then Acc.of .err
  else do
    let magic ← Acc.of (goByte buf 0)
    if (magic >>> 6) &&& 0x01 = 0 then Acc.of .panic
    else do
      let k ← newMappedKeyMem (buf.drop 1)
      if k.1.getBuf.length > maxKeyLength then Acc.of .err
      else do
        let v ← decodeRecPartMem buf ((magic >>> 5) &&& 0x01) maxValueLength (1 + k.1.getBuf.length)
        let s ← decodeRecPartMem buf ((magic >>> 4) &&& 0x01) maxRecSchemeLength v.2
        let t ← Acc.of (decodeRecTime buf ((magic >>> 2) &&& 0x01) s.2)
        let g ← Acc.of (decodeRecSig buf ((magic >>> 1) &&& 0x01) t.2)
        let b ← Acc.of (goSlice buf 0 g.2)
        Acc.of (.ok ({ buf := b, key := k.1, value := v.1, scheme := s.1, timestamp := t.1, signature := g.1 }, g.2))

/-- An array of known length, after the length test, /repo/src/util/mph_util.go:80-87, :105-112, :175-184; `make` in :83, :108, :178. -/
def readU32sMem (n : Nat) (buf : Bytes) : Acc (List UInt32 × Bytes) :=
  if buf.length < 4 * n then Acc.of .err
  else do
    Acc.make n 4
    Acc.of (readU32sLoop n buf)

/-- The loop reading the verification keys, /repo/src/util/mph_util.go:137-152. -/
def loadKeysMem : Nat → Bytes → Acc (List KeyObj × Bytes)
  | 0, buf => Acc.of (.ok ([], buf))
  | n + 1, buf => do
    let (m, len) ← newMappedKeyMem buf
    if buf.length < len then Acc.of .err
    else do
      let (ks, buf) ← loadKeysMem n (buf.drop len)
      Acc.of (.ok (.mapped m :: ks, buf))

/-- `NewMPHTable`, /repo/src/util/mph_util.go:57-188; the slice of keys is made without a length test, :135. -/
def newMphTableMem (buf : Bytes) : Acc (MphTable KeyObj × Nat) :=
  match buf with
  | [] => Acc.of .err
  | magic :: r =>
    if magic ≠ 0 ∧ magic ≠ 1 then Acc.of .err
    else do
      let (n0, r) ← Acc.of (readU32 r)
      let (l0, r) ← readU32sMem n0 r
      let (m0, r) ← Acc.of (readU32 r)
      let (n1, r) ← Acc.of (readU32 r)
      let (l1, r) ← readU32sMem n1 r
      let (m1, r) ← Acc.of (readU32 r)
      if magic = 1 then do
        let (nk, r) ← Acc.of (readU32 r)
        Acc.make nk 16
        let (ks, r) ← loadKeysMem nk r
        Acc.of (.ok (⟨l0, m0, l1, m1, .keys ks⟩, buf.length - r.length))
      else do
        let (vs, r) ← Acc.of (readU32 r)
        let (nh, r) ← Acc.of (readU32 r)
        let (hs, r) ← readU32sMem nh r
        Acc.of (.ok (⟨l0, m0, l1, m1, .hashes (UInt32.ofNat vs) hs⟩, buf.length - r.length))

/-- A value in the header of a table file, /repo/src/pdb/sstable.go:116-120, :123-127, :144-148, :151-155. -/
def ssValueMem (data : Bytes) (pos : Nat) : Acc (StdValue × Nat) := do
  let r ← Acc.of (goFrom data pos)
  let (v, _) ← decodeStdMem r
  Acc.of (.ok (v, pos + v.buf.length))

/-- The header, /repo/src/pdb/sstable.go:91-188. -/
def ssHeaderMem (data : Bytes) : Acc (SSHeader × Nat) := do
  let (version, pos) ← Acc.of (ssU32 data 0)
  if version ≠ 1 then Acc.of .err
  else do
    let (cid, pos) ← Acc.of (ssCid data pos)
    let (domain, pos) ← ssValueMem data pos
    let (table, pos) ← ssValueMem data pos
    let (startTime, pos) ← Acc.of (ssTime data pos)
    let (endTime, pos) ← Acc.of (ssTime data pos)
    let (startKey, pos) ← ssValueMem data pos
    let (endKey, pos) ← ssValueMem data pos
    let (level, pos) ← Acc.of (ssU32 data pos)
    let (count, pos) ← Acc.of (ssU32 data pos)
    if count > sstableMaxRecords then Acc.of .err
    else do
      let pos ← Acc.of (ssCrc data 0 pos)
      Acc.of (.ok (⟨version, cid, domain, table, startTime, endTime, startKey, endKey, level, count⟩, pos))

/-- The lookup table and the record offsets, /repo/src/pdb/sstable.go:193-235; `make` in :218. -/
def ssIndexMem (data : Bytes) (mphPos : Nat) : Acc (MphTable KeyObj × List UInt32 × Nat) := do
  let r ← Acc.of (goFrom data mphPos)
  let (mph, n) ← newMphTableMem r
  let (size, pos) ← Acc.of (ssU32 data (mphPos + n))
  if size > sstableMaxRecords then Acc.of .err
  else do
    Acc.make size 4
    let (offsets, pos) ← Acc.of (ssOffsets size data pos)
    let pos ← Acc.of (ssCrc data mphPos pos)
    Acc.of (.ok (mph, offsets, pos))

/-- `LoadSSTableV1`, /repo/src/pdb/sstable.go:69-246, on the mapped bytes. -/
def loadSSTableMem (data : Bytes) : Acc SSTable := do
  let (h, pos) ← ssHeaderMem data
  let (mph, offsets, pos) ← ssIndexMem data pos
  Acc.of (.ok ⟨h, mph, offsets, pos % 2 ^ 32⟩)

end Poodle
