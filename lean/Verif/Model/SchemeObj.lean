import Verif.Model.Scheme

/-
Model of `MappedScheme`, /repo/src/util/scheme_util.go:34-226, as an object: it is made from bytes without decoding them, and `Decode` may
be called at any time, any number of times, and fail half way.  (`Scheme` has the content only, see there.)

Simplified: the bytes handed in are not changed while the object is in use.
-/

namespace Poodle

/-- `MappedScheme`, /repo/src/util/scheme_util.go:34-42. -/
structure MScheme where
  decoded : Bool
  buf : Bytes
  domain : Slice
  tablet : Slice
  buckets : Option (List Slice)
deriving DecidableEq, Repr

/-- `NewMappedSchemd`, /repo/src/util/scheme_util.go:44-46. -/
def newMScheme (buf : Bytes) : MScheme := { decoded := false, buf := buf, domain := none, tablet := none, buckets := none }

/-- The loop over the buckets, /repo/src/util/scheme_util.go:186-192, over the last `n` of them: what they are afterwards (nil where the
loop did not get, and where `DecodeVarchar` returned an error), and the bytes read. -/
def bucketLoop : Nat → Bytes → List Slice × Res Nat
  | 0, _ => ([], .ok 0)
  | n + 1, buf => match decodeVarchar buf with
    | .ok (d, len) => match bucketLoop n (buf.drop len) with
      | (bs, .ok m) => (some d :: bs, .ok (len + m))
      | (bs, .err) => (some d :: bs, .err)
      | (bs, .panic) => (some d :: bs, .panic)
    | .err => (List.replicate (n + 1) none, .err)
    | .panic => (List.replicate (n + 1) none, .panic)

/-- The part of `MappedScheme.Decode` for the buckets, /repo/src/util/scheme_util.go:179-197, at position `pos`. -/
def MScheme.decodeBuckets (s : MScheme) (pos : Nat) : MScheme × Res Nat :=
  match decodeUvarint64 (s.buf.drop pos) with
  | .err => (s, .err)
  | .panic => (s, .panic)
  | .ok (n, len) =>
    if n > maxMake24 then (s, .panic)
    else match bucketLoop n (s.buf.drop (pos + len)) with
      | (bs, .ok m) => ({ s with buckets := some bs, decoded := true }, .ok (pos + len + m))
      | (bs, .err) => ({ s with buckets := some bs }, .err)
      | (bs, .panic) => ({ s with buckets := some bs }, .panic)

/-- `MappedScheme.Decode`, /repo/src/util/scheme_util.go:154-198: the object afterwards and what is returned.  An error in `DecodeVarchar`
assigns nil to the part (:162, :171). -/
def MScheme.decode (s : MScheme) : MScheme × Res Nat :=
  if s.buf = [] then (s, .panic)
  else match decodeVarchar (s.buf.drop 1) with
    | .err => ({ s with domain := none }, .err)
    | .panic => (s, .panic)
    | .ok (d, n1) =>
      let s := { s with domain := some d }
      match decodeVarchar (s.buf.drop (1 + n1)) with
      | .err => ({ s with tablet := none }, .err)
      | .panic => (s, .panic)
      | .ok (t, n2) => { s with tablet := some t }.decodeBuckets (1 + n1 + n2)

/-- `Domain`, /repo/src/util/scheme_util.go:48-55. -/
def MScheme.getDomain (s : MScheme) : Res Slice := if s.decoded then .ok s.domain else .panic

/-- `DomainName`, /repo/src/util/scheme_util.go:57-68. -/
def MScheme.domainName (s : MScheme) : Res Bytes :=
  if s.decoded then
    match s.domain with
    | none => .ok []
    | some d => .ok d
  else .panic

/-- `Tablet`, /repo/src/util/scheme_util.go:70-77. -/
def MScheme.getTablet (s : MScheme) : Res Slice := if s.decoded then .ok s.tablet else .panic

/-- `TabletName`, /repo/src/util/scheme_util.go:79-90. -/
def MScheme.tabletName (s : MScheme) : Res Bytes :=
  if s.decoded then
    match s.tablet with
    | none => .ok []
    | some t => .ok t
  else .panic

/-- `Buckets`, /repo/src/util/scheme_util.go:92-99. -/
def MScheme.getBuckets (s : MScheme) : Res (Option (List Slice)) := if s.decoded then .ok s.buckets else .panic

/-- `BucketAt`, /repo/src/util/scheme_util.go:101-112; an index out of range panics. -/
def MScheme.bucketAt (s : MScheme) (idx : Int) : Res Slice :=
  if s.decoded then
    match s.buckets with
    | none => .panic
    | some bs =>
      if idx < 0 then .panic
      else match bs[idx.toNat]? with
        | none => .panic
        | some b => .ok b
  else .panic

/-- `SchemeMagic`, /repo/src/util/scheme_util.go:117-119. -/
def MScheme.magic (s : MScheme) : Res UInt8 :=
  match s.buf with
  | [] => .panic
  | b :: _ => .ok b

/-- The parts as a `Scheme`, /repo/src/util/scheme_util.go:34-42. -/
def MScheme.parts (s : MScheme) : Scheme := { domain := s.domain, tablet := s.tablet, buckets := s.buckets }

/-- `EstBufSize`, /repo/src/util/scheme_util.go:125-140 (the same as that of `Scheme`, :303-318). -/
def MScheme.estBufSize (s : MScheme) : Nat := s.parts.estBufSize

/-- `Copy` and `CopyConstruct`, /repo/src/util/scheme_util.go:203-226: a `Scheme`, made of the parts; no check whether they are decoded. -/
def MScheme.copy (s : MScheme) : Scheme := s.parts.copy

/-- The calls of `IScheme` on a `MappedScheme`, /repo/src/util/scheme_util.go:9-28, /repo/src/util/encodable.go:10-51. -/
inductive SchemeCall where
  | decode | isDecoded | isEncoded | encode | domain | domainName | tablet | tabletName | buckets | bucketAt (idx : Int) | magic | buf | copy | est
deriving DecidableEq, Repr

/-- What a call returns: the result types in /repo/src/util/scheme_util.go:9-28 and /repo/src/util/encodable.go:10-51. -/
inductive SchemeOut where
  | number (n : Nat)
  | flag (b : Bool)
  | slice (s : Slice)
  | slices (l : Option (List Slice))
  | scheme (s : Scheme)
deriving DecidableEq, Repr

/-- A call: the object afterwards, and what is returned (`Encode`, /repo/src/util/scheme_util.go:146-148; `IsEncoded`, `IsDecoded`,
`Buf`, :121-123, :142-144, :150-152). -/
def MScheme.call (s : MScheme) : SchemeCall → MScheme × Res SchemeOut
  | .decode => (s.decode.1, s.decode.2.bind fun n => .ok (.number n))
  | .isDecoded => (s, .ok (.flag s.decoded))
  | .isEncoded => (s, .ok (.flag true))
  | .encode => (s, .err)
  | .domain => (s, s.getDomain.bind fun d => .ok (.slice d))
  | .domainName => (s, s.domainName.bind fun d => .ok (.slice (some d)))
  | .tablet => (s, s.getTablet.bind fun d => .ok (.slice d))
  | .tabletName => (s, s.tabletName.bind fun d => .ok (.slice (some d)))
  | .buckets => (s, s.getBuckets.bind fun d => .ok (.slices d))
  | .bucketAt i => (s, (s.bucketAt i).bind fun d => .ok (.slice d))
  | .magic => (s, s.magic.bind fun b => .ok (.number b.toNat))
  | .buf => (s, .ok (.slice (some s.buf)))
  | .copy => (s, .ok (.scheme s.copy))
  | .est => (s, .ok (.number s.estBufSize))

/-- A history of calls: the object afterwards and what each call returned (a panic is recovered by the caller).
The calls are those of /repo/src/util/scheme_util.go:48-226. -/
def MScheme.calls (s : MScheme) : List SchemeCall → MScheme × List (Res SchemeOut)
  | [] => (s, [])
  | c :: cs => (((s.call c).1.calls cs).1, (s.call c).2 :: ((s.call c).1.calls cs).2)

end Poodle
