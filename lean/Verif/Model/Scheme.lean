import Verif.Model.Key

/-
Model of /repo/src/util/scheme_util.go: `Scheme`, `MappedScheme`.

Simplification: a `Scheme` is only written by `Encode` (there are no setters), so the content is separated from the encoding
state; `Encode` returns the bytes it stores in `s.buf`.
-/

namespace Poodle

/-- `MAX_SCHEME_LENGTH`, /repo/src/util/const_util.go:21. -/
def maxSchemeLength : Nat := 1024

/-- The content of `Scheme`, /repo/src/util/scheme_util.go:232-240, and of `MappedScheme`, :34-42; each part may be nil. -/
structure Scheme where
  domain : Slice
  tablet : Slice
  buckets : Option (List Slice)
deriving DecidableEq, Repr

/-- One `append` followed by the length check, e.g. /repo/src/util/scheme_util.go:330-335. -/
def schemeAppend (buf part : Bytes) : Res Bytes :=
  if (buf ++ part).length > maxSchemeLength then .err else .ok (buf ++ part)

/-- `if part != nil { append; check }`, /repo/src/util/scheme_util.go:328-336 and :338-346. -/
def schemePart (buf : Bytes) : Slice → Res Bytes
  | none => .ok buf
  | some d => schemeAppend buf (encodeVarchar d)

/-- The bucket loop of `Scheme.Encode`, /repo/src/util/scheme_util.go:356-363. -/
def schemeBuckets : List Slice → Bytes → Res Bytes
  | [], buf => .ok buf
  | b :: bs, buf => do
    let buf ← schemeAppend buf (encodeVarchar b.bytes)
    schemeBuckets bs buf

/-- `Scheme.Encode`, /repo/src/util/scheme_util.go:324-370.  The magic byte stays 0: the flags are `0x00 << 7` etc. -/
def Scheme.encode (s : Scheme) : Res Bytes := do
  let buf ← schemePart [0x00] s.domain
  let buf ← schemePart buf s.tablet
  match s.buckets with
  | none => .ok buf
  | some bs => do
    let buf ← schemeAppend buf (encodeUvarint64 bs.length)
    schemeBuckets bs buf

/-- `MappedScheme.Decode`, /repo/src/util/scheme_util.go:154-198.  The conditions `s.buf[0]|(0x01<<7) != 0` etc. are always
true; they only make an empty buffer panic.  The bucket loop, :186-192, is the loop of `MappedKey.Decode`
(key_util.go:231-237), `decodeSubKeys`. -/
def decodeScheme (buf : Bytes) : Res (Scheme × Nat) :=
  match buf with
  | [] => .panic
  | _ :: rest => do
    let (d, n1) ← decodeVarchar rest
    let (t, n2) ← decodeVarchar (rest.drop n1)
    let (n, n3) ← decodeUvarint64 ((rest.drop n1).drop n2)
    if n > maxMake24 then .panic
    else do
      let (bs, n4) ← decodeSubKeys n (((rest.drop n1).drop n2).drop n3)
      .ok ({ domain := some d, tablet := some t, buckets := some bs }, 1 + n1 + n2 + n3 + n4)

/-- `Scheme.Copy`, /repo/src/util/scheme_util.go:383-401, and `MappedScheme.Copy`, :203-221: the parts are shared with the
original. -/
def Scheme.copy (s : Scheme) : Scheme :=
  let c : Scheme := { domain := none, tablet := none, buckets := none }
  let c := match s.domain with
    | none => c
    | some d => { c with domain := some d }
  let c := match s.tablet with
    | none => c
    | some t => { c with tablet := some t }
  match s.buckets with
  | none => c
  | some bs => { c with buckets := some bs }

/-- `Scheme.EstBufSize`, /repo/src/util/scheme_util.go:303-318. -/
def Scheme.estBufSize (s : Scheme) : Nat :=
  1 + (match s.domain with
    | none => 0
    | some d => 1 + d.length)
  + (match s.tablet with
    | none => 0
    | some t => 1 + t.length)
  + (match s.buckets with
    | none => 0
    | some bs => 1 + (bs.map fun b => 1 + b.bytes.length).sum)

end Poodle
