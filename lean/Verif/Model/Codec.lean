import Verif.Model.Basic

/-
Model of /repo/src/util/misc_util.go (integer and varchar codecs) and of the standard library functions
`encoding/binary` `PutUvarint`, `Uvarint`, `PutVarint`, `Varint` they call.

`uint64` values are natural numbers (below 2^64), `int64` values are integers (in [-2^63, 2^63)).
-/

namespace Poodle

/-- Go `encoding/binary.PutUvarint` (called at /repo/src/util/misc_util.go:64 and :98).  The Go code writes to a
10 byte buffer (misc_util.go:63, :97); `fuel` is the remaining room. -/
def putUvarintAux : Nat → Nat → Bytes
  | 0, _ => []
  | fuel + 1, x =>
    if x ≥ 0x80 then (UInt8.ofNat x ||| 0x80) :: putUvarintAux fuel (x >>> 7) else [UInt8.ofNat x]

/-- Go `encoding/binary.PutUvarint` into a 10 byte buffer (/repo/src/util/misc_util.go:63-64). -/
def putUvarint (x : Nat) : Bytes := putUvarintAux 10 x

/-- Go `encoding/binary.Uvarint` (called at /repo/src/util/misc_util.go:82 and :119): loop with index `i`, shift `s`,
accumulator `x`.  Returns the value and the number of bytes read (0: buffer too small, negative: overflow). -/
def uvarintLoop : Bytes → Nat → Nat → Nat → Nat × Int
  | [], _, _, _ => (0, 0)
  | b :: bs, i, s, x =>
    if i = 10 then (0, -((i : Int) + 1))
    else if b < 0x80 then
      if i = 9 ∧ b > 1 then (0, -((i : Int) + 1))
      else ((x ||| (b.toNat <<< s)) % 2 ^ 64, (i : Int) + 1)
    else uvarintLoop bs (i + 1) (s + 7) ((x ||| ((b &&& 0x7f).toNat <<< s)) % 2 ^ 64)

/-- Go `encoding/binary.Uvarint` (called at /repo/src/util/misc_util.go:82 and :119). -/
def uvarint (buf : Bytes) : Nat × Int := uvarintLoop buf 0 0 0

/-- Go `encoding/binary.PutVarint` (called at /repo/src/util/misc_util.go:30): `ux := uint64(x) << 1; if x < 0 { ux = ^ux }`. -/
def putVarint (x : Int) : Bytes :=
  let ux := ((x % 2 ^ 64).toNat <<< 1) % 2 ^ 64
  putUvarint (if x < 0 then 2 ^ 64 - 1 - ux else ux)

/-- Go `encoding/binary.Varint` (called at /repo/src/util/misc_util.go:48): `x := int64(ux >> 1); if ux&1 != 0 { x = ^x }`. -/
def varint (buf : Bytes) : Int × Int :=
  let (ux, n) := uvarint buf
  let x : Int := ((ux >>> 1 : Nat) : Int)
  (if ux % 2 ≠ 0 then -x - 1 else x, n)

/-- `EncodeVarint64`, /repo/src/util/misc_util.go:27-39.  The panic branches (lenN <= 0) are unreachable because
`PutVarint` returns at least 1; they are omitted. -/
def encodeVarint64 (x : Int) : Bytes := putVarint x

/-- `EncodeUvarint64`, /repo/src/util/misc_util.go:61-73.  The panic branches (lenN <= 0) are unreachable because
`PutUvarint` returns at least 1; they are omitted. -/
def encodeUvarint64 (x : Nat) : Bytes := putUvarint x

/-- `DecodeVarint64`, /repo/src/util/misc_util.go:41-59. -/
def decodeVarint64 (buf : Bytes) : Res (Int × Nat) :=
  match buf with
  | [] => .ok (0, 0)
  | b0 :: _ =>
    let (v, n) := varint buf
    if n < 0 then .err
    else if n = 0 ∧ b0 ≠ 0 then .err
    else if (buf.length : Int) < wrap64 (n + v) then .err
    else .ok (v, n.toNat)

/-- `DecodeUvarint64`, /repo/src/util/misc_util.go:75-93. -/
def decodeUvarint64 (buf : Bytes) : Res (Nat × Nat) :=
  match buf with
  | [] => .ok (0, 0)
  | b0 :: _ =>
    let (v, n) := uvarint buf
    if n < 0 then .err
    else if n = 0 ∧ b0 ≠ 0 then .err
    else if (buf.length : Int) < wrap64 (n + wrap64 v) then .err
    else .ok (v, n.toNat)

/-- `EncodeVarchar`, /repo/src/util/misc_util.go:95-110.  The panic branches are unreachable, see `encodeUvarint64`. -/
def encodeVarchar (data : Bytes) : Bytes := putUvarint data.length ++ data

/-- `DecodeVarchar`, /repo/src/util/misc_util.go:112-130.  Returns the decoded bytes and the number of bytes consumed. -/
def decodeVarchar (buf : Bytes) : Res (Bytes × Nat) :=
  match buf with
  | [] => .ok ([], 0)
  | b0 :: _ =>
    let (v, n) := uvarint buf
    if n < 0 then .err
    else if n = 0 ∧ b0 ≠ 0 then .err
    else if (buf.length : Int) < wrap64 (n + wrap64 v) then .err
    else do
      let d ← goSlice buf n (wrap64 (n + wrap64 v))
      .ok (d, (wrap64 (n + wrap64 v)).toNat)

end Poodle
