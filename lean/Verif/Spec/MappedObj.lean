import Verif.Model.MappedObj
import Verif.Spec.Codec

/-
Specification of objects made from bytes: what the interface promises, and what the calls answer.
-/

namespace Poodle.Spec
open Poodle

/-- What the bytes mean for a type: the content, the bytes that belong to it, and how many were read. -/
def meant (buf : Bytes) : MType → Res (MContent × Bytes × Nat)
  | .key => do
    let (m, n) ← newMappedKey buf
    .ok (.key m.isEmpty m.keys, m.getBuf, n)
  | .simple => do
    let (d, b, n) ← decodeSimple buf
    .ok (.simple d.isEmpty (some d), b, n)
  | .std => do
    let (d, n) ← decodeStd buf
    .ok (.std d.kind d.size d.value, d.buf, n)
  | .record => do
    let (r, n) ← decodeRecord buf
    .ok (.record (some ([], [0x00])) (some r.value) (some r.scheme) r.timestamp r.signature, r.buf, n)

/-- What /repo/src/util/encodable.go:10-51 promises for an object made from bytes: it is encoded and decoded, cannot be encoded, can be
decoded, and has the content and bytes it has. -/
def promised (c : MContent) (b : Bytes) (n : Nat) : MCall → Res MOut
  | .decode => .ok (.number n)
  | .encode => .err
  | .isDecoded => .ok (.flag true)
  | .isEncoded => .ok (.flag true)
  | .buf => .ok (.bytes b)
  | .est => .ok (.number b.length)
  | .content => .ok (.content c)

/-- The bytes of a record begin, after the first, with a count of zero sub keys that ends within them. -/
def countWithin (b : Bytes) : Prop := ∃ p q, b.drop 1 = p ++ q ∧ IsUvarint p 0 ∧ p.length ≤ 10

/-- What the calls answer: as promised, but that a key says it is not decoded and accepts being encoded, and that a record may refuse to be
decoded again. -/
def given (t : MType) (c : MContent) (b : Bytes) (n : Nat) (again : Bool) : MCall → Res MOut
  | .decode => if t = .record ∧ again = false then .err else .ok (.number n)
  | .encode => if t = .key then .ok .unit else .err
  | .isDecoded => .ok (.flag (t != .key))
  | call => promised c b n call

end Poodle.Spec
