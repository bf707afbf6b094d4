import Verif.Spec.Codec
import Mathlib.Data.Nat.Log

/-
Specification of the composite key wire format and size, independent of the model's encoder.
-/

namespace Poodle.Spec

/-- Number of 7-bit groups of an integer (at least one). -/
def uvLen (n : Nat) : Nat := Nat.log 128 n + 1

/-- Size in bytes of the encoding of a list of sub keys. -/
def keySize (ks : List Bytes) : Nat := uvLen ks.length + (ks.map fun k => uvLen k.length + k.length).sum

/-- `w` is the concatenation of the length-prefixed strings `ks`. -/
inductive IsVarchars : List Bytes → Bytes → Prop
  | nil : IsVarchars [] []
  | cons (p k w : Bytes) (ks : List Bytes) :
      IsUvarint p k.length → p.length = uvLen k.length → IsVarchars ks w → IsVarchars (k :: ks) (p ++ k ++ w)

/-- `w` is the wire form of the composite key `ks`: the number of sub keys, then each sub key with its length, all
integers in minimal base-128 form. -/
def IsKeyWire (ks : List Bytes) (w : Bytes) : Prop :=
  ∃ p v, w = p ++ v ∧ IsUvarint p ks.length ∧ p.length = uvLen ks.length ∧ IsVarchars ks v

end Poodle.Spec
