import Verif.Model.Basic

/-
Specification of the integer wire format, written independently of the model's encoder and decoder loops:
little endian base 128 with a continuation bit.
-/

namespace Poodle.Spec

/-- `p` is a complete base-128 string (continuation bit on every byte but the last) denoting `v`.
Over-long forms with superfluous zero groups are included, as in the wire format. -/
inductive IsUvarint : Bytes → Nat → Prop
  | last (b : UInt8) : b.toNat < 128 → IsUvarint [b] b.toNat
  | more (b : UInt8) (bs : Bytes) (v : Nat) :
      128 ≤ b.toNat → IsUvarint bs v → IsUvarint (b :: bs) (b.toNat - 128 + 128 * v)

/-- Zig-zag map from signed to unsigned integers: 0, -1, 1, -2, 2, ... to 0, 1, 2, 3, 4, ... -/
def zigzag (x : Int) : Nat := if x < 0 then (-2 * x - 1).toNat else (2 * x).toNat

end Poodle.Spec
