import Mathlib.Data.Nat.Digits.Defs
import Verif.Model.Basic

/-
Specification of fixed width big endian integers.
-/

namespace Poodle.Spec

/-- The value of a byte string in base 256, most significant byte first (Mathlib's `Nat.ofDigits` takes the least significant
digit first). -/
def bigEndian (b : Bytes) : Nat := Nat.ofDigits 256 (b.reverse.map UInt8.toNat)

/-- Two's complement: `u` represents `x` in `w` bits. -/
def TwosComplement (w : Nat) (u : Nat) (x : Int) : Prop :=
  u < 2 ^ w ∧ -(2 : Int) ^ (w - 1) ≤ x ∧ x < 2 ^ (w - 1) ∧ (u = x ∨ (u : Int) = x + 2 ^ w)

end Poodle.Spec
