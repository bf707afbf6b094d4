import Verif.Model.Basic

/-
Specification of wrong bits in a string of bytes.
-/

namespace Poodle.Spec
open Poodle

/-- The bytes with bit `i` changed; bits are counted from the lowest one of the first byte. -/
def flipBit : Nat → Bytes → Bytes
  | _, [] => []
  | i, x :: l => if i < 8 then (x ^^^ (1 <<< UInt8.ofNat i)) :: l else x :: flipBit (i - 8) l

end Poodle.Spec
