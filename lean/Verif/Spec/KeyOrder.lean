import Verif.Model.Basic

/-
Specification of the order of encoded keys (property C218), in terms of lengths and contents only.
-/

namespace Poodle.Spec
open Poodle

/-- The order of the encodings of two numbers below 2^14: small numbers first; two large ones by their low seven bits, then by the rest. -/
def uvOrder (m n : Nat) : Ordering :=
  if m < 128 then (if n < 128 then compare m n else .lt)
  else if n < 128 then .gt
  else (compare (m % 128) (n % 128)).then (compare (m / 128) (n / 128))

/-- The order of two lists of the same number of sub keys: at the first difference by length, then by content. -/
def subKeyOrder : List Bytes → List Bytes → Ordering
  | x :: a, y :: b => (uvOrder x.length y.length).then ((compare x y).then (subKeyOrder a b))
  | [], [] => .eq
  | [], _ :: _ => .lt
  | _ :: _, [] => .gt

/-- The order of encoded keys: by the number of sub keys, then by the sub keys. -/
def wireOrder (a b : List Bytes) : Ordering := (uvOrder a.length b.length).then (subKeyOrder a b)

end Poodle.Spec
