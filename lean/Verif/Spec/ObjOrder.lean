import Verif.Spec.Comparable
import Verif.Spec.Map

/-
A linear order of comparable objects of all types, which extends the order of `Compare`; and keys of which some cannot be compared.
-/

namespace Poodle.Spec
open Poodle

/-- A number for every type of slice. -/
def typeNo : CmpObj → Nat
  | .ints .byte _ => 0
  | .ints .int8 _ => 1
  | .ints .int16 _ => 2
  | .ints .uint16 _ => 3
  | .ints .int32 _ => 4
  | .ints .uint32 _ => 5
  | .ints .int64 _ => 6
  | .ints .uint64 _ => 7
  | _ => 8

mutual
/-- By type, then like words in a dictionary. -/
def objOrder : CmpObj → CmpObj → Ordering
  | .objs l, .objs m => objsOrder l m
  | .ints k s, .ints k' t => (compare (typeNo (.ints k s)) (typeNo (.ints k' t))).then (compare (s.getD []) (t.getD []))
  | a, b => compare (typeNo a) (typeNo b)

/-- Like words in a dictionary. -/
def objsOrder : List CmpObj → List CmpObj → Ordering
  | [], [] => .eq
  | [], _ :: _ => .lt
  | _ :: _, [] => .gt
  | a :: l, b :: m => (objOrder a b).then (objsOrder l m)
end

/-- Objects with nothing nil in them. -/
abbrev CleanObj := { o : CmpObj // clean o }

/-- The order of such objects. -/
def cleanOrder (a b : CleanObj) : Ordering := objOrder a.1 b.1

/-- Keys of which some, related by `apart`, cannot be compared in either direction.  Between two of these there is no key comparable to both. -/
structure ApartKeys {K : Type} (ops : KeyOps K) (cmp : K → K → Ordering) (apart : K → K → Prop) : Prop where
  eq : ∀ a b, cmp a b = .eq → a = b
  symm : ∀ a b, apart a b → apart b a
  panics : ∀ a b, apart a b → ops.compare a b = none
  guarded : ∀ a b, ops.compare a b = none → cmp a b = .gt ∨ apart a b
  between : ∀ a b c, cmp a b = .lt → cmp b c = .lt → apart a c → apart a b ∨ apart b c

end Poodle.Spec
