import Verif.Model.Comparable

/-
Specification of the order of comparable slices.
-/

namespace Poodle.Spec

mutual
/-- Nothing nil anywhere in the object. -/
def clean : CmpObj → Prop
  | .ints _ s => s ≠ none
  | .objs l => cleans l
  | .absent => False
  | .nilInts _ => False
  | .nilObjs => False
  | .objsNil => False

/-- All of them. -/
def cleans : List CmpObj → Prop
  | [] => True
  | a :: l => clean a ∧ cleans l
end

/-- Where the two objects differ first, `a` has a smaller integer. -/
inductive Smaller : CmpObj → CmpObj → Prop
  | ints (k : ElemKind) (p s t : List Int) (x y : Int) : x < y → Smaller (.ints k (some (p ++ x :: s))) (.ints k (some (p ++ y :: t)))
  | objs (p s t : List CmpObj) (x y : CmpObj) : Smaller x y → Smaller (.objs (p ++ x :: s)) (.objs (p ++ y :: t))

/-- Where the two objects differ first, the slice of `a` ends and that of `b` goes on. -/
inductive Shorter : CmpObj → CmpObj → Prop
  | ints (k : ElemKind) (p t : List Int) (y : Int) : Shorter (.ints k (some p)) (.ints k (some (p ++ y :: t)))
  | objs (p t : List CmpObj) (y : CmpObj) : Shorter (.objs p) (.objs (p ++ y :: t))
  | inside (p s t : List CmpObj) (x y : CmpObj) : Shorter x y → Shorter (.objs (p ++ x :: s)) (.objs (p ++ y :: t))

/-- The type of an object that is not nil: the element type, or nothing for a slice of objects. -/
def typeOf : CmpObj → Option ElemKind
  | .ints k _ => some k
  | _ => none

/-- Where the two objects differ first, they have slices of different types. -/
inductive Mismatch : CmpObj → CmpObj → Prop
  | here (a b : CmpObj) : typeOf a ≠ typeOf b → Mismatch a b
  | inside (p s t : List CmpObj) (x y : CmpObj) : Mismatch x y → Mismatch (.objs (p ++ x :: s)) (.objs (p ++ y :: t))

mutual
/-- Two objects with the same types and the same number of elements everywhere. -/
def sameShape : CmpObj → CmpObj → Prop
  | .ints k (some a), .ints k' (some b) => k = k' ∧ a.length = b.length
  | .objs l, .objs m => sameShapes l m
  | _, _ => False

/-- Element by element. -/
def sameShapes : List CmpObj → List CmpObj → Prop
  | [], [] => True
  | a :: l, b :: m => sameShape a b ∧ sameShapes l m
  | _, _ => False
end

end Poodle.Spec
