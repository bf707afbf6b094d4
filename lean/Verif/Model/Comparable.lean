import Verif.Model.Basic

/-
Model of the integer slice functions of /repo/src/collection/util.go and of the comparable slices of
/repo/src/collection/comparable.go, as objects that may be nil in every way the code tests for.
-/

namespace Poodle

/-- The element types of the comparable slices, /repo/src/collection/comparable.go:110-561: one type `Comparable..Slice` for each, all
with the same code. -/
inductive ElemKind where
  | byte
  | int8
  | int16
  | uint16
  | int32
  | uint32
  | int64
  | uint64
deriving DecidableEq, Repr

/-- `EqualByteSlice`, `EqualInt8Slice`, ..., `EqualIntSlice`, /repo/src/collection/util.go:207-421 (the same code for each type);
elements stand for themselves as integers, `none` is nil. -/
def equalInts (a b : Option (List Int)) : Bool :=
  match a, b with
  | none, none => true
  | none, some _ => false
  | some _, none => false
  | some a, some b => if a.length ≠ b.length then false else (a.zip b).all fun p => p.1 == p.2

/-- The loop of `CompareByteSlice`, `CompareInt8Slice`, ..., `CompareIntSlice`, /repo/src/collection/util.go:471-491, :505-525,
:539-559, :573-593, :607-627, :641-661, :675-695, :709-729, :743-763, at index `i` of `s1` (`rest` is `s1[i:]`). -/
def compareIntsLoop (s1 s2 : List Int) : List Int → Nat → Res Int
  | [], _ => if s2.length > s1.length then .ok (-1) else .ok 0
  | a :: rest, i =>
    if s1.length < i then .ok 1
    else match s2[i]? with
      | none => .panic
      | some b => if a < b then .ok (-1) else if a > b then .ok 1 else compareIntsLoop s1 s2 rest (i + 1)

/-- `CompareByteSlice`, `CompareInt8Slice`, ..., `CompareIntSlice`, /repo/src/collection/util.go:460-764 (the same code for each type). -/
def compareInts (s1 s2 : Option (List Int)) : Res Int :=
  match s1, s2 with
  | none, none => .ok 0
  | none, some _ => .ok (-1)
  | some _, none => .ok 1
  | some a, some b => compareIntsLoop a b a 0

/-- A variable of type `IComparable`, /repo/src/collection/comparable.go:12-21, holding nothing, a nil pointer to a comparable slice, or
a comparable slice (:43-49, :110-116, ...) whose own slice may be nil.  Other implementations, like keys, are left out. -/
inductive CmpObj where
  | absent
  | nilInts (k : ElemKind)
  | nilObjs
  | ints (k : ElemKind) (s : Option (List Int))
  | objsNil
  | objs (l : List CmpObj)

/-- `IsNil`, /repo/src/collection/util.go:28-37, on such a variable: nothing, or a nil pointer. -/
def CmpObj.isNil : CmpObj → Bool
  | .absent => true
  | .nilInts _ => true
  | .nilObjs => true
  | .ints _ _ => false
  | .objsNil => false
  | .objs _ => false

/-- The test `x == nil` on an interface, /repo/src/collection/comparable.go:53, :72 and others: false for nil pointers. -/
def CmpObj.isAbsent : CmpObj → Bool
  | .absent => true
  | _ => false

mutual
/-- `s.Compare(c)`, /repo/src/collection/comparable.go:87-104, :144-161 and the copies for other element types; on nothing or a nil
pointer it panics. -/
def CmpObj.compare : CmpObj → CmpObj → Res Int
  | .absent, _ => .panic
  | .nilInts _, _ => .panic
  | .nilObjs, _ => .panic
  | .ints _ none, c => if c.isNil then .ok 0 else .ok (-1)
  | .ints k (some a), c =>
    if c.isNil then .ok 1
    else match c with
      | .ints k' t => if k = k' then compareInts (some a) t else .panic
      | _ => .panic
  | .objsNil, c => if c.isNil then .ok 0 else .ok (-1)
  | .objs l, c =>
    if c.isNil then .ok 1
    else match c with
      | .objsNil => .ok 1
      | .objs m => compareObjsLoop l.length m l 0
      | _ => .panic

/-- The loop of `CompareSlice`, /repo/src/collection/util.go:438-457, at index `i` of `s1`, which has `n` elements; the list is `s1[i:]`. -/
def compareObjsLoop (n : Nat) (s2 : List CmpObj) : List CmpObj → Nat → Res Int
  | [], _ => if s2.length > n then .ok (-1) else .ok 0
  | a :: rest, i =>
    if n < i then .ok 1
    else match s2[i]? with
      | none => .panic
      | some b =>
        match a.compare b with
        | .ok r => if r ≠ 0 then .ok r else compareObjsLoop n s2 rest (i + 1)
        | .err => .err
        | .panic => .panic
end

mutual
/-- `s.Equal(t)`, /repo/src/collection/comparable.go:52-84, :120-141 and the copies for other element types.  Nothing and nil pointers
are told apart; a nil pointer of the same type as argument is dereferenced. -/
def CmpObj.equal : CmpObj → CmpObj → Res Bool
  | .absent, _ => .panic
  | .nilInts _, t => .ok t.isAbsent
  | .nilObjs, t => .ok t.isAbsent
  | .ints k s, t =>
    match t with
    | .nilInts k' => if k = k' then .panic else .ok false
    | .ints k' t => if k = k' then
        (if (s.getD []).length ≠ (t.getD []).length then .ok false else .ok (equalInts s t))
      else .ok false
    | _ => .ok false
  | .objsNil, t =>
    match t with
    | .nilObjs => .panic
    | .objsNil => .ok true
    | .objs m => .ok (m.length == 0)
    | _ => .ok false
  | .objs l, t =>
    match t with
    | .nilObjs => .panic
    | .objsNil => .ok (l.length == 0)
    | .objs m => if l.length ≠ m.length then .ok false else equalObjsLoop l m
    | _ => .ok false

/-- The loop of `ComparableSlice.Equal`, /repo/src/collection/comparable.go:72-81, over two slices of the same length. -/
def equalObjsLoop : List CmpObj → List CmpObj → Res Bool
  | [], _ => .ok true
  | a :: l, m =>
    match m with
    | [] => .panic
    | b :: m =>
      if a.isAbsent != b.isAbsent then .ok false
      else if a.isAbsent then equalObjsLoop l m
      else match a.equal b with
        | .ok true => equalObjsLoop l m
        | .ok false => .ok false
        | .err => .err
        | .panic => .panic
end

end Poodle
