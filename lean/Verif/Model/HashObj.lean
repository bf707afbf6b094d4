import Verif.Model.Hashable

/-
Model of the hashable slices of /repo/src/collection/hashable.go as objects that may be nil in every way the code tests for, and that may
contain each other.  (`Hashable` has the functions on the slices themselves.)
-/

namespace Poodle

/-- The element types of the hashable slices, /repo/src/collection/hashable.go:115-454: one type `Hashable..Slice` for each. -/
inductive HashKind where
  | byte
  | int16
  | uint16
  | int32
  | uint32
  | int64
  | uint64
deriving DecidableEq, Repr

/-- The size of an element, the factor at /repo/src/collection/hashable.go:207, :256, :305, :354, :403, :452 (1 for bytes, which are
handed over as they are, :159). -/
def HashKind.width : HashKind → Nat
  | .byte => 1
  | .int16 => 2
  | .uint16 => 2
  | .int32 => 4
  | .uint32 => 4
  | .int64 => 8
  | .uint64 => 8

/-- A variable of type `IHashable`, /repo/src/collection/hashable.go:13-25, holding nothing, a nil pointer to a hashable slice, or a
hashable slice (:47-53, :120-126, ...) whose own slice may be nil; integers are given by their bit patterns.  Other implementations, like
keys, are left out. -/
inductive HashObj where
  | absent
  | nilInts (k : HashKind)
  | nilObjs
  | ints (k : HashKind) (s : IntSlice)
  | objsNil
  | objs (l : List HashObj)

/-- The test `x == nil` on an interface, /repo/src/collection/hashable.go:57, :77, :102: false for nil pointers. -/
def HashObj.isAbsent : HashObj → Bool
  | .absent => true
  | _ => false

mutual
/-- `s.Equal(t)`, /repo/src/collection/hashable.go:56-88, :129-150, :176-197 and the copies for other element types.  Nothing and nil
pointers are told apart; a nil pointer of the same type as argument is dereferenced. -/
def HashObj.equal : HashObj → HashObj → Res Bool
  | .absent, _ => .panic
  | .nilInts _, t => .ok t.isAbsent
  | .nilObjs, t => .ok t.isAbsent
  | .ints k s, t =>
    match t with
    | .nilInts k' => if k = k' then .panic else .ok false
    | .ints k' t => if k = k' then .ok (hashableIntSliceEqual s t) else .ok false
    | _ => .ok false
  | .objsNil, t =>
    match t with
    | .nilObjs => .panic
    | .objsNil => .ok true
    | .objs m => .ok (m.length == 0)
    | _ => .ok false
  | .objs l, t =>
    match t with
    | .nilObjs => .panic
    | .objsNil => .ok (l.length == 0)
    | .objs m => if l.length ≠ m.length then .ok false else HashObj.equalLoop l m
    | _ => .ok false

/-- The loop of `HashableSlice.Equal`, /repo/src/collection/hashable.go:76-85, over two slices of the same length. -/
def HashObj.equalLoop : List HashObj → List HashObj → Res Bool
  | [], _ => .ok true
  | a :: l, m =>
    match m with
    | [] => .panic
    | b :: m =>
      if a.isAbsent != b.isAbsent then .ok false
      else if a.isAbsent then HashObj.equalLoop l m
      else match a.equal b with
        | .ok true => HashObj.equalLoop l m
        | .ok false => .ok false
        | .err => .err
        | .panic => .panic
end

/-- The loop of `HashableSlice.HashUint32`, /repo/src/collection/hashable.go:100-110: `Implements` of a nil type panics at the first
element that is not nil. -/
def HashObj.hashLoop (empty : UInt32) : List HashObj → UInt32 → Res UInt32
  | [], h => .ok h
  | o :: l, h => if o.isAbsent then HashObj.hashLoop empty l (h ^^^ empty) else .panic

/-- `HashUint32`, /repo/src/collection/hashable.go:91-113, :153-160, :200-209 and the copies for other element types; on nothing or a nil
pointer it panics. -/
def HashObj.hash (f : Bytes → UInt32) : HashObj → Res UInt32
  | .absent => .panic
  | .nilInts _ => .panic
  | .nilObjs => .panic
  | .ints .byte s => .ok (f ((s.elems.getD []).flatMap (leBytes 1)))
  | .ints k s => match hashableIntSliceHash k.width f s with
    | none => .panic
    | some h => .ok h
  | .objsNil => .ok (f [])
  | .objs l => HashObj.hashLoop (f []) l (f [])

end Poodle
