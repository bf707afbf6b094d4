import Verif.Model.Basic

/-
Model of the byte slice equality and comparison of /repo/src/collection/util.go and of
`ComparableByteSlice` in /repo/src/collection/comparable.go.
-/

namespace Poodle

/-- `EqualByteSlice`, /repo/src/collection/util.go:207-229. -/
def equalByteSlice (a b : Slice) : Bool :=
  match a, b with
  | none, none => true
  | none, some _ => false
  | some _, none => false
  | some a, some b => if a.length ≠ b.length then false else (a.zip b).all fun p => p.1 == p.2

/-- The loop of `CompareByteSlice`, /repo/src/collection/util.go:471-491, at index `i` of `s1` (`rest` is `s1[i:]`).
The guard `len(s1) < i` is the one in the code (line 473). -/
def compareByteLoop (s1 s2 : Bytes) : Bytes → Nat → Res Int
  | [], _ => if s2.length > s1.length then .ok (-1) else .ok 0
  | a :: rest, i =>
    if s1.length < i then .ok 1
    else match s2[i]? with
      | none => .panic
      | some b => if a < b then .ok (-1) else if a > b then .ok 1 else compareByteLoop s1 s2 rest (i + 1)

/-- `CompareByteSlice`, /repo/src/collection/util.go:460-492. -/
def compareByteSlice (s1 s2 : Slice) : Res Int :=
  match s1, s2 with
  | none, none => .ok 0
  | none, some _ => .ok (-1)
  | some _, none => .ok 1
  | some a, some b => compareByteLoop a b a 0

/-- `ComparableByteSlice.Equal` on two non-nil objects, /repo/src/collection/comparable.go:120-141. -/
def comparableByteSliceEqual (s t : Slice) : Bool :=
  if s.bytes.length ≠ t.bytes.length then false else equalByteSlice s t

/-- `ComparableByteSlice.Compare` on two non-nil objects, /repo/src/collection/comparable.go:144-161: the nil test looks
at the receiver's slice but at the argument object, so a nil receiver slice is "less" than everything. -/
def comparableByteSliceCompare (s t : Slice) : Res Int :=
  match s with
  | none => .ok (-1)
  | some _ => compareByteSlice s t

end Poodle
