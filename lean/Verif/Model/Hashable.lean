import Verif.Model.Slice
import Verif.Model.Murmur

/-
Model of the hashable slices of /repo/src/collection/hashable.go.  Receivers and arguments of `Equal` are non-nil objects of the
same type; other arguments are simply unequal (the `reflect.TypeOf` tests, e.g. lines 63-65).
-/

namespace Poodle

/-- `HashableSlice.HashUint32`, /repo/src/collection/hashable.go:91-113.  The slice is nil or a list of elements that are nil
interfaces (`none`) or hashable objects (`some`, given by their own hash).  `reflect.TypeOf((IHashable)(nil))` is nil, so
`Implements` (line 105) panics for every non-nil element. -/
def hashableSliceHash (f : Bytes → UInt32) : Option (List (Option UInt32)) → Option UInt32
  | none => some (f [])
  | some l => l.foldl (fun h o => match h, o with
    | none, _ => none
    | some h, none => some (h ^^^ f [])
    | some _, some _ => none) (some (f []))

/-- `HashableByteSlice.Equal`, /repo/src/collection/hashable.go:129-150. -/
def hashableByteSliceEqual (s t : Slice) : Bool :=
  if s.bytes.length ≠ t.bytes.length then false else equalByteSlice s t

/-- `HashableByteSlice.HashUint32`, /repo/src/collection/hashable.go:153-160. -/
def hashableByteSliceHash (f : Bytes → UInt32) (s : Slice) : UInt32 :=
  match s with
  | none => f []
  | some b => f b

/-- A Go `[]int16`, `[]uint16`, `[]int32`, ... : nil, or the bit patterns of the elements and the capacity (in elements).
(Go language; no file in /repo.) -/
structure IntSlice where
  elems : Option (List Nat)
  cap : Nat
deriving DecidableEq, Repr

/-- The memory of an integer of `w` bytes on a little endian machine.  (Go runtime; no file in /repo.) -/
def leBytes : Nat → Nat → Bytes
  | 0, _ => []
  | w + 1, x => UInt8.ofNat (x % 256) :: leBytes w (x / 256)

/-- `EqualInt16Slice`, `EqualUint16Slice`, ..., /repo/src/collection/util.go:255-421 (the same code for each type); two
integers are equal if their bit patterns are. -/
def equalIntSlice (a b : Option (List Nat)) : Bool :=
  match a, b with
  | none, none => true
  | none, some _ => false
  | some _, none => false
  | some a, some b => if a.length ≠ b.length then false else (a.zip b).all fun p => p.1 == p.2

/-- `HashableInt16Slice.Equal` and its variants, /repo/src/collection/hashable.go:176-197, :225-246, :274-295, :323-344,
:372-393, :421-442. -/
def hashableIntSliceEqual (s t : IntSlice) : Bool :=
  if (s.elems.getD []).length ≠ (t.elems.getD []).length then false else equalIntSlice s.elems t.elems

/-- `HashableInt16Slice.HashUint32` (`w = 2`), `Int32` (4), `Int64` (8) and the unsigned variants,
/repo/src/collection/hashable.go:200-209, :249-258, :298-307, :347-356, :396-405, :445-454.  The slice header is reinterpreted
as that of a byte slice, keeping the capacity *in elements*; reslicing to `len*w` panics (`none`) beyond it. -/
def hashableIntSliceHash (w : Nat) (f : Bytes → UInt32) (s : IntSlice) : Option UInt32 :=
  match s.elems with
  | none => some (f [])
  | some l => if l.length * w ≤ s.cap then some (f (l.flatMap (leBytes w))) else none

end Poodle
