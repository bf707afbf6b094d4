import Verif.Model.ValueCost
import Verif.Spec.ValueAccess

/-
Specification of the work of reading elements, in terms of the indexes read only.
-/

namespace Poodle.Spec

/-- The index of an access that reads an element of `root`, an array (`ValueAt`) or a record list (`RecordAt`) of `size` elements;
`none` for an access to something else, one with the wrong method or an index out of range. -/
def Access.index (kind : VKind) (root size : Nat) : Access → Option Nat
  | .value id i => if id = root ∧ kind = .array ∧ i < size then some i else none
  | .record id i => if id = root ∧ kind = .records ∧ i < size then some i else none

/-- The indexes read by a history. -/
def indexesOf (kind : VKind) (root size : Nat) (l : List Access) : List Nat := l.filterMap (Access.index kind root size)

/-- One more than the largest of the indexes. -/
def reach (is : List Nat) : Nat := is.foldr (fun i m => max m (i + 1)) 0

/-- The number of rounds of reading elements `is` one after the other when elements up to `m` have been read: nothing for an
element up to the largest read so far, otherwise one for the element and one for each element before it. -/
def roundsFrom : Nat → List Nat → Nat
  | _, [] => 0
  | m, i :: is => (if i < m then 0 else i + 1) + roundsFrom (max m (i + 1)) is

/-- Element `i` of a decoded array or list, and so every one before it, can be decoded. -/
def Readable (d : StdValue) (i : Nat) : Prop :=
  match d.kind with
  | .array => ∃ x, elemOf decodeStd d.content i = .ok x
  | .records => ∃ x, elemOf decodeRecord d.content i = .ok x
  | .prim => False

/-- The work of one access, if it is one to `root`. -/
def Access.work (h : Heap) (root : Nat) : Access → ReadWork (Res (Option Nat))
  | .value id i =>
    let w := h.valueAtW id i
    if id = root then ⟨w.rounds, w.decodes, w.res.2⟩ else ⟨0, 0, .ok none⟩
  | .record id i =>
    let w := h.recordAtW id i
    if id = root then ⟨w.rounds, w.decodes, w.res.2⟩ else ⟨0, 0, .ok none⟩

/-- The rounds of all the accesses of a history to `root`. -/
def totalRounds (root : Nat) : Heap → List Access → Nat
  | _, [] => 0
  | h, a :: l => (a.work h root).rounds + totalRounds root (a.run h) l

/-- The elements decoded by all the accesses of a history to `root`. -/
def totalDecodes (root : Nat) : Heap → List Access → Nat
  | _, [] => 0
  | h, a :: l => (a.work h root).decodes + totalDecodes root (a.run h) l

/-- 1 for a panic, 0 for any other outcome. -/
def panics {α : Type} : Res α → Nat
  | .panic => 1
  | _ => 0

/-- The number of accesses of a history to `root` that panic. -/
def totalPanics (root : Nat) : Heap → List Access → Nat
  | _, [] => 0
  | h, a :: l => panics (a.work h root).res + totalPanics root (a.run h) l

/-- The reads of a history of elements of an array (`ValueAt`) or of a list (`RecordAt`). -/
def readAll (kind : VKind) (root : Nat) (is : List Nat) : List Access :=
  is.map fun i => if kind = .array then .value root i else .record root i

end Poodle.Spec
