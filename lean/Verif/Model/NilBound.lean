import Verif.Model.AvlIter
import Verif.Model.NilKey

/-
Model of range iterators of a sorted map with bounds that may be nil in every way: /repo/src/collection/sorted_map.go:73-75 and
/repo/src/collection/avl.go:332-356, :400-500 with the comparable slices of /repo/src/collection/comparable.go as keys and bounds.
-/

namespace Poodle

/-- The tests `start != nil` and `end != nil`, /repo/src/collection/avl.go:344, :348, :449, :479: a nil pointer passes them. -/
def boundOf (b : CmpObj) : Option CmpObj := if b.isAbsent then none else some b

/-- Iterators call `Compare` only, /repo/src/collection/avl.go:348, :451-471, :481-494. -/
def boundOps : KeyOps CmpObj where
  equal _ _ := false
  compare a b :=
    match a.compare b with
    | .ok c => some c
    | _ => none

variable {V : Type}

/-- `SortedMap.RangeIterator`, /repo/src/collection/sorted_map.go:73-75 (`none`: panics). -/
def SortedMap.rangeAny (m : SortedMap CmpObj V) (start stop : CmpObj) : Option (AvlIter CmpObj V) :=
  m.rangeIterator boundOps (boundOf start) (boundOf stop)

end Poodle
