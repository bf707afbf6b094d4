import Verif.Model.Avl
import Verif.Model.Comparable

/-
Model of calls on a sorted map with keys that may be nil in every way: /repo/src/collection/avl.go:27-65 and
/repo/src/collection/sorted_map.go:16-41 with the comparable slices of /repo/src/collection/comparable.go as keys.
-/

namespace Poodle

/-- Comparable slices as keys.  The tree calls `Equal` (/repo/src/collection/avl.go:172, :225, :266) and, if the answer is false, `Compare` with
the same arguments (:179, :242, :270), so that a panic of `Equal` (`CmpObj.equal`, /repo/src/collection/comparable.go:52-84, :120-141) may be
reported by the latter.  The one call of `Compare` without `Equal` before it (:242 after :237-239) compares a key with itself, for which
`Equal` does not panic. -/
def anyKeyOps : KeyOps CmpObj where
  equal a b :=
    match a.equal b with
    | .ok v => v
    | _ => false
  compare a b :=
    match a.equal b, a.compare b with
    | .ok _, .ok c => some c
    | _, _ => none

variable {V : Type}

/-- `SortedMap.Get`, /repo/src/collection/sorted_map.go:16-23 and /repo/src/collection/avl.go:27-33: no test of the key. -/
def SortedMap.getAny (m : SortedMap CmpObj V) (k : CmpObj) : Option (Option V) := m.get anyKeyOps k

/-- `SortedMap.Put`, /repo/src/collection/sorted_map.go:25-32, with the test `key == nil` of /repo/src/collection/avl.go:37-38. -/
def SortedMap.putAny (m : SortedMap CmpObj V) (k : CmpObj) (v : V) : SortedMap CmpObj V × Option (Option V) :=
  if k.isAbsent then (m, none) else m.put anyKeyOps k v

/-- `SortedMap.Remove`, /repo/src/collection/sorted_map.go:34-41, with the test `key == nil` of /repo/src/collection/avl.go:55-56. -/
def SortedMap.removeAny (m : SortedMap CmpObj V) (k : CmpObj) : SortedMap CmpObj V × Option (Option V) :=
  if k.isAbsent then (m, none) else m.remove anyKeyOps k

end Poodle
