import Verif.Model.HashObj
import Verif.Model.HashPanic

/-
Model of calls on a hash map with keys that may be nil in every way: /repo/src/collection/hash.go:103-214 and
/repo/src/collection/hash_map.go:21-46 with the hashable slices of /repo/src/collection/hashable.go as keys.  There is no test for nil in
either file: what happens is up to the methods of the keys.
-/

namespace Poodle

/-- `Equal` and `HashUint32` of hashable slices, /repo/src/collection/hashable.go:56-113, :129-160, :176-209 and the copies for other element
types; where they panic the values here are not used (see `anyHashTrap`).  `f` is the hash function of the table,
/repo/src/collection/hash.go:97. -/
def anyHashOps (f : Bytes → UInt32) : HashOps HashObj where
  equal a b := match a.equal b with
    | .ok v => v
    | _ => false
  hash a := match a.hash f with
    | .ok h => h
    | _ => 0

/-- The calls that panic, /repo/src/collection/hashable.go:56-113, :129-160, :176-209 and the copies for other element types. -/
def anyHashTrap (f : Bytes → UInt32) : Trap HashObj := fun _ c => match c with
  | .hash a => match a.hash f with
    | .ok _ => false
    | _ => true
  | .equal a b => match a.equal b with
    | .ok _ => false
    | _ => true

variable {V : Type}

/-- `HashMap.Get`, /repo/src/collection/hash_map.go:21-28 (outer `none`: panics). -/
def HashTab.getAny (f : Bytes → UInt32) (h : HashTab HashObj V) (k : HashObj) : Option (Option V) := h.getT (anyHashTrap f) (anyHashOps f) k

/-- `HashMap.Put`, /repo/src/collection/hash_map.go:30-37: the table afterwards, and the result (`none`: panics). -/
def HashTab.putAny (f : Bytes → UInt32) (pol : ResizePolicy) (h : HashTab HashObj V) (k : HashObj) (v : V) : HashTab HashObj V × Option (Option V) :=
  h.putT (anyHashTrap f) (anyHashOps f) pol k v

/-- `HashMap.Remove`, /repo/src/collection/hash_map.go:39-46. -/
def HashTab.removeAny (f : Bytes → UInt32) (pol : ResizePolicy) (h : HashTab HashObj V) (k : HashObj) : HashTab HashObj V × Option (Option V) :=
  h.removeT (anyHashTrap f) (anyHashOps f) pol k

end Poodle
