import Verif.Model.Mph
import Verif.Model.Hash

/-
Composite keys (/repo/src/util/key_util.go) as keys of the hash maps and sorted maps of /repo/src/collection.
The maps store the key objects they are given (pointers), so a change of a key object made by its owner shows in the map.
-/

namespace Poodle

variable {V : Type}

/-- Composite keys as keys of a hash table with a seed: `Equal` and `HashUint32` of each implementation,
/repo/src/util/key_util.go:89-100, :120-123, :264-285, :318-324, :462-491, with `MurmurSeed.Hash`,
/repo/src/collection/hash.go:308-351. -/
def keyHashOps (seed : UInt32) : HashOps KeyObj := ⟨fun a b => (a.equal? b).getD false, murmurMphOps.hash seed⟩

/-- The hash table after the key objects in it were changed by their owner: a node keeps the object it was given,
/repo/src/collection/hash.go:126-138. -/
def HashTab.touch (g : KeyObj → KeyObj) (h : HashTab KeyObj V) : HashTab KeyObj V :=
  ⟨h.array.map fun c => c.map fun e => (g e.1, e.2), h.size⟩

/-- The tree after the key objects in it were changed by their owner: a node keeps the object it was given,
/repo/src/collection/avl.go:99-104, :167-177. -/
def Tree.touch (g : KeyObj → KeyObj) : Tree KeyObj V → Tree KeyObj V
  | .nil => .nil
  | .node k v b l r => .node (g k) v b (l.touch g) (r.touch g)

/-- The same for a sorted map, /repo/src/collection/sorted_map.go:3-5. -/
def SortedMap.touch (g : KeyObj → KeyObj) (m : SortedMap KeyObj V) : SortedMap KeyObj V := ⟨m.root.touch g, m.size⟩

end Poodle
