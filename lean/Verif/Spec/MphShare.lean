import Verif.Model.MphShare
import Verif.Spec.KeyShare

/-
Specification for tables that refer to keys: what a key contains, and programs.
-/

namespace Poodle.Spec
open Poodle

/-- The sub keys that a key object has now. -/
def keyContent (w : MWorld) (i : Nat) : Option (List Slice) := (w.base.keys[i]?).map KeyObj.subKeys

/-- A call on a key, a record or a table that changes something.  A build comes with the order in which its sort puts the buckets, the
number of attempts it makes per bucket, and its random seed. -/
inductive TabCall where
  | on (c : KCall)
  | build (order : { g : List (Nat × List Nat) → List (Nat × List Nat) // ∀ l, (g l).Perm l }) (fuel : Nat) (vs : UInt32) (keys : List Nat)
      (byKey : Bool)
  | encodeTable (t : Nat)

/-- The effect of a call. -/
def TabCall.run (f : UInt32 → Slice → UInt32) (w : MWorld) : TabCall → MWorld
  | .on c => { w with base := (c.run w.base).1 }
  | .build order fuel vs keys byKey => (w.build f order.1 fuel vs keys byKey).1
  | .encodeTable t => (w.encode t).1

/-- The state after more calls. -/
def continueWith (f : UInt32 → Slice → UInt32) (w : MWorld) (q : List TabCall) : MWorld := q.foldl (fun w c => c.run f w) w

/-- The state after a program whose calls may panic and be recovered. -/
def indexing (f : UInt32 → Slice → UInt32) (p : List TabCall) : MWorld := continueWith f ⟨⟨[], []⟩, []⟩ p

/-- The call adds a sub key to the key. -/
def TabCall.adds (k : Nat) : TabCall → Bool
  | .on c => c.adds k
  | _ => false

end Poodle.Spec
