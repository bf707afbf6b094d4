import Verif.Model.Mph
import Mathlib.Data.Nat.Log
import Mathlib.Data.List.Perm.Subperm

/-
Specification of when a minimal perfect hash table can be built: in terms of the hash family only.
-/

namespace Poodle.Spec
open Poodle

variable {K : Type}

/-- The least power of two not less than `n`. -/
def powerAbove (n : Nat) : Nat := 2 ^ Nat.clog 2 n

/-- The slot of a key under a seed, in a table of `m` slots. -/
def slotIn (hash : UInt32 → K → UInt32) (m : Nat) (seed : UInt32) (k : K) : Nat := (hash seed k).toNat % m

/-- Under the seed the keys have different slots, none of them taken. -/
def Places (hash : UInt32 → K → UInt32) (m : Nat) (seed : UInt32) (ks : List K) (taken : List Nat) : Prop :=
  (ks.map (slotIn hash m seed)).Nodup ∧ ∀ k ∈ ks, slotIn hash m seed k ∉ taken

/-- The keys that share a first level slot: a quarter of the keys, rounded up to a power of two, is the number of these slots. -/
def bucketOf (hash : UInt32 → K → UInt32) (keys : List K) (r : Nat) : List K :=
  keys.filter fun k => slotIn hash (powerAbove (keys.length / 4)) 0 k = r

/-- Whatever slots are taken, if enough are left, then for any of the keys there is a seed that places them. -/
def Rich (hash : UInt32 → K → UInt32) (keys : List K) : Prop := ∀ (ks : List K) (taken : List Nat), ks.Subperm keys →
  ks.length + taken.length ≤ powerAbove keys.length → ∃ seed, Places hash (powerAbove keys.length) seed ks taken

end Poodle.Spec
