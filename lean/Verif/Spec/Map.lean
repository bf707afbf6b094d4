import Verif.Model.Avl
import Mathlib.Data.Nat.Fib.Basic

/-
Specification of ordered keys, finite maps and finite sets, balanced trees and sorted sequences.
Independent of the insertion, deletion and iteration code.
-/

namespace Poodle.Spec
open Poodle

variable {K V : Type}

/-- The key operations implement the linear order `cmp` (whenever a comparison returns). -/
structure LawfulKeys (ops : KeyOps K) (cmp : K → K → Ordering) : Prop where
  trans : Std.TransCmp cmp
  equal_iff : ∀ a b, ops.equal a b = true ↔ cmp a b = .eq
  compare_sign : ∀ a b c, ops.compare a b = some c → (c < 0 ↔ cmp a b = .lt) ∧ (0 < c ↔ cmp a b = .gt)

/-- No comparison panics. -/
def TotalKeys (ops : KeyOps K) : Prop := ∀ a b, ops.compare a b ≠ none

/-- A comparison panics only when the receiver is greater than the argument. -/
def GuardedKeys (ops : KeyOps K) (cmp : K → K → Ordering) : Prop := ∀ a b, ops.compare a b = none → cmp a b = .gt

/-- A finite map, as seen through lookups. -/
abbrev FMap (K V : Type) := K → Option V

/-- The map with no entries. -/
def FMap.empty : FMap K V := fun _ => none

/-- `m` with `k` bound to `v`. -/
def FMap.put (cmp : K → K → Ordering) (m : FMap K V) (k : K) (v : V) : FMap K V :=
  fun x => if cmp x k = .eq then some v else m x

/-- `m` without `k`. -/
def FMap.remove (cmp : K → K → Ordering) (m : FMap K V) (k : K) : FMap K V :=
  fun x => if cmp x k = .eq then none else m x

/-- `m` has exactly `n` keys (up to the equivalence of the order). -/
def FMap.HasSize (cmp : K → K → Ordering) (m : FMap K V) (n : Nat) : Prop :=
  ∃ ks : List K, ks.length = n ∧ ks.Pairwise (fun a b => cmp a b ≠ .eq) ∧
    ∀ k, (m k).isSome ↔ ∃ k' ∈ ks, cmp k k' = .eq

/-- Update operations on a map. -/
inductive MapOp (K V : Type) where
  | put (k : K) (v : V)
  | remove (k : K)

/-- The finite map after a history of operations, and the value each returns (the previous binding). -/
def FMap.run (cmp : K → K → Ordering) (m : FMap K V) : List (MapOp K V) → FMap K V × List (Option V)
  | [] => (m, [])
  | .put k v :: ops => let (m', rs) := FMap.run cmp (m.put cmp k v) ops; (m', m k :: rs)
  | .remove k :: ops => let (m', rs) := FMap.run cmp (m.remove cmp k) ops; (m', m k :: rs)

/-- A history in which some calls crash (result `none`) and have no effect; the others return the previous binding and
update the map. -/
inductive FMap.Runs (cmp : K → K → Ordering) : FMap K V → List (MapOp K V) → List (Option (Option V)) → FMap K V → Prop
  | nil (m) : Runs cmp m [] [] m
  | crash (m op ops rs m') : Runs cmp m ops rs m' → Runs cmp m (op :: ops) (none :: rs) m'
  | put (m k v ops rs m') : Runs cmp (m.put cmp k v) ops rs m' → Runs cmp m (.put k v :: ops) (some (m k) :: rs) m'
  | remove (m k ops rs m') : Runs cmp (m.remove cmp k) ops rs m' → Runs cmp m (.remove k :: ops) (some (m k) :: rs) m'

/-- Height of a tree. -/
def height : Tree K V → Nat
  | .nil => 0
  | .node _ _ _ l r => max (height l) (height r) + 1

/-- Number of nodes. -/
def count : Tree K V → Nat
  | .nil => 0
  | .node _ _ _ l r => count l + count r + 1

/-- Every node stores the height difference of its sub trees, which is -1, 0 or 1. -/
def Balanced : Tree K V → Prop
  | .nil => True
  | .node _ _ b l r => b = (height r : Int) - height l ∧ -1 ≤ b ∧ b ≤ 1 ∧ Balanced l ∧ Balanced r

/-- Entries in symmetric order. -/
def entries : Tree K V → List (K × V)
  | .nil => []
  | .node k v _ l r => entries l ++ (k, v) :: entries r

/-- Strictly increasing keys. -/
def Increasing (cmp : K → K → Ordering) (l : List (K × V)) : Prop := l.Pairwise fun a b => cmp a.1 b.1 = .lt

end Poodle.Spec
