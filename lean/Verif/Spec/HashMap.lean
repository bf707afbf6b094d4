import Verif.Model.Hash
import Verif.Spec.Map

/-
Specification of a finite map whose keys are identified by an equivalence.
-/

namespace Poodle.Spec
open Poodle

variable {K V : Type}

/-- Key equality is an equivalence and the hash function respects it. -/
structure LawfulHash (ops : HashOps K) : Prop where
  refl : ∀ a, ops.equal a a = true
  symm : ∀ a b, ops.equal a b = true → ops.equal b a = true
  trans : ∀ a b c, ops.equal a b = true → ops.equal b c = true → ops.equal a c = true
  hash : ∀ a b, ops.equal a b = true → ops.hash a = ops.hash b

/-- The finite map after a history of operations, and the value each returns (the previous binding); keys are identified by
`eqv`. -/
def runE (eqv : K → K → Bool) (m : K → Option V) : List (MapOp K V) → (K → Option V) × List (Option V)
  | [] => (m, [])
  | .put k v :: ops => let (m', rs) := runE eqv (fun x => if eqv x k then some v else m x) ops; (m', m k :: rs)
  | .remove k :: ops => let (m', rs) := runE eqv (fun x => if eqv x k then none else m x) ops; (m', m k :: rs)

/-- `m` has exactly `n` keys up to `eqv`. -/
def SizeE (eqv : K → K → Bool) (m : K → Option V) (n : Nat) : Prop :=
  ∃ ks : List K, ks.length = n ∧ ks.Pairwise (fun a b => eqv a b = false) ∧
    ∀ k, (m k).isSome ↔ ∃ k' ∈ ks, eqv k k' = true

/-- The resize policy never asks for 2^32 buckets or more from fewer than 2^32, while the table holds at most
`n` entries. -/
def Modest (pol : ResizePolicy) (n : Nat) : Prop :=
  ∀ (s : Int) (len : Nat) (c : Int), 0 ≤ s → s ≤ n → len < 2 ^ 32 → (pol.grow s len = some c ∨ pol.shrink s len = some c) → c < 2 ^ 32

end Poodle.Spec
