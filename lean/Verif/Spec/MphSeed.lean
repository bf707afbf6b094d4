import Verif.Model.MphSeed
import Mathlib.Data.Set.Card

/-
Specification of the verification seed: the random source delivers one of 2^64 byte strings of length eight.
-/

namespace Poodle.Spec
open Poodle

/-- The number of outputs of the random source for which something holds. -/
noncomputable def draws (P : Bytes → Prop) : Nat := Set.ncard {b : Bytes | b.length = 8 ∧ P b}

/-- The table built with this random output accepts the key. -/
def Accepted (order : List (Nat × List Nat) → List (Nat × List Nat)) (fuel : Nat) (keys : List KeyObj) (s : KeyObj) (bytes : Bytes) : Prop :=
  ∃ t n, mphBuildRandom murmurMphOps order fuel bytes keys false = .ok t ∧ t.lookup murmurMphOps s = .ok (n, true)

end Poodle.Spec
