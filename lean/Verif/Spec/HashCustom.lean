import Verif.Model.HashCustom

/-
What the arguments of `NewCustomHashMap` mean, independently of the code.
-/

namespace Poodle.Spec
open Poodle

/-- A number that `float32` can represent exactly (or no number); negative numbers are clamped whatever they are. -/
def F32.Valid : F32 → Prop
  | .fin q => 0 < q → float32 q = q
  | _ => True

/-- The load factor asked for, between one half and one; a load factor that is not a number asks for one at most. -/
def effLoad : F32 → ℚ
  | .nan => 1
  | .posInf => 1
  | .negInf => 1 / 2
  | .fin q => max (1 / 2) (min q 1)

/-- The multiplier asked for, between (the `float32` nearest to) 1.2 and 5. -/
def effMult : F32 → ℚ
  | .nan => 5
  | .posInf => 5
  | .negInf => 10066330 / 8388608
  | .fin q => max (10066330 / 8388608) (min q 5)

/-- `math.Pow` computes second and fourth powers of numbers between 1 and 5 with a relative error of at most 2^-40. -/
def AccuratePow (pow : ℚ → Nat → ℚ) : Prop :=
  ∀ m : ℚ, 1 ≤ m → m ≤ 5 → ∀ k ∈ [2, 4], m ^ k * (1 - 1 / 2 ^ 40) ≤ pow m k ∧ pow m k ≤ m ^ k * (1 + 1 / 2 ^ 40)

end Poodle.Spec
