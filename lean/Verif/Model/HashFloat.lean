import Verif.Model.Hash
import Mathlib.Data.Int.Log
import Mathlib.Data.Rat.Floor

/-
The `float32` resize decisions of `NewHash` (/repo/src/collection/hash.go:41-46, :142-145, :170-173) as a `ResizePolicy`.

A `float32` is the rational number it denotes.  All numbers that occur are between 2^-63 and 2^64 or zero, so neither overflow
nor subnormal numbers are modelled.
-/

namespace Poodle

/-- The nearest integer, ties to even (the default rounding of IEEE 754, used by Go; no file in /repo). -/
def roundEven (q : ℚ) : ℤ :=
  if q - ⌊q⌋ < 1 / 2 then ⌊q⌋
  else if 1 / 2 < q - ⌊q⌋ then ⌊q⌋ + 1
  else if ⌊q⌋ % 2 = 0 then ⌊q⌋ else ⌊q⌋ + 1

/-- Rounding of a non-negative number to `float32` (24 significant bits), applied after every operation and to the conversions
`float32(int)` (Go language; no file in /repo). -/
def float32 (q : ℚ) : ℚ :=
  if q ≤ 0 then 0 else roundEven (q / 2 ^ (Int.log 2 q - 23)) * 2 ^ (Int.log 2 q - 23)

/-- `float32(h.size) / float32(len(h.array))`, /repo/src/collection/hash.go:142, :170. -/
def loadRatio (s : Int) (len : Nat) : ℚ := float32 (float32 s / float32 len)

/-- The resizing of `NewHash`, /repo/src/collection/hash.go:67-72 with the constants :43-45: load factor 0.75 and multiplier 1.5 are
`float32` numbers, and so are 1.5^2 and 1.5^4 (`math.Pow` is exact for them).  Growing: :142-145; shrinking: :170-173.  The
conversion `int(float32)` truncates. -/
def floatPolicy : ResizePolicy where
  grow s len := if loadRatio s len ≥ 3 / 4 then some ⌊float32 (float32 len * (3 / 2))⌋ else none
  shrink s len := if loadRatio s len < float32 (3 / 4 / (81 / 16)) then some ⌊float32 (float32 len / (9 / 4))⌋ else none

end Poodle
