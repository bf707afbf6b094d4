import Verif.Model.Mph
import Verif.Model.Rand

/-
Model of the choice of the verification seed in `MPHBuild`, /repo/src/util/mph_util.go:279.  A failing random source (which panics) is
not modelled.
-/

namespace Poodle

/-- `uint32(RandUint64Range(2^16, 2^32-1))`, /repo/src/util/mph_util.go:279, on the eight bytes delivered by the random source.  In Go
`^` is the exclusive or, with the precedence of `-`: the bounds are `2 ^^^ 16` and `(2 ^^^ 32) - 1`. -/
def mphVerifySeed (bytes : Bytes) : Res UInt32 := do
  let n ← randUintRange 8 (2 ^^^ 16) ((2 ^^^ 32) - 1) bytes
  .ok (UInt32.ofNat n)

/-- `MPHBuild`, /repo/src/util/mph_util.go:270-344, with the bytes of the random source. -/
def mphBuildRandom {K : Type} (ops : MphOps K) (order : List (Nat × List Nat) → List (Nat × List Nat)) (fuel : Nat) (bytes : Bytes)
    (keys : List K) (byKey : Bool) : Res (MphTable K) := do
  let seed ← mphVerifySeed bytes
  mphBuild ops order fuel seed keys byKey

end Poodle
