import Verif.Model.HashFloat

/-
The resize decisions of a hash table created by `NewCustomHash` with any load factor and multiplier
(/repo/src/collection/hash.go:74-101, :142-145, :170-173; exported as `NewCustomHashMap`, hash_map.go:16-19, and `NewCustomHashSet`,
hash_set.go:16-19), as a `ResizePolicy`.
-/

namespace Poodle

/-- A `float32` argument (Go language; no file in /repo).  `fin q`: the number `q`; signed zeros are not distinguished. -/
inductive F32 where
  | nan
  | fin (q : ℚ)
  | posInf
  | negInf
deriving DecidableEq

/-- The clamping of the multiplier, /repo/src/collection/hash.go:82-86 (`none`: not a number, for which both comparisons are
false).  The constant 1.2 is rounded to `float32`. -/
def clampMultiplier : F32 → Option ℚ
  | .nan => none
  | .posInf => some 5
  | .negInf => some (float32 (6 / 5))
  | .fin q => if q > 5 then some 5 else if q < float32 (6 / 5) then some (float32 (6 / 5)) else some q

/-- The clamping of the load factor, /repo/src/collection/hash.go:89-93 (`none`: not a number). -/
def clampLoadFactor : F32 → Option ℚ
  | .nan => none
  | .posInf => some 1
  | .negInf => some (1 / 2)
  | .fin q => if q > 1 then some 1 else if q < 1 / 2 then some (1 / 2) else some q

/-- What the language and the library leave open: `pow m k` is `math.Pow(float64(m), k)` (/repo/src/collection/hash.go:170-171), and
`nanInt` the result of `int(x)` for a `float32` that is not a number (:143). -/
structure FloatEnv where
  pow : ℚ → Nat → ℚ
  nanInt : Int

/-- The decision to grow, /repo/src/collection/hash.go:142-145: a comparison with a load factor that is not a number is false. -/
def customGrow (env : FloatEnv) (lf m : Option ℚ) (s : Int) (len : Nat) : Option Int :=
  match lf with
  | none => none
  | some f => if loadRatio s len ≥ f then
      match m with
      | none => some env.nanInt
      | some q => some ⌊float32 (float32 len * q)⌋
    else none

/-- The decision to shrink, /repo/src/collection/hash.go:170-173: the threshold is not a number if the load factor or the
multiplier is none. -/
def customShrink (env : FloatEnv) (lf m : Option ℚ) (s : Int) (len : Nat) : Option Int :=
  match lf, m with
  | some f, some q =>
    if loadRatio s len < float32 (f / float32 (env.pow q 4)) then some ⌊float32 (float32 len / float32 (env.pow q 2))⌋ else none
  | _, _ => none

/-- The resizing of `NewCustomHash(_, loadFactor, multiplier)`, /repo/src/collection/hash.go:74-101. -/
def customPolicy (env : FloatEnv) (loadFactor multiplier : F32) : ResizePolicy where
  grow := customGrow env (clampLoadFactor loadFactor) (clampMultiplier multiplier)
  shrink := customShrink env (clampLoadFactor loadFactor) (clampMultiplier multiplier)

end Poodle
