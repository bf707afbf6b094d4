import Mathlib.NumberTheory.LegendreSymbol.JacobiSymbol
import Verif.Model.KeyFile

/-
Model of `ECDSAGetPublicKey` and `ECDSACalculateY`, /repo/src/util/ecdsa_util.go:68-97, for a curve y² = x³ - 3x + b over the
integers modulo p.  Signing and verifying are not modelled.
-/

namespace Poodle

/-- The curve parameters used: `curve.Params().P`, `.B`, /repo/src/util/ecdsa_util.go:89-90. -/
structure Curve where
  p : Nat
  b : Nat

/-- `elliptic.P256()`, /repo/src/util/ecdsa_util.go:70. -/
def p256 : Curve where
  p := 115792089210356248762697446949407573530086143415290314195533631308867097853951
  b := 0x5ac635d8aa3a93e7b3ebbd55769886bc651d06b0cc53b0f63bce3c3e27d2604b

/-- `big.Int.ModSqrt(x, p)` for p = 3 mod 4, /repo/src/util/ecdsa_util.go:93: the standard library returns nil for a non residue
(Jacobi symbol -1), 0 for 0 and x^((p+1)/4) mod p otherwise. -/
def modSqrt (p x : Nat) : Option Nat :=
  if jacobiSym x p = -1 then none
  else if jacobiSym x p = 0 then some 0
  else some (x ^ ((p + 1) / 4) % p)

/-- `ECDSACalculateY`, /repo/src/util/ecdsa_util.go:77-97. -/
def calculateY (c : Curve) (x : Nat) : Option Nat :=
  let x3 : Int := x * x * x
  let threeX : Int := x * 2 + x
  modSqrt c.p ((x3 - threeX + c.b) % c.p).toNat

/-- `ECDSAGetPublicKey`, /repo/src/util/ecdsa_util.go:68-75: X and Y. -/
def getPublicKey (c : Curve) (data : Bytes) : Nat × Option Nat :=
  let x := beVal data
  (x, calculateY c x)

/-- `LCLoadPubKey`, /repo/src/util/lc_util.go:120-122, :254-263, with both coordinates. -/
def loadPubPoint (c : Curve) (fs : FS) (cls : KeyClass) (id : Path) : Res (Nat × Option Nat) := do
  let data ← loadKeyData fs (pubKeyPath cls id)
  .ok (getPublicKey c data)

end Poodle
