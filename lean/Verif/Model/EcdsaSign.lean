import Mathlib.AlgebraicGeometry.EllipticCurve.Affine.Point
import Verif.Model.Ecdsa

/-
Model of keys, signing and verification, /repo/src/util/ecdsa_util.go:40-66.

The functions are thin wrappers of `crypto/ecdsa` and `crypto/elliptic`; those are modelled by what they compute (FIPS 186-4, as in
the standard library), with the elliptic curve group of Mathlib.  Simplified: the library checks in recent versions that a private
number is between 1 and n - 1, older versions do not; the theorems are about private numbers in this range.
-/

namespace Poodle

open WeierstrassCurve

/-- The parameters of a curve y² = x³ - 3x + b with a base point, `curve.Params()`: `elliptic.P256()` at
/repo/src/util/ecdsa_util.go:41, :60, :70. -/
structure EcParams extends Curve where
  n : Nat
  gx : Nat
  gy : Nat

/-- `elliptic.P256()`, /repo/src/util/ecdsa_util.go:41, :60, :70. -/
def p256Params : EcParams where
  toCurve := p256
  n := 115792089210356248762697446949407573529996955224135760342422259061068512044369
  gx := 0x6b17d1f2e12c4247f8bce6e563a440f277037d812deb33a0f4a13945d898c296
  gy := 0x4fe342e2fe1a7f9b8ee7eb4a7c0f9e162bce33576b315ececbb6406837bf51f5

namespace EcParams

variable (c : EcParams)

/-- The curve as a Weierstrass curve over the integers modulo p, /repo/src/util/ecdsa_util.go:78. -/
def curve : Affine (ZMod c.p) where
  a₁ := 0
  a₂ := 0
  a₃ := 0
  a₄ := -3
  a₆ := c.b

open Classical in
/-- The point with the given coordinates, if there is one (the check of a public key by the library called at
/repo/src/util/ecdsa_util.go:56). -/
noncomputable def point (x y : Nat) : Option c.curve.Point :=
  if h : (x < c.p ∧ y < c.p) ∧ c.curve.Nonsingular x y then some (.some x y h.2) else none

/-- The base point, /repo/src/util/ecdsa_util.go:41, :60, :70. -/
noncomputable def base : c.curve.Point := (c.point c.gx c.gy).getD 0

/-- The coordinates of a point as `ScalarBaseMult` returns them ((0, 0) for the point at infinity),
/repo/src/util/ecdsa_util.go:64. -/
def coords : c.curve.Point → Nat × Nat
  | .zero => (0, 0)
  | .some x y _ => (x.val, y.val)

variable [Fact c.p.Prime]

/-- `ECDSAGetPrivateKey`, /repo/src/util/ecdsa_util.go:59-66: D, and X and Y. -/
noncomputable def getPrivateKey (data : Bytes) : Nat × Nat × Nat := (beVal data, c.coords (beVal data • c.base))

/-- `ECDSAGenerateKey`, /repo/src/util/ecdsa_util.go:40-49, if the random source delivers the number `d` between 1 and n - 1 : D, and
X and Y. -/
noncomputable def generateKey (d : Nat) : Nat × Nat × Nat := (d, c.coords (d • c.base))

/-- The number that is signed: the first 32 bytes of the argument called `hash` (the length of the order in bytes, for P-256),
/repo/src/util/ecdsa_util.go:51-57. -/
def hashToInt (hash : Bytes) : Nat := beVal (hash.take 32)

/-- One round of `ecdsa.Sign` with the random number `k` between 1 and n - 1, /repo/src/util/ecdsa_util.go:52 (`none`: the library
tries another one). -/
noncomputable def sign1 (d e k : Nat) : Option (Nat × Nat) :=
  let r := (c.coords (k • c.base)).1 % c.n
  if r = 0 then none
  else
    let s : ZMod c.n := (k : ZMod c.n)⁻¹ * (e + r * d)
    if s = 0 then none else some (r, s.val)

/-- `ECDSASign`, /repo/src/util/ecdsa_util.go:51-53, with the random numbers `ks` (`none`: more are needed). -/
noncomputable def sign (d : Nat) (hash : Bytes) (ks : List Nat) : Option (Nat × Nat) := ks.findSome? (c.sign1 d (hashToInt hash))

/-- `ECDSAVerify`, /repo/src/util/ecdsa_util.go:55-57.  A nil Y, which `ECDSAGetPublicKey` leaves if X belongs to no point, makes the
library panic.  A public key that is no point of the curve is refused (by recent versions of the library; it cannot be obtained
from `ECDSAGetPublicKey` if X is less than p). -/
noncomputable def verify (x : Nat) (y : Option Nat) (hash : Bytes) (r s : Int) : Res Bool :=
  if r ≤ 0 ∨ s ≤ 0 ∨ (c.n : Int) ≤ r ∨ (c.n : Int) ≤ s then .ok false
  else match y with
    | none => .panic
    | some y => match c.point x y with
      | none => .ok false
      | some q =>
        let w : ZMod c.n := (s : ZMod c.n)⁻¹
        let u1 : ZMod c.n := hashToInt hash * w
        let u2 : ZMod c.n := r * w
        match u1.val • c.base + u2.val • q with
        | .zero => .ok false
        | .some x' _ _ => .ok (decide ((x'.val % c.n : Nat) = r))

end EcParams

end Poodle
