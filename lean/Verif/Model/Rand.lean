import Verif.Model.Conv

/-
Model of /repo/src/util/rand_util.go.  The random source is an arbitrary byte string; a failing source (which panics) is not
modelled.  The eight widths share one definition each, `w` being the number of bytes (1, 2, 4, 8).
-/

namespace Poodle

/-- `RandUint8`, `RandUint16`, `RandUint32`, `RandUint64`, /repo/src/util/rand_util.go:30-46, :66-82, :102-118, :138-154, on the `w`
bytes delivered by the random source. -/
def randUint (bytes : Bytes) : Nat := beVal bytes

/-- `RandInt8`, `RandInt16`, `RandInt32`, `RandInt64`, /repo/src/util/rand_util.go:12-28, :48-64, :84-100, :120-136. -/
def randInt (w : Nat) (bytes : Bytes) : Int := toSigned (8 * w) (beVal bytes)

/-- `RandUint8Range` ... `RandUint64Range`, /repo/src/util/rand_util.go:162-166, :174-178, :186-190, :198-202: arithmetic modulo
`2 ^ (8 * w)`, remainder by zero panics. -/
def randUintRange (w : Nat) (min max : Nat) (bytes : Bytes) : Res Nat :=
  let data := randUint bytes
  let d := (max + 2 ^ (8 * w) - min) % 2 ^ (8 * w)
  if d = 0 then .panic else .ok ((data % d + min) % 2 ^ (8 * w))

/-- `RandInt8Range` ... `RandInt64Range`, /repo/src/util/rand_util.go:156-160, :168-172, :180-184, :192-196: two's complement
arithmetic, the remainder has the sign of `data`. -/
def randIntRange (w : Nat) (min max : Int) (bytes : Bytes) : Res Int :=
  let data := randInt w bytes
  let d := Int.bmod (max - min) (2 ^ (8 * w))
  if d = 0 then .panic else .ok (Int.bmod (Int.tmod data d + min) (2 ^ (8 * w)))

/-- `randUint32`, /repo/src/collection/util.go:856-872, which gives a hash table its seed (hash.go:97): four bytes of the random source,
or a panic if the source fails (`none`). -/
def randUint32 : Option Bytes → Res UInt32
  | none => .panic
  | some bytes => .ok (UInt32.ofNat (beVal bytes))

end Poodle
