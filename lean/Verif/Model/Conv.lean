import Verif.Model.Basic

/-
Model of the type conversions of /repo/src/collection/util.go:766-850 and of the standard library functions
`encoding/binary.BigEndian` and `math/big.Int.Bytes`/`SetBytes` they call.
-/

namespace Poodle

/-- `binary.BigEndian.PutUint64`/`PutUint32` of `n` into `w` bytes, e.g. /repo/src/collection/util.go:785, :809, :824: the `w` low
order bytes of `n`, most significant first. -/
def beBytes : Nat → Nat → Bytes
  | 0, _ => []
  | w + 1, n => UInt8.ofNat (n / 256 ^ w) :: beBytes w n

/-- `binary.BigEndian.Uint64`/`Uint32` on exactly the bytes given, and `big.Int.SetBytes`,
e.g. /repo/src/collection/util.go:779, :791. -/
def beVal (b : Bytes) : Nat := b.foldl (fun acc x => acc * 256 + x.toNat) 0

/-- `int64(x)` / `int32(x)` of an unsigned integer of `w` bits, /repo/src/collection/util.go:780, :819, :834. -/
def toSigned (w : Nat) (n : Nat) : Int := Int.bmod n (2 ^ w)

/-- `uint64(x)` / `uint32(x)` of a signed integer, /repo/src/collection/util.go:785, :809, :824. -/
def toUnsigned (w : Nat) (x : Int) : Nat := (x % 2 ^ w).toNat

/-- `BytesToTime`, /repo/src/collection/util.go:775-781.  An instant is its Unix time in nanoseconds (`Int64ToTime`, :770-773). -/
def bytesToTime (buf : Bytes) : Res Int :=
  if buf.length < 8 then .err else .ok (toSigned 64 (beVal (buf.take 8)))

/-- `TimeToBytes`, /repo/src/collection/util.go:783-787, on the instant with the given `UnixNano`. -/
def timeToBytes (nano : Int) : Bytes := beBytes 8 (toUnsigned 64 nano)

/-- `big.Int.Bytes`, the big endian bytes of the absolute value without leading zeros, /repo/src/collection/util.go:796. -/
def natBytes (n : Nat) : Bytes := if n = 0 then [] else beBytes (n.log2 / 8 + 1) n

/-- `ByteArrayToBigInt`, /repo/src/collection/util.go:789-793. -/
def byteArrayToBigInt (data : Bytes) : Int := beVal data

/-- `BigIntToByteArray`, /repo/src/collection/util.go:795-805. -/
def bigIntToByteArray (d : Int) : Bytes :=
  let input := natBytes d.natAbs
  if input.length = 32 then input
  else if input.length > 32 then input.drop (input.length - 32)
  else List.replicate (32 - input.length) 0 ++ input

/-- `Int64ToByteArray`, /repo/src/collection/util.go:807-811. -/
def int64ToByteArray (x : Int) : Bytes := beBytes 8 (toUnsigned 64 x)

/-- `ByteArrayToInt64`, /repo/src/collection/util.go:813-820; `binary.Read` reads exactly 8 bytes and fails on shorter input. -/
def byteArrayToInt64 (buf : Bytes) : Int := if buf.length < 8 then 0 else toSigned 64 (beVal (buf.take 8))

/-- `Int32ToByteArray`, /repo/src/collection/util.go:822-826. -/
def int32ToByteArray (x : Int) : Bytes := beBytes 4 (toUnsigned 32 x)

/-- `ByteArrayToInt32`, /repo/src/collection/util.go:828-835. -/
def byteArrayToInt32 (buf : Bytes) : Int := if buf.length < 4 then 0 else toSigned 32 (beVal (buf.take 4))

/-- `Uint32ToByteArray`, /repo/src/collection/util.go:837-841. -/
def uint32ToByteArray (x : Nat) : Bytes := beBytes 4 x

/-- `ByteArrayToUint32`, /repo/src/collection/util.go:843-850. -/
def byteArrayToUint32 (buf : Bytes) : Nat := if buf.length < 4 then 0 else beVal (buf.take 4)

end Poodle
