import Verif.Model.Conv

/-
Model of /repo/src/util/base58_util.go.  A Go string is its bytes.
-/

namespace Poodle

/-- `alphabet`, /repo/src/util/base58_util.go:7. -/
def b58Alphabet : Bytes := ['1', '2', '3', '4', '5', '6', '7', '8', '9', 'A', 'B', 'C', 'D', 'E', 'F', 'G', 'H', 'J', 'K', 'L', 'M', 'N', 'P', 'Q', 'R', 'S', 'T', 'U', 'V', 'W', 'X', 'Y', 'Z', 'a', 'b', 'c', 'd', 'e', 'f', 'g', 'h', 'i', 'j', 'k', 'm', 'n', 'o', 'p', 'q', 'r', 's', 't', 'u', 'v', 'w', 'x', 'y', 'z'].map fun c => UInt8.ofNat c.toNat

/-- `alphabetIdx0`, /repo/src/util/base58_util.go:9. -/
def b58Idx0 : UInt8 := UInt8.ofNat '1'.toNat

/-- `b58`, /repo/src/util/base58_util.go:12-45. -/
def b58Table : List UInt8 := [
  255, 255, 255, 255, 255, 255, 255, 255,
  255, 255, 255, 255, 255, 255, 255, 255,
  255, 255, 255, 255, 255, 255, 255, 255,
  255, 255, 255, 255, 255, 255, 255, 255,
  255, 255, 255, 255, 255, 255, 255, 255,
  255, 255, 255, 255, 255, 255, 255, 255,
  255, 0, 1, 2, 3, 4, 5, 6,
  7, 8, 255, 255, 255, 255, 255, 255,
  255, 9, 10, 11, 12, 13, 14, 15,
  16, 255, 17, 18, 19, 20, 21, 255,
  22, 23, 24, 25, 26, 27, 28, 29,
  30, 31, 32, 255, 255, 255, 255, 255,
  255, 33, 34, 35, 36, 37, 38, 39,
  40, 41, 42, 43, 255, 44, 45, 46,
  47, 48, 49, 50, 51, 52, 53, 54,
  55, 56, 57, 255, 255, 255, 255, 255,
  255, 255, 255, 255, 255, 255, 255, 255,
  255, 255, 255, 255, 255, 255, 255, 255,
  255, 255, 255, 255, 255, 255, 255, 255,
  255, 255, 255, 255, 255, 255, 255, 255,
  255, 255, 255, 255, 255, 255, 255, 255,
  255, 255, 255, 255, 255, 255, 255, 255,
  255, 255, 255, 255, 255, 255, 255, 255,
  255, 255, 255, 255, 255, 255, 255, 255,
  255, 255, 255, 255, 255, 255, 255, 255,
  255, 255, 255, 255, 255, 255, 255, 255,
  255, 255, 255, 255, 255, 255, 255, 255,
  255, 255, 255, 255, 255, 255, 255, 255,
  255, 255, 255, 255, 255, 255, 255, 255,
  255, 255, 255, 255, 255, 255, 255, 255,
  255, 255, 255, 255, 255, 255, 255, 255,
  255, 255, 255, 255, 255, 255, 255, 255]

/-- `b58[c]`, /repo/src/util/base58_util.go:88; the index is a byte and the array has 256 entries, so it is never out of range. -/
def b58 (c : UInt8) : UInt8 := b58Table.getD c.toNat 255

/-- The division loop, /repo/src/util/base58_util.go:56-61.  The first argument bounds the number of iterations; `x` is enough, as
each iteration divides `x` by 58 (see `b58Digits_fuel`).  The digits are produced least significant first. -/
def b58Digits : Nat → Nat → Bytes
  | 0, _ => []
  | fuel + 1, x => if x > 0 then b58Alphabet.getD (x % 58) 0 :: b58Digits fuel (x / 58) else []

/-- The leading zero loop, /repo/src/util/base58_util.go:64-69: what it appends. -/
def b58Zeros : Bytes → Bytes
  | [] => []
  | i :: b => if i ≠ 0 then [] else b58Idx0 :: b58Zeros b

/-- `Base58Encode`, /repo/src/util/base58_util.go:51-78; the swap loop (72-75) is list reversal. -/
def base58Encode (b : Bytes) : Bytes :=
  let x := beVal b
  (b58Digits x x ++ b58Zeros b).reverse

/-- The multiplication loop, /repo/src/util/base58_util.go:87-96, over the bytes from the last to the first: `answer`, or `none`
for `return nil`. -/
def b58Sum : Bytes → Nat → Nat → Option Nat
  | [], answer, _ => some answer
  | c :: cs, answer, j =>
    let tmp := b58 c
    if tmp = 255 then none else b58Sum cs (answer + j * tmp.toNat) (j * 58)

/-- The leading '1' loop, /repo/src/util/base58_util.go:100-105. -/
def b58NumZeros : Bytes → Nat
  | [] => 0
  | c :: cs => if c ≠ b58Idx0 then 0 else b58NumZeros cs + 1

/-- `Base58Decode`, /repo/src/util/base58_util.go:81-111; `none` is a nil slice. -/
def base58Decode (b : Bytes) : Slice :=
  match b58Sum b.reverse 0 1 with
  | none => none
  | some answer => some (List.replicate (b58NumZeros b) 0 ++ natBytes answer)

end Poodle
