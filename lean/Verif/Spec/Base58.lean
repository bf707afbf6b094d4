import Verif.Spec.Conv

/-
Specification of Base58.
-/

namespace Poodle.Spec

/-- The characters of Base58: digits and letters without 0, I, O, l. -/
def isBase58 (c : Nat) : Bool :=
  (0x31 ≤ c && c ≤ 0x39) || (0x41 ≤ c && c ≤ 0x5A && c != 0x49 && c != 0x4F) || (0x61 ≤ c && c ≤ 0x7A && c != 0x6C)

/-- The digit denoted by a character: its rank in the alphabet in ASCII order. -/
def digit58 (c : Nat) : Nat := (List.range c).countP isBase58

/-- The characters of a byte string, as digits, most significant first. -/
def digits58 (s : Bytes) : List Nat := s.map fun c => digit58 c.toNat

/-- Number of leading elements equal to `a`. -/
def leading {α : Type} [DecidableEq α] (a : α) (l : List α) : Nat := (l.takeWhile (· = a)).length

/-- `s` is the Base58 text of the bytes `b`: only Base58 characters; one zero digit for each leading zero byte; then the canonical
base 58 digits of the number denoted by the bytes. -/
def IsBase58Of (s b : Bytes) : Prop :=
  (∀ c ∈ s, isBase58 c.toNat = true) ∧
    digits58 s = List.replicate (leading 0 b) 0 ++ (Nat.digits 58 (bigEndian b)).reverse

end Poodle.Spec
