import Verif.Model.KeyFile
import Verif.Spec.Conv

/-
Specification of key files: hexadecimal text, and the file a path leads to.
-/

namespace Poodle.Spec

/-- `c` is a hexadecimal digit (upper or lower case) of value `v`. -/
def IsHexDigit (c : UInt8) (v : Nat) : Prop :=
  "0123456789ABCDEF".toList[v]?.map (fun x => UInt8.ofNat x.toNat) = some c ∨
  "0123456789abcdef".toList[v]?.map (fun x => UInt8.ofNat x.toNat) = some c

/-- `text` is a hexadecimal dump of `bytes`. -/
inductive IsHexOf : Bytes → Bytes → Prop
  | nil : IsHexOf [] []
  | cons (a b x : UInt8) (text bytes : Bytes) : IsHexDigit a (x.toNat / 16) → IsHexDigit b (x.toNat % 16) → IsHexOf text bytes →
      IsHexOf (a :: b :: text) (x :: bytes)

/-- The components of a path: maximal runs of characters other than '/'. -/
def components : Path → List Path
  | [] => [[]]
  | c :: p =>
    match components p with
    | [] => [[c]]
    | x :: xs => if c = '/' then [] :: x :: xs else (c :: x) :: xs

/-- Following a component from a directory given by its chain of names, innermost first: empty components and "." stay, ".." goes
up. -/
def follow (dir : List Path) (c : Path) : List Path :=
  if c = [] ∨ c = ['.'] then dir else if c = ['.', '.'] then dir.tail else c :: dir

/-- The file an absolute path leads to (without symbolic links), as chain of names from the root, innermost first. -/
def location (p : Path) : List Path := (components p).foldl follow []

end Poodle.Spec
