import Verif.Model.Basic

/-
MurmurHash3_x86_32, written from the published description on 32 bit vectors.
-/

namespace Poodle.Spec
open Poodle

/-- Four bytes as a little endian word. -/
@[irreducible] def word (a b c d : UInt8) : BitVec 32 := d.toBitVec ++ c.toBitVec ++ b.toBitVec ++ a.toBitVec

/-- Scrambling of one word. -/
@[irreducible] def scramble (k : BitVec 32) : BitVec 32 := (k * 0xcc9e2d51#32).rotateLeft 15 * 0x1b873593#32

/-- Mixing a scrambled word into the state. -/
@[irreducible] def mix (h k : BitVec 32) : BitVec 32 := (h ^^^ scramble k).rotateLeft 13 * 5#32 + 0xe6546b64#32

/-- Consume four bytes at a time; the last one to three bytes, padded with zeros, are only scrambled in. -/
def body (h : BitVec 32) : Bytes → BitVec 32
  | a :: b :: c :: d :: rest => body (mix h (word a b c d)) rest
  | [a, b, c] => h ^^^ scramble (word a b c 0)
  | [a, b] => h ^^^ scramble (word a b 0 0)
  | [a] => h ^^^ scramble (word a 0 0 0)
  | [] => h

/-- Final avalanche. -/
def avalanche (h : BitVec 32) : BitVec 32 :=
  let h := (h ^^^ h >>> 16) * 0x85ebca6b#32
  let h := (h ^^^ h >>> 13) * 0xc2b2ae35#32
  h ^^^ h >>> 16

/-- MurmurHash3_x86_32. -/
def murmur3 (seed : BitVec 32) (b : Bytes) : BitVec 32 := avalanche (body seed b ^^^ BitVec.ofNat 32 b.length)

end Poodle.Spec
