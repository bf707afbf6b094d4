import Verif.Model.Basic

/-
Model of /repo/src/collection/hash.go:290-351 (Murmur hash) on a little endian machine.
-/

namespace Poodle

/-- The `i`-th element of the `[]uint32` view of `b`, /repo/src/collection/hash.go:312-317: four bytes of memory read as a
little endian word. -/
def murmurBlock (b : Bytes) (i : Nat) : UInt32 :=
  UInt32.ofNat ((b.getD (4 * i) 0).toNat + 2 ^ 8 * (b.getD (4 * i + 1) 0).toNat + 2 ^ 16 * (b.getD (4 * i + 2) 0).toNat
    + 2 ^ 24 * (b.getD (4 * i + 3) 0).toNat)

/-- `k *= c1; k = (k << r1Left) | (k >> r1Right); k *= c2`, /repo/src/collection/hash.go:319-321 and :338-340. -/
def murmurK (k : UInt32) : UInt32 :=
  let k := k * 0xcc9e2d51
  let k := (k <<< 15) ||| (k >>> 17)
  k * 0x1b873593

/-- One iteration of the block loop, /repo/src/collection/hash.go:318-325. -/
def murmurStep (h k : UInt32) : UInt32 :=
  let h := h ^^^ murmurK k
  let h := (h <<< 13) ||| (h >>> 19)
  h * 5 + 0xe6546b64

/-- `MurmurSeed.Hash`, /repo/src/collection/hash.go:308-351. -/
def murmurHash (seed : UInt32) (b : Bytes) : UInt32 :=
  let l := b.length
  let numBlocks := l / 4
  let h := ((List.range numBlocks).map (murmurBlock b)).foldl murmurStep seed
  let ntail := l % 4
  let itail := l - ntail
  let byte (i : Nat) : UInt32 := UInt32.ofNat (b.getD i 0).toNat
  let k : UInt32 := 0
  let k := if ntail = 3 then k ^^^ (byte (itail + 2) <<< 16) else k
  let k := if ntail = 3 ∨ ntail = 2 then k ^^^ (byte (itail + 1) <<< 8) else k
  let h := if ntail = 3 ∨ ntail = 2 ∨ ntail = 1 then h ^^^ murmurK (k ^^^ byte itail) else h
  let h := h ^^^ UInt32.ofNat l
  let h := h ^^^ (h >>> 16)
  let h := h * 0x85ebca6b
  let h := h ^^^ (h >>> 13)
  let h := h * 0xc2b2ae35
  h ^^^ (h >>> 16)

end Poodle
