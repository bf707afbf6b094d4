import Verif.Model.Basic

/-
Model of the standard library function `hash/crc32.ChecksumIEEE` (reflected polynomial 0xEDB88320), as used by
/repo/src/util/lc_util.go:238, :322, :361, :368 and /repo/src/pdb/sstable.go:178, :225.
-/

namespace Poodle

/-- One bit of the CRC-32 division (`hash/crc32`, simple table generation), called from /repo/src/util/lc_util.go:238. -/
def crcBit (s : BitVec 32) : BitVec 32 := if s.getLsbD 0 then (s >>> 1) ^^^ 0xEDB88320#32 else s >>> 1

/-- One byte of the CRC-32 division, called from /repo/src/util/lc_util.go:238. -/
def crcByte (s : BitVec 32) (b : UInt8) : BitVec 32 :=
  crcBit (crcBit (crcBit (crcBit (crcBit (crcBit (crcBit (crcBit (s ^^^ b.toBitVec.setWidth 32))))))))

/-- `crc32.ChecksumIEEE(data)`, /repo/src/util/lc_util.go:238. -/
def crc32 (data : Bytes) : BitVec 32 := ~~~ (data.foldl crcByte 0xFFFFFFFF#32)

end Poodle
