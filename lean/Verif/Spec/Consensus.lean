import Verif.Model.Consensus
import Verif.Spec.Conv

/-
Specification of consensus times and ids.
-/

namespace Poodle.Spec

/-- Lexicographic order on triples of integers. -/
def LexLt3 (a b : Nat × Nat × Nat) : Prop :=
  a.1 < b.1 ∨ (a.1 = b.1 ∧ (a.2.1 < b.2.1 ∨ (a.2.1 = b.2.1 ∧ a.2.2 < b.2.2)))

/-- A field of a consensus id: 32 bytes if its bit is set, nil otherwise. -/
def CidField (present : Bool) (f : Slice) : Prop := (present = true ∧ f.bytes.length = 32 ∧ f ≠ none) ∨ (present = false ∧ f = none)

/-- Bit `i` (0 is the least significant) of a byte. -/
def bit (m : UInt8) (i : Nat) : Bool := m.toNat.testBit i

/-- `buf` starts with the consensus id `c`: one magic byte that is not zero and whose three low bits are zero, then the fields
selected by bits 7, 6, 5, 4 and, for bit 3, the two ends of the shard. -/
structure IsCid (buf : Bytes) (c : ConsensusID) : Prop where
  nonzero : c.magic ≠ 0
  reserved : c.magic.toNat % 8 = 0
  universeId : CidField (bit c.magic 7) c.universeId
  clusterId : CidField (bit c.magic 6) c.clusterId
  federationId : CidField (bit c.magic 5) c.federationId
  serviceId : CidField (bit c.magic 4) c.serviceId
  shardStart : CidField (bit c.magic 3) c.shardStart
  shardEnd : CidField (bit c.magic 3) c.shardEnd
  encoded : c.buf = c.magic :: (c.universeId.bytes ++ c.clusterId.bytes ++ c.federationId.bytes ++ c.serviceId.bytes ++
    c.shardStart.bytes ++ c.shardEnd.bytes)
  pre : c.buf <+: buf

/-- The length announced by the magic byte. -/
def cidLength (m : UInt8) : Nat :=
  1 + 32 * ((bit m 7).toNat + (bit m 6).toNat + (bit m 5).toNat + (bit m 4).toNat + 2 * (bit m 3).toNat)

end Poodle.Spec
