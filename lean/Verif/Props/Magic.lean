import Verif.Model.Magic
import Verif.Props.RecordFormat

/-
Property C228: magic bytes (/repo/src/util/record_util.go:128-135, :348-355, /repo/src/util/value_util.go:123-125, :372-374, :656-663).
-/

namespace Poodle.Props
open Poodle Poodle.Spec

/-! ### C228 The magic byte tells what is there -/

/-- The full claim for loaded records: the magic byte is not the one of objects that are not decoded, and its bits say whether there are a
timestamp and a signature. -/
def MagicTells : Prop := ∀ (buf : Bytes) (r : RecInfo) (n : Nat), decodeRecord buf = .ok (r, n) →
  ∃ m, mappedRecordMagic true r.buf = .ok m ∧ m ≠ 0xff ∧ m.toNat.testBit 2 = r.timestamp.isSome ∧ m.toNat.testBit 1 = r.signature.isSome

/-- C228 is false: this buffer loads, its magic is 0xff, and there is no signature. -/
theorem C228_refuted : ¬ MagicTells := by
  intro h
  obtain ⟨m, h1, h2, -⟩ := h [0xff, 0, 0, 0, 0, 0, 0, 0, 0, 0, 0, 1]
    { buf := [0xff, 0, 0, 0, 0, 0, 0, 0, 0, 0, 0, 1], key := ⟨[], [0, 0, 0, 0, 0, 0, 0, 0, 0, 0, 1]⟩, value := ⟨[0], .prim, 0, []⟩,
      scheme := ⟨[0], .prim, 0, []⟩, timestamp := some 1, signature := none } 12 (by decide +kernel)
  have : mappedRecordMagic true [0xff, 0, 0, 0, 0, 0, 0, 0, 0, 0, 0, 1] = .ok 0xff := by decide +kernel
  simp only at h1
  rw [this] at h1
  exact h2 (Res.ok.inj h1).symm

/-- C228 for loaded records: the magic is the first byte that was read; it announces key, value and scheme; it announces a timestamp exactly
if there is one; and a signature if there is one.  If it announces a signature and there is none, the buffer was too short for one. -/
theorem C228_loaded_partial (buf : Bytes) (hgo : buf.length < 2 ^ 63) (r : RecInfo) (n : Nat) (h : decodeRecord buf = .ok (r, n)) :
    ∃ m, mappedRecordMagic true r.buf = .ok m ∧ buf.head? = some m ∧
      m.toNat.testBit 6 = true ∧ m.toNat.testBit 5 = true ∧ m.toNat.testBit 4 = true ∧
      m.toNat.testBit 2 = r.timestamp.isSome ∧ (r.signature.isSome = true → m.toNat.testBit 1 = true) ∧
      (m.toNat.testBit 1 = true → r.signature = none → buf.length < n + 64) := by
  obtain ⟨m, k, ts, sg, rest, e1, e2, e3, b6, b5, b4, -, -, -, -, -, -, ht, hs⟩ := (C52_format buf hgo r n).mp h
  refine ⟨m, by rw [e2]; rfl, by rw [e1]; rfl, b6, b5, b4, ?_, ?_, ?_⟩
  · split at ht
    · rename_i hb
      obtain ⟨-, t, ht, -⟩ := ht
      rw [hb, ht]; rfl
    · rename_i hb
      rw [ht.2]
      simpa using hb
  · intro hsig
    split at hs
    · rename_i hb
      exact hb.1
    · rw [hs.2] at hsig
      simp at hsig
  · intro hb hsig
    split at hs
    · obtain ⟨_, _, -, -, -, hs⟩ := hs
      rw [hsig] at hs
      simp at hs
    · rename_i hc
      have hl : ¬ 64 ≤ (sg ++ rest).length := fun hl => hc ⟨hb, hl⟩
      obtain ⟨rfl, -⟩ := hs
      rw [e3, e2, e1]
      simp only [List.length_cons, List.length_append, List.length_nil] at hl ⊢
      omega

/-- C228 for records that were made: before they are encoded there is no magic; after, it is the first byte of `Buf`, it is not 0xff, and
its bits say whether there are a timestamp, and a signature with it. -/
theorem C228_made (r : RecordObj) :
    (r.encoded = false → r.magic = .panic) ∧
    (r.encode.2 = .ok () → ∃ m body, r.encode.1.magic = .ok m ∧ r.encode.1.getBuf = .ok (m :: body) ∧ m ≠ 0xff ∧
      m.toNat.testBit 2 = r.timestamp.isSome ∧
      (m.toNat.testBit 1 = true ↔ r.timestamp.isSome = true ∧ r.sigR.isSome = true ∧ r.sigS.isSome = true)) := by
  refine ⟨fun h => by simp [RecordObj.magic, h], fun h => ?_⟩
  rcases he : r.toRec.encode with w | - | -
  · have e : r.encode.1.encoded = true ∧ r.encode.1.buf = w := by simp [RecordObj.encode, he]
    obtain ⟨p, ⟨m, h1, h2, -, -, -, -, h3, h4, -⟩, -, -, -, h5, h6⟩ := C49_layout _ _ _ _ _ _ _ he
    refine ⟨m, p.key.getD [] ++ p.value.getD [] ++ p.scheme.getD [] ++ p.time.getD [] ++ p.signature.getD [], ?_, ?_, ?_, ?_, ?_⟩
    · rw [RecordObj.magic, e.1, e.2, h1]; rfl
    · rw [RecordObj.getBuf, e.1, e.2, h1]; rfl
    · rintro rfl
      exact absurd h2 (by decide)
    · rw [h3, h5, Option.isSome_map]
    · rw [h4, h6, signaturePart]
      split
      · rename_i hc
        simpa using hc
      · rename_i hc
        simpa using hc
  · simp [RecordObj.encode, he] at h
  · simp [RecordObj.encode, he] at h

/-- C228 for primitive values: the magic is the first byte of the encoding, and of what is loaded from it, unless the data are nil, where
the encoding has no bytes and the magic is 0. -/
theorem C228_primitive (data : Slice) (w : Bytes) (h : encodePrimitive data = .ok w) :
    ∃ m, primitiveMagic data = .ok m ∧ (data = none → m = 0 ∧ w = []) ∧
      (data ≠ none → mappedValueMagic w = .ok m ∧ ∀ rest d n, decodeStd (w ++ rest) = .ok (d, n) → mappedValueMagic d.buf = .ok m) := by
  have key : ∀ (m : UInt8) (l rest : Bytes) (d : StdValue) (n : Nat), decodeStd (m :: l ++ rest) = .ok (d, n) →
      mappedValueMagic d.buf = .ok m := by
    intro m l rest d n hd
    obtain ⟨r', h4, -, h2⟩ := (decodeStd_ok_iff _ d n).mp hd
    cases hb : d.buf with
    | nil => rw [hb] at h2; exact (by cases h2)
    | cons a b =>
      rw [hb] at h4
      have := (List.cons.inj h4).1
      rw [this]; rfl
  cases data with
  | none =>
    simp only [encodePrimitive, Res.ok.injEq] at h
    exact ⟨0, rfl, fun _ => ⟨rfl, h.symm⟩, fun hc => absurd rfl hc⟩
  | some d =>
    rw [encodePrimitive] at h
    split at h
    · rename_i h1
      obtain rfl := Res.ok.inj h
      exact ⟨0, by simp [primitiveMagic, h1], by simp, fun _ => ⟨rfl, fun rest d n hd => key 0 [] rest d n hd⟩⟩
    · rename_i h1
      split at h
      · rename_i h2
        obtain rfl := Res.ok.inj h
        exact ⟨1, by rw [primitiveMagic, if_neg h1, if_pos h2], by simp, fun _ => ⟨rfl, fun rest d n hd => key 1 _ rest d n hd⟩⟩
      · rename_i h2
        split at h
        · rename_i h3
          obtain rfl := Res.ok.inj h
          exact ⟨2, by rw [primitiveMagic, if_neg h1, if_neg h2, if_pos h3], by simp,
            fun _ => ⟨rfl, fun rest d n hd => key 2 _ rest d n hd⟩⟩
        · simp at h

example := C228_loaded_partial [0x76, 0, 0, 0, 0, 0, 0, 0, 0, 0, 0, 1] (by decide)
    { buf := [0x76, 0, 0, 0, 0, 0, 0, 0, 0, 0, 0, 1], key := ⟨[], [0, 0, 0, 0, 0, 0, 0, 0, 0, 0, 1]⟩, value := ⟨[0], .prim, 0, []⟩,
      scheme := ⟨[0], .prim, 0, []⟩, timestamp := some 1, signature := none } 12 (by decide +kernel)
example := (C228_made (RecordObj.new.setV (some [0x61])).1).2 (by decide +kernel)
example := C228_primitive (some [0x61]) [1, 1, 0x61] (by decide +kernel)

end Poodle.Props
