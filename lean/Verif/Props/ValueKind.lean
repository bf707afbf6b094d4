import Verif.Model.ValueCopy
import Verif.Lemmas.ValueEnc
import Verif.Props.Codec

/-
Properties C104-C106: nil values, kinds of values and simple values (/repo/src/util/value_util.go).
-/

namespace Poodle.Props
open Poodle Spec

/-! ### C104: IsNil -/

/-- The byte zero alone is the only value that starts with it. -/
theorem wire_zero {m : UInt8} {l : Bytes} {k : VKind} {n : Nat} {c : Bytes} (h : IsStdWire (m :: l) k n c) (hm : m = 0) :
    l = [] ∧ k = .prim ∧ n = 0 ∧ c = [] := by
  subst hm
  cases h with
  | prim m len l content h6 h4 h12 hl hc =>
    cases hl with
    | none => exact ⟨by simpa using hc, rfl, rfl, by simpa using hc⟩
  | array m size len c l content h6 h4 h12 hl hc => cases h6
  | records m size len c l content h6 h4 h12 hl hc => cases h4

/-- C104: a decoded value is nil exactly if its bytes are a single zero byte. -/
theorem C104_decoded (buf : Bytes) (d : StdValue) (n : Nat) (h : decodeStd buf = .ok (d, n)) :
    (CVal.std d).isNil = true ↔ d.buf = [0x00] := by
  obtain ⟨rest, -, -, hw⟩ := (decodeStd_ok_iff _ _ _).mp h
  simp only [CVal.isNil, StdValue.isNil, beq_iff_eq]
  constructor
  · intro h0
    generalize hb : d.buf = b at hw h0
    cases b with
    | nil => simp at h0
    | cons m l =>
      simp only [List.head?_cons, Option.some.injEq] at h0
      rw [h0, (wire_zero hw h0).1]
  · intro h0
    rw [h0]
    rfl

example := C104_decoded [0x01, 1, 0x61, 7] ⟨[0x01, 1, 0x61], .prim, 0, [0x61]⟩ 3 (by decide +kernel)

/-- C104: a value that can be encoded is nil exactly if it is encoded to nothing or to a single zero byte. -/
theorem C104_constructed (v : CVal) (w : Bytes) (h : v.encode = .ok w) : v.isNil = true ↔ w = [] ∨ w = [0x00] := by
  rcases encode_wire h with ⟨rfl, rfl⟩ | ⟨d, rfl, hd⟩
  · simp [CVal.isNil, Slice.bytes]
  have hne := hd.1.ne_nil
  have hz : d.buf = [0x00] → d.kind = .prim ∧ d.size = 0 ∧ d.content = [] := by
    intro e
    have h1 := hd.1
    rw [e] at h1
    exact (wire_zero h1 rfl).2
  cases v with
  | prim s =>
    have hs := hd.2.2.2
    rw [hs] at h
    rw [hs]
    simp only [CVal.isNil, Slice.bytes, Option.getD_some, beq_iff_eq]
    constructor
    · intro h0
      rw [CVal.encode, encodePrimitive] at h
      simp only [if_pos h0, Res.ok.injEq] at h
      exact .inr h.symm
    · rintro (e | e)
      · exact absurd e hne
      · rw [(hz e).2.2]; rfl
  | array es =>
    simp only [CVal.isNil, beq_iff_eq, List.length_eq_zero_iff]
    constructor
    · rintro rfl
      rw [CVal.encode] at h
      simp only [List.length_nil, countHeader, if_pos, Res.bind_ok, encodeVals, withContent, Res.ok.injEq] at h
      exact .inr h.symm
    · rintro (e | e)
      · exact absurd e hne
      · rcases hd.2.2 with ⟨h1, -⟩ | ⟨-, h1, -⟩
        · exact h1
        · rw [(hz e).1] at h1; exact absurd h1 (by simp)
  | records rs =>
    simp only [CVal.isNil, beq_iff_eq, List.length_eq_zero_iff]
    constructor
    · rintro rfl
      rw [CVal.encode] at h
      simp only [List.length_nil, countHeader, if_pos, Res.bind_ok, encodeRecs, withContent, Res.ok.injEq] at h
      exact .inr h.symm
    · rintro (e | e)
      · exact absurd e hne
      · rcases hd.2.2 with ⟨h1, -⟩ | ⟨-, h1, -⟩
        · exact h1
        · rw [(hz e).1] at h1; exact absurd h1 (by simp)
  | simple _ _ => exact hd.2.elim
  | std _ => exact hd.2.elim

example := C104_constructed (.array [.prim (some [7]), .prim (some [])]) [0x41, 2, 4, 1, 1, 7, 0] (by decide +kernel)

/-- What an encoded value decodes to. -/
theorem decoded_of_encode {v : CVal} {w rest : Bytes} {d : StdValue} {n : Nat} (h : v.encode = .ok w) (hv : v ≠ .prim none)
    (hd : decodeStd (w ++ rest) = .ok (d, n)) : d.buf = w ∧ WireOf v d := by
  rcases encode_wire h with ⟨rfl, -⟩ | ⟨e, rfl, he⟩
  · exact absurd rfl hv
  · rw [decodeStd_of_wire he.1] at hd
    simp only [Res.ok.injEq, Prod.mk.injEq] at hd
    rw [← hd.1]
    exact ⟨rfl, he⟩

/-- C104: so being nil survives encoding and decoding. -/
theorem C104_roundtrip (v : CVal) (w rest : Bytes) (d : StdValue) (n : Nat) (h : v.encode = .ok w) (hv : v ≠ .prim none)
    (hd : decodeStd (w ++ rest) = .ok (d, n)) : (CVal.std d).isNil = v.isNil := by
  obtain ⟨h1, h2⟩ := decoded_of_encode h hv hd
  have a := C104_decoded _ d n hd
  have b := C104_constructed v w h
  have hne := h2.1.ne_nil
  rw [h1] at a hne
  rw [Bool.eq_iff_iff, a, b]
  simp [hne]

example : (CVal.array []).encode = .ok [0x00] ∧ (CVal.array []).isNil = true ∧ (CVal.prim (some [7])).encode = .ok [0x01, 1, 7] ∧
    (CVal.prim (some [7])).isNil = false ∧ decodeStd [0x01, 0x00] = .ok (⟨[0x01, 0x00], .prim, 0, []⟩, 2) := by decide +kernel

/-! ### C105: kinds -/

/-- Exactly one of the three kinds. -/
def OneKind (v : CVal) : Prop :=
  (v.isPrimitive = true ∧ v.isValueArray = false ∧ v.isRecordList = false) ∨
    (v.isPrimitive = false ∧ v.isValueArray = true ∧ v.isRecordList = false) ∨
    (v.isPrimitive = false ∧ v.isValueArray = false ∧ v.isRecordList = true)

/-- The full claim of C105: exactly one kind, which survives encoding and decoding. -/
def KindsClear : Prop :=
  ∀ v : CVal, OneKind v ∧ ∀ (w : Bytes) (d : StdValue) (n : Nat), v.encode = .ok w → decodeStd w = .ok (d, n) →
    (CVal.std d).isPrimitive = v.isPrimitive ∧ (CVal.std d).isValueArray = v.isValueArray ∧
      (CVal.std d).isRecordList = v.isRecordList

/-- C105: the three answers are as they should be except for a constructed value array or record list without elements, which also
claims to be a primitive. -/
theorem C105_oneKind_iff_partial (v : CVal) : OneKind v ↔ v ≠ .array [] ∧ v ≠ .records [] := by
  cases v with
  | prim _ => simp [OneKind, CVal.isPrimitive, CVal.isValueArray, CVal.isRecordList]
  | array es => cases es <;> simp [OneKind, CVal.isPrimitive, CVal.isValueArray, CVal.isRecordList, CVal.isNil]
  | records es => cases es <;> simp [OneKind, CVal.isPrimitive, CVal.isValueArray, CVal.isRecordList, CVal.isNil]
  | simple _ _ => simp [OneKind, CVal.isPrimitive, CVal.isValueArray, CVal.isRecordList]
  | std d =>
    cases e : d.kind <;> simp [OneKind, CVal.isPrimitive, CVal.isValueArray, CVal.isRecordList, e]

/-- C105: the decoded value is a primitive exactly if the encoded one said so, and an array or record list exactly if the encoded one
was one with elements. -/
theorem C105_roundtrip_partial (v : CVal) (w rest : Bytes) (d : StdValue) (n : Nat) (h : v.encode = .ok w) (hv : v ≠ .prim none)
    (hd : decodeStd (w ++ rest) = .ok (d, n)) :
    (CVal.std d).isPrimitive = v.isPrimitive ∧ ((CVal.std d).isValueArray = true ↔ v.isValueArray = true ∧ v ≠ .array []) ∧
      ((CVal.std d).isRecordList = true ↔ v.isRecordList = true ∧ v ≠ .records []) := by
  obtain ⟨-, h2⟩ := decoded_of_encode h hv hd
  cases v with
  | prim s => simp [CVal.isPrimitive, CVal.isValueArray, CVal.isRecordList, h2.2.1]
  | array es =>
    rcases h2.2.2 with ⟨rfl, hk, -⟩ | ⟨hne, hk, -⟩
    · simp [CVal.isPrimitive, CVal.isValueArray, CVal.isRecordList, CVal.isNil, hk]
    · simp [CVal.isPrimitive, CVal.isValueArray, CVal.isRecordList, CVal.isNil, hk, hne]
  | records es =>
    rcases h2.2.2 with ⟨rfl, hk, -⟩ | ⟨hne, hk, -⟩
    · simp [CVal.isPrimitive, CVal.isValueArray, CVal.isRecordList, CVal.isNil, hk]
    · simp [CVal.isPrimitive, CVal.isValueArray, CVal.isRecordList, CVal.isNil, hk, hne]
  | simple _ _ => exact h2.2.elim
  | std _ => exact h2.2.elim

example := C105_roundtrip_partial (.array [.prim (some [0x61]), .prim (some [])]) [0x41, 2, 4, 0x01, 1, 0x61, 0x00] [0xff]
  { buf := [0x41, 2, 4, 0x01, 1, 0x61, 0x00], kind := .array, size := 2, content := [0x01, 1, 0x61, 0x00] } 7 (by decide +kernel)
  (by simp) (by decide +kernel)

/-- C105 as stated does not hold. -/
theorem C105_refuted : ¬ KindsClear := fun h => ((C105_oneKind_iff_partial _).mp (h (.array [])).1).1 rfl

example : OneKind (.array [.prim (some [1])]) ∧ (CVal.array [.prim (some [1])]).encode = .ok [0x41, 1, 3, 0x01, 1, 1] ∧
    decodeStd [0x41, 1, 3, 0x01, 1, 1] = .ok (⟨[0x41, 1, 3, 0x01, 1, 1], .array, 1, [0x01, 1, 1]⟩, 6) := by
  refine ⟨?_, by decide +kernel, by decide +kernel⟩
  simp [C105_oneKind_iff_partial]

/-! ### C106: simple values -/

/-- C106: a simple value is decoded from a varchar, whatever follows; `Buf()` is exactly the varchar. -/
theorem C106_roundtrip (d rest : Bytes) (hgo : (encodeVarchar d ++ rest).length < 2 ^ 63) :
    decodeSimple (encodeVarchar d ++ rest) = .ok (d, encodeVarchar d, (encodeVarchar d).length) := by
  unfold decodeSimple
  rw [C01_varchar_roundtrip d rest hgo, Res.bind_ok]
  simp only [List.take_left]

example := C106_roundtrip [104, 105] [1, 2, 3] (by decide +kernel)

/-- C106: exactly which buffers decode to which simple value: a length, the content, and anything; `Buf()` are the first two. -/
theorem C106_decode_iff (buf : Bytes) (hne : buf ≠ []) (hgo : buf.length < 2 ^ 63) (content b : Bytes) (n : Nat) :
    decodeSimple buf = .ok (content, b, n) ↔
      ∃ p rest, buf = p ++ content ++ rest ∧ IsUvarint p content.length ∧ p.length ≤ 10 ∧ b = p ++ content ∧ n = b.length := by
  unfold decodeSimple
  constructor
  · intro h
    obtain ⟨⟨d, m⟩, hd, h⟩ := Res.bind_eq_ok.mp h
    simp only [Res.ok.injEq, Prod.mk.injEq] at h
    obtain ⟨rfl, rfl, rfl⟩ := h
    obtain ⟨p, rest, h1, h2, h3, h4⟩ := (C02_decodeVarchar_ok_iff buf hne hgo d m).mp hd
    have e : buf.take m = p ++ d := by
      rw [h1, h4, ← List.length_append, List.take_left]
    refine ⟨p, rest, h1, h2, h3, e, ?_⟩
    rw [e, List.length_append, h4]
  · rintro ⟨p, rest, h1, h2, h3, rfl, rfl⟩
    rw [(C02_decodeVarchar_ok_iff buf hne hgo content (p.length + content.length)).mpr ⟨p, rest, h1, h2, h3, rfl⟩, Res.bind_ok]
    simp only [← List.length_append]
    rw [h1, List.take_left]

example := C106_decode_iff [2, 104, 105, 7] (by decide) (by decide) [104, 105] [2, 104, 105] 3

/-- C106: a decoded simple value is nil exactly if its bytes are a length of zero. -/
theorem C106_isNil (buf : Bytes) (hne : buf ≠ []) (hgo : buf.length < 2 ^ 63) (content b : Bytes) (n : Nat)
    (h : decodeSimple buf = .ok (content, b, n)) : (CVal.simple content b).isNil = true ↔ IsUvarint b 0 := by
  obtain ⟨p, rest, h1, h2, h3, rfl, rfl⟩ := (C106_decode_iff buf hne hgo content b n).mp h
  simp only [CVal.isNil, beq_iff_eq, List.length_eq_zero_iff]
  constructor
  · rintro rfl
    simpa using h2
  · intro h0
    have := (h2.prefix_unique h0 (r := content) (r' := []) (by simp)).2
    exact List.length_eq_zero_iff.mp this

example : decodeSimple [2, 0x61, 0x62, 9] = .ok ([0x61, 0x62], [2, 0x61, 0x62], 3) ∧
    (encodeVarchar [0x61, 0x62] ++ [9]).length < 2 ^ 63 := by decide +kernel

end Poodle.Props
