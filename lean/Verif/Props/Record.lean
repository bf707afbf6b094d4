import Verif.Spec.Record
import Verif.Lemmas.ValueHeap
import Verif.Lemmas.Conv
import Verif.Props.Codec
import Verif.Props.Key

/-
Properties C49-C54: records (/repo/src/util/record_util.go).
-/

namespace Poodle.Props
open Poodle Spec

/-! ### C49: layout -/

theorem recKeyPart_ok {k : Option KeyObj} {m : UInt8} {b : Bytes} (h : recKeyPart k = .ok (m, b)) :
    ∃ o, IsKeyPart k o ∧ b = o.getD [] ∧ m = if o.isSome then 64 else 0 := by
  unfold recKeyPart at h
  cases k with
  | none => cases h; exact ⟨none, rfl, rfl, rfl⟩
  | some k =>
    simp only at h
    by_cases he : k.isEmpty
    · rw [if_pos he] at h
      cases h
      exact ⟨none, by simp [IsKeyPart, he], rfl, rfl⟩
    · rw [if_neg he] at h
      obtain ⟨w, h1, h⟩ := Res.bind_eq_ok.mp h
      simp only [Res.ok.injEq, Prod.mk.injEq] at h
      obtain ⟨rfl, rfl⟩ := h
      exact ⟨some _, by simp only [IsKeyPart]; rw [if_neg he]; exact ⟨_, h1, rfl⟩, rfl, rfl⟩

theorem recValuePart_ok {bit : UInt8} {v : Option CVal} {m : UInt8} {b : Bytes} (h : recValuePart bit v = .ok (m, b)) :
    ∃ o, IsValuePart v o ∧ b = o.getD [] ∧ m = if o.isSome then (0x01 : UInt8) <<< bit else 0 := by
  cases v with
  | none => rw [recValuePart] at h; cases h; exact ⟨none, rfl, rfl, rfl⟩
  | some v =>
    rw [recValuePart] at h
    by_cases he : v.isNil
    · rw [if_pos he] at h
      cases h
      exact ⟨none, by simp [IsValuePart, he], rfl, rfl⟩
    · rw [if_neg he] at h
      obtain ⟨w, h1, h⟩ := Res.bind_eq_ok.mp h
      simp only [Res.ok.injEq, Prod.mk.injEq] at h
      obtain ⟨rfl, rfl⟩ := h
      exact ⟨some _, by simp only [IsValuePart]; rw [if_neg he]; exact ⟨_, h1, rfl⟩, rfl, rfl⟩

/-- The bytes of the two halves of a signature, if both are there and there is a timestamp. -/
def signaturePart (t r s : Option Int) : Option Bytes :=
  if t.isSome ∧ r.isSome ∧ s.isSome then some (bigIntToByteArray (r.getD 0) ++ bigIntToByteArray (s.getD 0)) else none

theorem timePart_eq (t r s : Option Int) :
    timePart t r s = ((if t.isSome then 4 else 0) ||| (if (signaturePart t r s).isSome then 2 else 0),
      (t.map timeToBytes).getD [] ++ (signaturePart t r s).getD []) := by
  cases t <;> cases r <;> cases s <;> simp [timePart, signaturePart] <;> decide +kernel

/-- C49: the encoding of a record is the magic byte and its present components in order: each component is its own encoding. -/
theorem C49_layout (key : Option KeyObj) (value scheme : Option CVal) (t r s : Option Int) (w : Bytes)
    (h : (CRec.record key value scheme t r s).encode = .ok w) :
    ∃ p : RecParts, RecLayout p w ∧ IsKeyPart key p.key ∧ IsValuePart value p.value ∧ IsValuePart scheme p.scheme ∧
      p.time = t.map timeToBytes ∧ p.signature = signaturePart t r s := by
  rw [CRec.encode] at h
  obtain ⟨⟨m1, b1⟩, h1, h⟩ := Res.bind_eq_ok.mp h
  obtain ⟨⟨m2, b2⟩, h2, h⟩ := Res.bind_eq_ok.mp h
  obtain ⟨⟨m3, b3⟩, h3, h⟩ := Res.bind_eq_ok.mp h
  obtain ⟨o1, p1, rfl, rfl⟩ := recKeyPart_ok h1
  obtain ⟨o2, p2, rfl, rfl⟩ := recValuePart_ok h2
  obtain ⟨o3, p3, rfl, rfl⟩ := recValuePart_ok h3
  rw [timePart_eq] at h
  simp only [Res.ok.injEq] at h
  refine ⟨⟨o1, o2, o3, t.map timeToBytes, signaturePart t r s⟩, ⟨(if o1.isSome then 64 else 0) |||
      (if o2.isSome then 32 else 0) ||| (if o3.isSome then 16 else 0) ||| (if t.isSome then 4 else 0) |||
      (if (signaturePart t r s).isSome then 2 else 0), ?_, ?_⟩, p1, p2, p3, rfl, rfl⟩
  · rw [← h]
    simp only [List.append_assoc]
    congr 1
    generalize (signaturePart t r s).isSome = c5
    generalize t.isSome = c4
    generalize o3.isSome = c3
    generalize o2.isSome = c2
    generalize o1.isSome = c1
    revert c1 c2 c3 c4 c5
    decide +kernel
  · simp only [Option.isSome_map]
    generalize (signaturePart t r s).isSome = c5
    generalize t.isSome = c4
    generalize o3.isSome = c3
    generalize o2.isSome = c2
    generalize o1.isSome = c1
    revert c1 c2 c3 c4 c5
    decide +kernel

example : (CRec.record (some (.key (newSimpleKey (some [0x6b])))) (some (.prim (some [0x76]))) none (some 1) none (some 5)).encode =
    .ok [0x64, 1, 1, 0x6b, 0x01, 1, 0x76, 0, 0, 0, 0, 0, 0, 0, 1] := by decide +kernel

/-! ### C53: signatures -/

/-- C53: the signature bit is set exactly if a timestamp and both halves are there. -/
theorem C53_signature_iff (key : Option KeyObj) (value scheme : Option CVal) (t r s : Option Int) (m : UInt8) (body : Bytes)
    (h : (CRec.record key value scheme t r s).encode = .ok (m :: body)) :
    m.toNat.testBit 1 = true ↔ t.isSome ∧ r.isSome ∧ s.isSome := by
  obtain ⟨p, ⟨m', hw, -, -, -, -, -, -, hb, -⟩, -, -, -, -, hs⟩ := C49_layout _ _ _ _ _ _ _ h
  have : m' = m := by
    have := congrArg List.head? hw
    simpa using this.symm
  subst this
  rw [hb, hs, signaturePart]
  split <;> simp_all

example := C53_signature_iff none none none (some 7) (some 1) (some 2) 0x06
  (timeToBytes 7 ++ List.replicate 31 0 ++ [1] ++ List.replicate 31 0 ++ [2]) (by decide +kernel)

/-- C53: in that case the record ends with the 8 bytes of the timestamp and the two times 32 bytes of the signature; otherwise the
encoding is the one of the record without the signature. -/
theorem C53_signature_bytes (key : Option KeyObj) (value scheme : Option CVal) (t r s : Option Int) (w : Bytes)
    (h : (CRec.record key value scheme t r s).encode = .ok w) :
    (∀ t' r' s', t = some t' → r = some r' → s = some s' → ∃ pre ts R S : Bytes, w = pre ++ ts ++ R ++ S ∧ ts.length = 8 ∧
      R.length = 32 ∧ S.length = 32 ∧ ts = timeToBytes t' ∧ R = bigIntToByteArray r' ∧ S = bigIntToByteArray s') ∧
    (¬ (t.isSome ∧ r.isSome ∧ s.isSome) → (CRec.record key value scheme t none none).encode = .ok w) := by
  constructor
  · rintro t' r' s' rfl rfl rfl
    obtain ⟨p, ⟨m, hw, -⟩, -, -, -, ht, hs⟩ := C49_layout _ _ _ _ _ _ _ h
    refine ⟨m :: (p.key.getD [] ++ p.value.getD [] ++ p.scheme.getD []), timeToBytes t', bigIntToByteArray r', bigIntToByteArray s',
      ?_, beBytes_length _ _, bigIntToByteArray_length _, bigIntToByteArray_length _, rfl, rfl, rfl⟩
    rw [hw, ht, hs]
    simp [signaturePart]
  · intro hn
    have e : timePart t r s = timePart t none none := by
      rw [timePart_eq, timePart_eq]
      have e1 : signaturePart t r s = none := by rw [signaturePart, if_neg hn]
      have e2 : signaturePart t none none = none := by simp [signaturePart]
      rw [e1, e2]
    rw [CRec.encode] at h ⊢
    rw [e] at h
    exact h

example : (CRec.record none none none (some 7) (some 1) (some 2)).encode =
    .ok (0x06 :: (timeToBytes 7 ++ List.replicate 31 0 ++ [1] ++ List.replicate 31 0 ++ [2])) := by decide +kernel

/-! ### C52: decoding is exact -/

/-- C52: the consumed bytes lie within the buffer and are `Buf()`. -/
theorem C52_exact (buf : Bytes) (r : RecInfo) (n : Nat) (h : decodeRecord buf = .ok (r, n)) :
    n ≤ buf.length ∧ r.buf = buf.take n ∧ 1 ≤ n := by
  obtain ⟨h1, h2, h3, -⟩ := decodeRecord_ok h
  exact ⟨h2, h3, h1⟩

example : decodeRecord [0x70, 0x00, 0x01, 1, 0x61, 0x00, 0xff] =
    .ok ({ buf := [0x70, 0x00, 0x01, 1, 0x61, 0x00], key := { keys := [], buf := [0x00, 0x01, 1, 0x61, 0x00, 0xff] },
           value := { buf := [0x01, 1, 0x61], kind := .prim, size := 0, content := [0x61] },
           scheme := { buf := [0x00], kind := .prim, size := 0, content := [] }, timestamp := none, signature := none }, 6) := by
  decide +kernel

/-! ### C50: round trip -/

theorem goByte_head (m : UInt8) (body : Bytes) : goByte (m :: body) 0 = .ok m := rfl

/-- C50: a record that was decoded never has a key. -/
theorem C50_decoded_key_empty_partial (buf : Bytes) (r : RecInfo) (n : Nat) (h : decodeRecord buf = .ok (r, n)) : r.key.keys = [] := by
  by_contra hne
  cases buf with
  | nil => simp [decodeRecord] at h
  | cons m body =>
    unfold decodeRecord at h
    rw [if_neg (by simp), goByte_head, Res.bind_ok] at h
    by_cases hb : (m >>> 6) &&& 0x01 = 0
    · rw [if_pos hb] at h; exact absurd h (by simp)
    rw [if_neg hb] at h
    obtain ⟨⟨k, kn⟩, hk, h⟩ := Res.bind_eq_ok.mp h
    simp only at h
    split at h
    · exact absurd h (by simp)
    obtain ⟨⟨v, p1⟩, h1, h⟩ := Res.bind_eq_ok.mp h
    obtain ⟨⟨s, p2⟩, h2, h⟩ := Res.bind_eq_ok.mp h
    obtain ⟨⟨ts, p3⟩, h3, h⟩ := Res.bind_eq_ok.mp h
    obtain ⟨⟨sg, p4⟩, h4, h⟩ := Res.bind_eq_ok.mp h
    obtain ⟨b, h5, h⟩ := Res.bind_eq_ok.mp h
    cases h
    simp only at hne
    simp only [List.drop_succ_cons, List.drop_zero] at hk
    have hbuf := (C10_mappedKey_buf_partial body k kn hk).1
    rw [if_neg hne] at hbuf
    rw [hbuf] at h1
    obtain ⟨-, q2, q3, -, -, q4, -⟩ := decodeRecPart_ok h1
    have := List.length_pos_iff.mpr q3.ne_nil
    simp only [List.length_cons] at q2
    omega

example := C50_decoded_key_empty_partial [0x70, 0x00, 0x01, 1, 0x61, 0x00, 0xff] _ 6 rfl

/-- A key that can occur in a program: mapped keys come from decoding. -/
def RealKey (k : Option KeyObj) : Prop := ∀ m, k = some (.mapped m) → ∃ buf n, newMappedKey buf = .ok (m, n)

/-- Same contents. -/
def SameRecord (key : Option KeyObj) (value scheme : Option CVal) (t r s : Option Int) (d : RecInfo) : Prop :=
  d.key.keys.map Slice.bytes = (key.elim [] KeyObj.subKeys).map Slice.bytes ∧ IsValuePart value (some d.value.buf) ∧
    IsValuePart scheme (some d.scheme.buf) ∧ d.timestamp = t ∧ d.signature.map Prod.fst = r ∧ d.signature.map Prod.snd = s

/-- The full claim of C50. -/
def RecordRoundTrip : Prop :=
  ∀ (key : Option KeyObj) (value scheme : Option CVal) (t r s : Option Int) (w : Bytes), RealKey key →
    (CRec.record key value scheme t r s).encode = .ok w →
    ∃ d n, decodeRecord w = .ok (d, n) ∧ SameRecord key value scheme t r s d

theorem decodeSubKeys_length : ∀ (n : Nat) (buf : Bytes) (ks : List Slice) (m : Nat), decodeSubKeys n buf = .ok (ks, m) →
    ks.length = n
  | 0, buf, ks, m, h => by rw [decodeSubKeys] at h; cases h; rfl
  | n + 1, buf, ks, m, h => by
    rw [decodeSubKeys] at h
    obtain ⟨⟨d, len⟩, -, h⟩ := Res.bind_eq_ok.mp h
    obtain ⟨⟨ds, m'⟩, h2, h⟩ := Res.bind_eq_ok.mp h
    cases h
    simp [decodeSubKeys_length n _ _ _ h2]

theorem newMappedKey_count {buf : Bytes} {m : MappedKey} {n : Nat} (h : newMappedKey buf = .ok (m, n)) :
    m.buf = buf ∧ ∃ len, decodeUvarint64 buf = .ok (m.keys.length, len) := by
  unfold newMappedKey at h
  obtain ⟨⟨a, b⟩, h1, h⟩ := Res.bind_eq_ok.mp h
  simp only at h
  split at h
  · exact absurd h (by simp)
  · obtain ⟨⟨ks, j⟩, hk, h⟩ := Res.bind_eq_ok.mp h
    cases h
    exact ⟨rfl, b, by rw [h1, decodeSubKeys_length _ _ _ _ hk]⟩

theorem keyPartBytes_key (k : Key) :
    keyPartBytes (.key k) = if (keyBytes k.keys).length ≤ maxKeyLength then .ok (keyBytes k.keys) else .err := by
  have e : keyPartBytes (.key k) = if k.encode.2 then (KeyObj.key k.encode.1).getBuf else .err := rfl
  rw [e, key_encode_eq]
  split <;> simp [KeyObj.getBuf, Key.getBuf, Slice.bytes]

/-- A key that is written is not read back as an empty key. -/
theorem key_not_empty {k : KeyObj} (hr : RealKey (some k)) (hne : k.isEmpty = false) {b rest : Bytes} (hb : keyPartBytes k = .ok b)
    (hgo : (b ++ rest).length < 2 ^ 63) {m : MappedKey} {n : Nat} (h : newMappedKey (b ++ rest) = .ok (m, n)) : m.keys ≠ [] := by
  obtain ⟨-, len, hc⟩ := newMappedKey_count h
  intro hm
  rw [hm] at hc
  simp only [List.length_nil] at hc
  have key : ∀ (p q : Bytes) (v : Nat), b = p ++ q → IsUvarint p v → p.length ≤ 10 → v < 2 ^ 64 → v ≠ 0 → False := by
    intro p q v hp h1 h2 h3 h4
    subst hp
    rw [List.append_assoc] at hc hgo
    rw [decodeUvarint64_prefix h1 h2 h3 hgo] at hc
    split at hc
    · exact absurd hc (by simp)
    · simp only [Res.ok.injEq, Prod.mk.injEq] at hc
      exact h4 hc.1
  cases k with
  | empty => simp [KeyObj.isEmpty] at hne
  | key k =>
    rw [keyPartBytes_key] at hb
    by_cases hl : (keyBytes k.keys).length ≤ maxKeyLength
    · rw [if_pos hl] at hb
      simp only [Res.ok.injEq] at hb
      have hflat : (flatKeys k.keys).length ≤ maxKeyLength := by
        simp only [keyBytes, List.length_append] at hl; omega
      have hmk : maxKeyLength < 2 ^ 63 := by decide
      have hks := length_le_flat k.keys fun s hs => Nat.lt_of_le_of_lt (flat_bound hflat s hs) (by omega)
      obtain ⟨h1, h2, -⟩ := putUvarint_spec (x := k.keys.length) (by omega)
      refine key (putUvarint k.keys.length) (flatKeys k.keys) k.keys.length ?_ h1 h2 (by omega) ?_
      · rw [← hb]; simp [keyBytes, encodeUvarint64]
      · intro h0
        simp [KeyObj.isEmpty, List.length_eq_zero_iff.mp h0] at hne
    · rw [if_neg hl] at hb; simp at hb
  | mapped mk =>
    obtain ⟨buf, n', hmk⟩ := hr mk rfl
    obtain ⟨e1, len', hc'⟩ := newMappedKey_count hmk
    simp only [KeyObj.isEmpty, MappedKey.isEmpty, Bool.or_eq_false_iff] at hne
    have hb' : b = buf := by
      simp only [keyPartBytes, KeyObj.encode, if_true, KeyObj.getBuf, MappedKey.getBuf, MappedKey.isEmpty, hne.1, hne.2,
        Bool.or_self, Bool.false_eq_true, if_false, Res.ok.injEq] at hb
      rw [← hb, e1]
    subst hb'
    have hbne : b ≠ [] := by
      rintro rfl
      rw [e1] at hne
      simp at hne
    obtain ⟨p, q, h1, h2, h3, h4, -⟩ := (C04_decodeUvarint64_ok_iff_partial b hbne (by
      simp only [List.length_append] at hgo; omega) _ _).mp hc'
    refine key p q _ h1 h2 h3 h4 ?_
    intro h0
    simp [List.length_eq_zero_iff.mp h0] at hne

theorem bit6 (m : UInt8) : (m >>> 6) &&& 0x01 = 0 ↔ m.toNat.testBit 6 = false := by
  refine forall_u8 (P := fun m => (m >>> 6) &&& 0x01 = 0 ↔ m.toNat.testBit 6 = false) ?_ m
  decide +kernel

/-- C50: nothing that a record was encoded to can be decoded again. -/
theorem C50_never_decodes_partial (key : Option KeyObj) (value scheme : Option CVal) (t r s : Option Int) (w : Bytes)
    (hk : RealKey key) (h : (CRec.record key value scheme t r s).encode = .ok w) (hgo : w.length < 2 ^ 63) (d : RecInfo) (n : Nat) :
    decodeRecord w ≠ .ok (d, n) := by
  intro hd
  have hempty := C50_decoded_key_empty_partial w d n hd
  obtain ⟨p, ⟨m, hw, -, hb6, -⟩, hkp, -⟩ := C49_layout _ _ _ _ _ _ _ h
  rw [hw] at hd
  unfold decodeRecord at hd
  rw [if_neg (by simp), goByte_head, Res.bind_ok] at hd
  by_cases hb : (m >>> 6) &&& 0x01 = 0
  · rw [if_pos hb] at hd; exact absurd hd (by simp)
  rw [if_neg hb] at hd
  obtain ⟨⟨k, kn⟩, hk', hd⟩ := Res.bind_eq_ok.mp hd
  simp only at hd
  split at hd
  · exact absurd hd (by simp)
  obtain ⟨⟨v, p1⟩, h1, hd⟩ := Res.bind_eq_ok.mp hd
  obtain ⟨⟨s', p2⟩, h2, hd⟩ := Res.bind_eq_ok.mp hd
  obtain ⟨⟨ts, p3⟩, h3, hd⟩ := Res.bind_eq_ok.mp hd
  obtain ⟨⟨sg, p4⟩, h4, hd⟩ := Res.bind_eq_ok.mp hd
  obtain ⟨b, h5, hd⟩ := Res.bind_eq_ok.mp hd
  cases hd
  simp only at hempty
  have hsome : p.key.isSome = true := by
    rw [← hb6]
    rw [bit6] at hb
    simpa using hb
  cases key with
  | none => simp [IsKeyPart] at hkp; simp [hkp] at hsome
  | some ko =>
    simp only [IsKeyPart] at hkp
    by_cases he : ko.isEmpty = true
    · rw [if_pos he] at hkp; simp [hkp] at hsome
    · rw [if_neg he] at hkp
      obtain ⟨kb, hkb, hpk⟩ := hkp
      rw [hpk] at hk' hw
      simp only [List.drop_succ_cons, List.drop_zero, Option.getD_some, List.append_assoc] at hk' hw
      refine key_not_empty hk (by simpa using he) hkb ?_ hk' hempty
      rw [hw, List.length_cons] at hgo
      omega

example := C50_never_decodes_partial (some (.key (newSimpleKey (some [0x6b])))) (some (.prim (some [0x76]))) (some (.prim (some [0x73]))) none none none
  [0x70, 1, 1, 0x6b, 0x01, 1, 0x76, 0x01, 1, 0x73] (by simp [RealKey]) (by decide +kernel) (by decide)

/-- C50 as stated does not hold. -/
theorem C50_refuted : ¬ RecordRoundTrip := by
  intro h
  have hk : RealKey (some (.key (newSimpleKey (some [0x6b])))) := by intro m hm; simp at hm
  obtain ⟨d, n, hd, -⟩ := h (some (.key (newSimpleKey (some [0x6b])))) (some (.prim (some [0x76]))) (some (.prim (some [0x73]))) none none
    none [0x70, 1, 1, 0x6b, 0x01, 1, 0x76, 0x01, 1, 0x73] hk (by decide +kernel)
  exact C50_never_decodes_partial (some (.key (newSimpleKey (some [0x6b])))) (some (.prim (some [0x76]))) (some (.prim (some [0x73])))
    none none none _ hk (by decide +kernel) (by decide) d n hd

example : (CRec.record (some (.key (newSimpleKey (some [0x6b])))) (some (.prim (some [0x76]))) (some (.prim (some [0x73]))) none none
    none).encode = .ok [0x70, 1, 1, 0x6b, 0x01, 1, 0x76, 0x01, 1, 0x73] := by decide +kernel

/-! ### C51: panics -/

/-- The full claim of C51. -/
def RecordDecodeNoPanic : Prop := ∀ buf : Bytes, decodeRecord buf ≠ .panic

/-- C51 as stated does not hold: a record that does not announce a key crashes the decoder. -/
theorem C51_refuted : ¬ RecordDecodeNoPanic := by
  intro h
  exact h [0x00] (by decide +kernel)

theorem decodeRecPart_panic_iff (buf : Bytes) (bit : UInt8) (limit pos : Nat) :
    decodeRecPart buf bit limit pos = .panic ↔ pos ≤ buf.length ∧ bit = 0 := by
  unfold decodeRecPart
  by_cases h1 : buf.length < pos
  · rw [if_pos h1]; constructor
    · intro h; exact absurd h (by simp)
    · rintro ⟨h, -⟩; omega
  rw [if_neg h1]
  by_cases h2 : bit ≠ 0
  · rw [if_pos h2]
    constructor
    · intro h
      rcases hd : decodeStd (buf.drop pos) with ⟨v, n⟩ | - | -
      · rw [hd] at h
        simp only [Res.bind_ok] at h
        split at h <;> exact absurd h (by simp)
      · rw [hd] at h; exact absurd h (by simp)
      · exact absurd hd (decodeStd_ne_panic _)
    · rintro ⟨-, h⟩; exact absurd h h2
  · rw [if_neg h2]
    push Not at h2
    exact ⟨fun _ => ⟨by omega, h2⟩, fun _ => rfl⟩

theorem decodeRecTime_no_panic {buf : Bytes} {bit : UInt8} {pos : Nat} (hp : pos ≤ buf.length) :
    decodeRecTime buf bit pos = .err ∨ ∃ t pos', decodeRecTime buf bit pos = .ok (t, pos') ∧ pos' ≤ buf.length := by
  unfold decodeRecTime
  split
  · rw [if_neg (by omega), bytesToTime]
    by_cases hl : (buf.drop pos).length < 8
    · rw [if_pos hl]; left; rfl
    · rw [if_neg hl]
      right
      rw [List.length_drop] at hl
      exact ⟨_, _, rfl, by omega⟩
  · right; exact ⟨_, _, rfl, hp⟩

theorem goSlice_ok {buf : Bytes} {lo hi : Nat} (h1 : lo ≤ hi) (h2 : hi ≤ buf.length) : ∃ b, goSlice buf lo hi = .ok b := by
  unfold goSlice
  rw [if_pos (by omega)]
  exact ⟨_, rfl⟩

theorem decodeRecSig_no_panic {buf : Bytes} {bit : UInt8} {pos : Nat} (hp : pos ≤ buf.length) :
    ∃ t pos', decodeRecSig buf bit pos = .ok (t, pos') ∧ pos' ≤ buf.length := by
  unfold decodeRecSig
  split
  · rw [if_neg (by omega)]
    by_cases hl : buf.length < pos + 64
    · rw [if_pos hl]; exact ⟨_, _, rfl, hp⟩
    · rw [if_neg hl]
      obtain ⟨b1, e1⟩ := goSlice_ok (buf := buf) (lo := pos) (hi := pos + 32) (by omega) (by omega)
      obtain ⟨b2, e2⟩ := goSlice_ok (buf := buf) (lo := pos + 32) (hi := pos + 64) (by omega) (by omega)
      rw [Nat.cast_add] at e1 e2
      rw [Nat.cast_add] at e2
      simp only [Nat.cast_ofNat] at e1 e2
      rw [e1, Res.bind_ok, e2, Res.bind_ok]
      exact ⟨_, _, rfl, by omega⟩
  · exact ⟨_, _, rfl, hp⟩

/-- C51: exactly when decoding a record panics: no key is announced, or the key decoder panics, or the decoder arrives at a value or a
scheme that is not announced. -/
theorem C51_panics_iff_partial (m : UInt8) (body : Bytes) : decodeRecord (m :: body) = .panic ↔
    (m >>> 6) &&& 1 = 0 ∨ newMappedKey body = .panic ∨
    ∃ k n, newMappedKey body = .ok (k, n) ∧ k.getBuf.length ≤ maxKeyLength ∧ k.getBuf.length ≤ body.length ∧
      ((m >>> 5) &&& 1 = 0 ∨
        ∃ v n, decodeStd (body.drop k.getBuf.length) = .ok (v, n) ∧ n ≤ maxValueLength ∧ (m >>> 4) &&& 1 = 0) := by
  unfold decodeRecord
  rw [if_neg (by simp), goByte_head, Res.bind_ok]
  by_cases hb : (m >>> 6) &&& 1 = 0
  · rw [if_pos hb]; simp [hb]
  rw [if_neg hb]
  simp only [List.drop_succ_cons, List.drop_zero, hb, false_or]
  rcases hk : newMappedKey body with ⟨k, n⟩ | - | -
  · simp only [Res.bind_ok, reduceCtorEq, false_or, Res.ok.injEq, Prod.mk.injEq]
    by_cases hl : k.getBuf.length > maxKeyLength
    · rw [if_pos hl]
      constructor
      · intro h; exact absurd h (by simp)
      · rintro ⟨k', n', ⟨rfl, -⟩, h, -⟩; omega
    rw [if_neg hl]
    have hdrop : (m :: body).drop (1 + k.getBuf.length) = body.drop k.getBuf.length := by
      rw [Nat.add_comm]; rfl
    have hp1 := decodeRecPart_panic_iff (m :: body) ((m >>> 5) &&& 1) maxValueLength (1 + k.getBuf.length)
    rcases hv : decodeRecPart (m :: body) ((m >>> 5) &&& 1) maxValueLength (1 + k.getBuf.length) with ⟨v, p1⟩ | - | -
    · simp only [Res.bind_ok]
      obtain ⟨q1, q2, q3, q4, q5, q6, rest, q7⟩ := decodeRecPart_ok hv
      rw [hdrop] at q7
      have hdv : decodeStd (body.drop k.getBuf.length) = .ok (v, v.buf.length) :=
        (decodeStd_ok_iff _ _ _).mpr ⟨rest, q7, rfl, q3⟩
      have hp2 := decodeRecPart_panic_iff (m :: body) ((m >>> 4) &&& 1) maxRecSchemeLength p1
      rcases hs : decodeRecPart (m :: body) ((m >>> 4) &&& 1) maxRecSchemeLength p1 with ⟨s, p2⟩ | - | -
      · simp only [Res.bind_ok]
        obtain ⟨-, r2, -, r4, -⟩ := decodeRecPart_ok hs
        have hno : ¬ ((m >>> 5) &&& 1 = 0 ∨
            ∃ v n, decodeStd (body.drop k.getBuf.length) = .ok (v, n) ∧ n ≤ maxValueLength ∧ (m >>> 4) &&& 1 = 0) := by
          rintro (h | ⟨-, -, -, -, h⟩)
          · exact q4 h
          · exact r4 h
        constructor
        · intro h
          exfalso
          rcases decodeRecTime_no_panic (bit := (m >>> 2) &&& 1) r2 with ht | ⟨t, p3, ht, ht'⟩
          · rw [ht] at h; exact absurd h (by simp)
          · rw [ht, Res.bind_ok] at h
            obtain ⟨g, p4, hg, hg'⟩ := decodeRecSig_no_panic (bit := (m >>> 1) &&& 1) ht'
            rw [hg, Res.bind_ok] at h
            obtain ⟨b, hbb⟩ := goSlice_ok (buf := m :: body) (lo := 0) (hi := p4) (by omega) hg'
            simp only [Nat.cast_zero] at hbb
            simp only [hbb, Res.bind_ok] at h
            exact absurd h (by simp)
        · rintro ⟨k', n', ⟨rfl, rfl⟩, -, -, h⟩
          exact absurd h hno
      · rw [hs] at hp2
        simp only [Res.bind_err, reduceCtorEq, false_iff]
        rintro ⟨k', n', ⟨rfl, rfl⟩, -, -, h | ⟨-, -, -, -, h⟩⟩
        · exact q4 h
        · have := hp2.mpr ⟨q2, h⟩
          exact absurd this (by simp)
      · simp only [Res.bind_panic, true_iff]
        have := hp2.mp hs
        refine ⟨k, n, ⟨rfl, rfl⟩, by omega, ?_, Or.inr ⟨v, _, hdv, q5, this.2⟩⟩
        simp only [List.length_cons] at q2
        omega
    · rw [hv] at hp1
      simp only [Res.bind_err, reduceCtorEq, false_iff]
      have hp1' : ¬ (1 + k.getBuf.length ≤ (m :: body).length ∧ (m >>> 5) &&& 1 = 0) := fun h => absurd (hp1.mpr h) (by simp)
      rintro ⟨k', n', ⟨rfl, rfl⟩, h1, h2, h | ⟨v, n2, h3, h4, h5⟩⟩
      · exact hp1' ⟨by simp only [List.length_cons]; omega, h⟩
      · by_cases h5b : (m >>> 5) &&& 1 = 0
        · exact hp1' ⟨by simp only [List.length_cons]; omega, h5b⟩
        · unfold decodeRecPart at hv
          rw [if_neg (by simp only [List.length_cons]; omega), if_pos h5b, hdrop, h3, Res.bind_ok] at hv
          simp only at hv
          obtain ⟨rest, -, e2, -⟩ := (decodeStd_ok_iff _ _ _).mp h3
          rw [if_neg (by omega)] at hv
          exact absurd hv (by simp)
    · simp only [Res.bind_panic, true_iff]
      have := hp1.mp hv
      refine ⟨k, n, ⟨rfl, rfl⟩, by omega, ?_, Or.inl this.2⟩
      have h1 := this.1
      simp only [List.length_cons] at h1
      omega
  · simp
  · simp

/-- C51: so a record that announces key, value and scheme, and whose key does not crash the key decoder, is safe. -/
theorem C51_no_panic_partial (m : UInt8) (body : Bytes) (h6 : (m >>> 6) &&& 1 ≠ 0) (h5 : (m >>> 5) &&& 1 ≠ 0)
    (h4 : (m >>> 4) &&& 1 ≠ 0) (hk : newMappedKey body ≠ .panic) : decodeRecord (m :: body) ≠ .panic := by
  intro h
  rcases (C51_panics_iff_partial m body).mp h with h | h | ⟨k, n, -, -, -, h | ⟨v, n', -, -, h⟩⟩
  · exact h6 h
  · exact hk h
  · exact h5 h
  · exact h4 h

example : ((0x70 : UInt8) >>> 6) &&& 1 ≠ 0 ∧ ((0x70 : UInt8) >>> 5) &&& 1 ≠ 0 ∧ ((0x70 : UInt8) >>> 4) &&& 1 ≠ 0 ∧
    newMappedKey [1, 1, 5] ≠ .panic := by decide +kernel

/-! ### C54: setters -/

theorem keyPartBytes_encode (k : KeyObj) : keyPartBytes k.encode.1 = keyPartBytes k ∧ k.encode.1.isEmpty = k.isEmpty := by
  cases k with
  | empty => exact ⟨rfl, rfl⟩
  | mapped m => exact ⟨rfl, rfl⟩
  | key k =>
    have e : (KeyObj.key k).encode.1 = .key k.encode.1 := rfl
    have e' : k.encode.1.keys = k.keys := by rw [key_encode_eq]; split <;> rfl
    rw [e, keyPartBytes_key, keyPartBytes_key, e']
    exact ⟨rfl, by simp [KeyObj.isEmpty, e']⟩

theorem recKeyPart_encodedKey (k : Option KeyObj) : recKeyPart (encodedKey k) = recKeyPart k := by
  cases k with
  | none => rfl
  | some k =>
    obtain ⟨h1, h2⟩ := keyPartBytes_encode k
    simp only [encodedKey]
    by_cases he : k.isEmpty = true
    · rw [if_pos he]
    · rw [if_neg he]
      simp only [recKeyPart]
      rw [h2, h1]

theorem toRec_encodedKey (r : RecordObj) : ({ r with key := encodedKey r.key } : RecordObj).toRec.encode = r.toRec.encode := by
  simp only [RecordObj.toRec]
  rw [CRec.encode, CRec.encode, recKeyPart_encodedKey]

/-- C54: after any history of setters and `Encode`, if `IsEncoded()` then `Buf()` is the encoding of the current fields. -/
theorem C54_encoded_current (ops : List RecOp) (h : (recHistory ops).encoded = true) :
    ∃ w, (recHistory ops).getBuf = .ok w ∧ (CRec.record (recHistory ops).key (recHistory ops).value (recHistory ops).scheme
      (recHistory ops).timestamp (recHistory ops).sigR (recHistory ops).sigS).encode = .ok w := by
  have key : ∀ (ops : List RecOp) (r : RecordObj), (r.encoded = true → r.toRec.encode = .ok r.buf) →
      ((ops.foldl RecOp.run r).encoded = true → (ops.foldl RecOp.run r).toRec.encode = .ok (ops.foldl RecOp.run r).buf) := by
    intro ops
    induction ops with
    | nil => intro r hr; exact hr
    | cons o os ih =>
      intro r hr
      refine ih (o.run r) ?_
      cases o with
      | setK s =>
        simp only [RecOp.run, RecordObj.setK]
        rcases newKey.add s with k | - | -
        · intro h; exact absurd h (by simp)
        · exact hr
        · exact hr
      | encode =>
        simp only [RecOp.run, RecordObj.encode]
        rcases he : r.toRec.encode with w | - | -
        · simp only
          intro _
          have := toRec_encodedKey r
          rw [he] at this
          exact this
        · simp only
          intro h
          have := hr h
          rw [he] at this
          exact absurd this (by simp)
        · simp only
          intro h
          have := hr h
          rw [he] at this
          exact absurd this (by simp)
      | setKey k => intro h; exact absurd h (by simp [RecOp.run, RecordObj.setKey])
      | setValue k => intro h; exact absurd h (by simp [RecOp.run, RecordObj.setValue])
      | setV k => intro h; exact absurd h (by simp [RecOp.run, RecordObj.setV])
      | setScheme k => intro h; exact absurd h (by simp [RecOp.run, RecordObj.setScheme])
      | setS k => intro h; exact absurd h (by simp [RecOp.run, RecordObj.setS])
      | setTimestamp k => intro h; exact absurd h (by simp [RecOp.run, RecordObj.setTimestamp])
      | setSignature a b => intro h; exact absurd h (by simp [RecOp.run, RecordObj.setSignature])
  have := key ops .new (fun h => absurd h (by simp [RecordObj.new])) h
  exact ⟨(recHistory ops).buf, by rw [RecordObj.getBuf, if_pos h], this⟩

example : (recHistory [.setK (some [1]), .setV (some [2]), .encode, .setS (some [3]), .encode]).encoded = true := by decide +kernel

/-- C54: after any history, every field is what it was last set to (a key: its sub keys; `SetK` of an empty key panics and sets
nothing). -/
theorem C54_fields (ops : List RecOp) :
    (recHistory ops).key.map KeyObj.subKeys = lastSet RecOp.keySet ops ∧ (recHistory ops).value = lastSet RecOp.valueSet ops ∧
      (recHistory ops).scheme = lastSet RecOp.schemeSet ops ∧ (recHistory ops).timestamp = lastSet RecOp.timeSet ops ∧
      ((recHistory ops).sigR, (recHistory ops).sigS) = ((ops.filterMap RecOp.sigSet).getLast?).getD (none, none) := by
  induction ops using List.reverseRecOn with
  | nil => exact ⟨rfl, rfl, rfl, rfl, rfl⟩
  | append_singleton ops o ih =>
    obtain ⟨h1, h2, h3, h4, h5⟩ := ih
    have e : recHistory (ops ++ [o]) = o.run (recHistory ops) := by simp [recHistory, List.foldl_append]
    rw [e]
    generalize recHistory ops = r at *
    have hk : ∀ k : Option KeyObj, (encodedKey k).map KeyObj.subKeys = k.map KeyObj.subKeys := by
      intro k
      cases k with
      | none => rfl
      | some k =>
        simp only [encodedKey]
        split
        · rfl
        · cases k with
          | empty => rfl
          | mapped m => rfl
          | key k =>
            simp only [KeyObj.encode, Key.encode, Option.map_some, KeyObj.subKeys]
            split
            · rfl
            · split <;> rfl
    cases o with
    | setK s =>
      simp only [RecOp.run, RecordObj.setK, Key.add, lastSet, List.filterMap_append]
      by_cases h0 : s.bytes.length = 0
      · have h0' : s.bytes = [] := List.length_eq_zero_iff.mp h0
        simp only [lastSet] at h1 h2 h3 h4
        simp [h0', h1, h2, h3, h4, h5, RecOp.keySet, RecOp.valueSet, RecOp.schemeSet, RecOp.timeSet, RecOp.sigSet]
      · have h0' : s.bytes ≠ [] := fun h => h0 (by rw [h]; rfl)
        simp only [lastSet] at h1 h2 h3 h4
        simp [h0', h2, h3, h4, h5, KeyObj.subKeys, newKey, RecOp.keySet, RecOp.valueSet, RecOp.schemeSet, RecOp.timeSet, RecOp.sigSet]
    | encode =>
      simp only [lastSet] at h1 h2 h3 h4
      simp only [RecOp.run, RecordObj.encode]
      split <;> simp [lastSet, RecOp.keySet, RecOp.valueSet, RecOp.schemeSet, RecOp.timeSet, RecOp.sigSet, hk, h1, h2, h3, h4, h5]
    | _ =>
      simp only [lastSet] at h1 h2 h3 h4
      simp [RecOp.run, RecordObj.setKey, RecordObj.setValue, RecordObj.setV, RecordObj.setScheme, RecordObj.setS,
        RecordObj.setTimestamp, RecordObj.setSignature, lastSet, RecOp.keySet, RecOp.valueSet, RecOp.schemeSet, RecOp.timeSet,
        RecOp.sigSet, h1, h2, h3, h4, h5]

example : lastSet RecOp.keySet [.setK (some [1]), .encode, .setK (some [2]), .setK (some [])] = some [some [2]] ∧
    ([RecOp.setSignature (some 1) (some 2), .encode].filterMap RecOp.sigSet).getLast? = some (some 1, some 2) := by decide +kernel

/-- C54: and `Encode` on any record either makes it encoded or reports why not; a setter always makes it not encoded. -/
theorem C54_encode (ops : List RecOp) :
    ((recHistory (ops ++ [.encode])).encoded = true ↔
      (∃ w, (CRec.record (recHistory ops).key (recHistory ops).value (recHistory ops).scheme
        (recHistory ops).timestamp (recHistory ops).sigR (recHistory ops).sigS).encode = .ok w)) := by
  show _ ↔ ∃ w, (recHistory ops).toRec.encode = .ok w
  have e : recHistory (ops ++ [.encode]) = (recHistory ops).encode.1 := by simp [recHistory, RecOp.run]
  rw [e, RecordObj.encode]
  rcases he : (recHistory ops).toRec.encode with w | - | -
  · simp
  · simp only [reduceCtorEq, exists_false, iff_false]
    intro h
    obtain ⟨w, -, hw⟩ := C54_encoded_current ops h
    change (recHistory ops).toRec.encode = .ok w at hw
    rw [he] at hw
    exact absurd hw (by simp)
  · simp only [reduceCtorEq, exists_false, iff_false]
    intro h
    obtain ⟨w, -, hw⟩ := C54_encoded_current ops h
    change (recHistory ops).toRec.encode = .ok w at hw
    rw [he] at hw
    exact absurd hw (by simp)

end Poodle.Props
