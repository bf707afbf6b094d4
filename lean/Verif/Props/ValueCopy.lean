import Verif.Spec.ValueCopy
import Verif.Model.ValueHeap
import Verif.Props.RecordFormat

/-
Properties C102 and C103: copies of values and records (/repo/src/util/value_util.go, /repo/src/util/record_util.go).
-/

namespace Poodle.Props
open Poodle Spec

/-! ### C102: Copy -/

/-- Decoding the simple value again. -/
theorem copySimple_real {content buf : Bytes} (h : realVal (.simple content buf)) : copySimple buf = .ok (.simple content buf) := by
  rw [realVal] at h
  obtain ⟨b, n, hl, h⟩ := h
  unfold decodeSimple at h
  obtain ⟨⟨d, m⟩, hd, h⟩ := Res.bind_eq_ok.mp h
  simp only [Res.ok.injEq, Prod.mk.injEq] at h
  obtain ⟨rfl, rfl, rfl⟩ := h
  have hd' : decodeVarchar (b.take m) = .ok (d, m) := by
    rcases b with - | ⟨x, b⟩
    · simpa using hd
    · exact (C02_decodeVarchar_in_bounds _ (by simp) hl d m hd).2.2.2.2 _ (by rw [List.length_take]; omega) (by rw [List.take_take, Nat.min_self])
  unfold copySimple decodeSimple
  rw [hd', Res.bind_ok]
  simp only [List.take_take, Nat.min_self]

theorem copyStd_real {d : StdValue} (h : realVal (.std d)) : copyStd d = .ok (.std d) := by
  rw [realVal] at h
  obtain ⟨b, n, h⟩ := h
  obtain ⟨rest, h1, h2, h3⟩ := (decodeStd_ok_iff _ _ _).mp h
  have := (decodeStd_ok_iff d.buf d d.buf.length).mpr ⟨[], by simp, rfl, h3⟩
  unfold copyStd
  rw [this]

/-- Decoding the bytes of a decoded record again succeeds exactly if the key count ends within them. -/
theorem copyMapped_real {r : RecInfo} (h : realRec (.mapped r)) :
    (copyableRec r → ∃ c, r.copy = .ok c ∧ SameMapped r c) ∧ (¬ copyableRec r → r.copy = .panic) := by
  rw [realRec] at h
  obtain ⟨b, n, hl, h⟩ := h
  obtain ⟨m, k, ts, sg, rest, hbuf, hrb, hn, m6, m5, m4, hz, hk, v1, v2, s1, s2, t1, g1⟩ := (C52_format b hl r n).mp h
  have hlen : r.buf.length < 2 ^ 63 := by
    have := congrArg List.length hbuf
    rw [hrb]
    simp only [List.length_cons, List.length_append] at this ⊢
    omega
  refine ⟨?_, ?_⟩
  · intro hc
    obtain ⟨p, q, e1, e2, e3⟩ := hc
    refine ⟨{ r with key := { keys := [], buf := r.buf.drop 1 } }, ?_, rfl, ?_, rfl, rfl, rfl, rfl⟩
    · have := (C52_format r.buf hlen { r with key := { keys := [], buf := r.buf.drop 1 } } n).mpr
        ⟨m, k, ts, sg, [], by simp [hrb], hrb, hn, m6, m5, m4, ⟨p, q, e1, e2, e3⟩, rfl, v1, v2, s1, s2, t1, ?_⟩
      · unfold RecInfo.copy
        rw [this]
      · simp only [List.append_nil]
        by_cases hs : m.toNat.testBit 1 = true ∧ 64 ≤ (sg ++ rest).length
        · rw [if_pos hs] at g1
          obtain ⟨R, S, g2, g3, g4, g5⟩ := g1
          rw [if_pos ⟨hs.1, by rw [g2, List.length_append]; omega⟩]
          exact ⟨R, S, g2, g3, g4, g5⟩
        · rw [if_neg hs] at g1
          rw [if_neg (by rw [g1.1]; simp)]
          exact g1
    · rw [hk]
  · intro hc
    unfold RecInfo.copy
    cases e : decodeRecord r.buf with
    | ok x =>
      obtain ⟨c, n'⟩ := x
      obtain ⟨-, -, -, -, -, -, -, -, -, -, -, hz', -⟩ := (C52_format r.buf hlen c n').mp e
      exact absurd hz' hc
    | err => rfl
    | panic => rfl

/-- Copying keys. -/
theorem copyKey_spec {k : Option KeyObj} (hr : realKey k) :
    (copyableKey k → ∃ c, copyKeyPart k = .ok c ∧ c.map KeyObj.subKeys = k.map KeyObj.subKeys ∧ recKeyPart c = recKeyPart k) ∧
      (¬ copyableKey k → copyKeyPart k = .panic) := by
  cases k with
  | none => exact ⟨fun _ => ⟨none, rfl, rfl, rfl⟩, fun h => absurd (by simp [copyableKey]) h⟩
  | some k =>
    cases k with
    | empty => exact ⟨fun _ => ⟨some .empty, rfl, rfl, rfl⟩, fun h => absurd (by simp [copyableKey]) h⟩
    | mapped m =>
      obtain ⟨buf, n, hb⟩ := hr m rfl
      have := (C82_mappedKey_copy_partial buf m n hb).1
      refine ⟨fun _ => ⟨some (.mapped m), ?_, rfl, rfl⟩, fun h => absurd (by simp [copyableKey]) h⟩
      rw [copyKeyPart, this]
      rfl
    | key c =>
      rcases addAll_eq c.keys newKey with ⟨⟨s, h0, h1⟩, h2⟩ | ⟨h1, c', h2, h3⟩
      · refine ⟨fun h => absurd h1 (h c rfl s h0), fun _ => ?_⟩
        rw [copyKeyPart, KeyObj.copy, h2]
        rfl
      · refine ⟨fun _ => ⟨some (.key c'), by rw [copyKeyPart, KeyObj.copy, h2]; rfl, ?_, ?_⟩, fun h => absurd ?_ h⟩
        · simp [KeyObj.subKeys, h3, newKey]
        · have e : c'.keys = c.keys := by simp [h3, newKey]
          simp only [recKeyPart, KeyObj.isEmpty, keyPartBytes_key, e]
        · intro d hd s hs
          simp only [Option.some.injEq, KeyObj.key.injEq] at hd
          subst hd
          exact h1 s hs

mutual
theorem copyVal_real : ∀ v : CVal, realVal v →
    (copyable v → ∃ c, v.copy = .ok c ∧ sameVal v c ∧ c.encode = v.encode ∧ c.isNil = v.isNil) ∧ (¬ copyable v → v.copy = .panic)
  | .prim d, _ => ⟨fun _ => ⟨.prim d, rfl, by simp [sameVal], rfl, rfl⟩, fun h => absurd (by simp [copyable]) h⟩
  | .array es, h => by
    rw [realVal] at h
    rw [copyable, CVal.copy]
    obtain ⟨h1, h2⟩ := copyVals_real es h
    refine ⟨fun hc => ?_, fun hc => by rw [h2 hc]; rfl⟩
    obtain ⟨l, q1, q2, q3, q4⟩ := h1 hc
    refine ⟨.array l, by rw [q1]; rfl, by simp only [sameVal, CVal.array.injEq, exists_eq_left']; exact q2, ?_, ?_⟩
    · rw [CVal.encode, CVal.encode, q3, q4]
    · simp only [CVal.isNil, q4]
  | .records rs, h => by
    rw [realVal] at h
    rw [copyable, CVal.copy]
    obtain ⟨h1, h2⟩ := copyRecs_real rs h
    refine ⟨fun hc => ?_, fun hc => by rw [h2 hc]; rfl⟩
    obtain ⟨l, q1, q2, q3, q4⟩ := h1 hc
    refine ⟨.records l, by rw [q1]; rfl, by simp only [sameVal, CVal.records.injEq, exists_eq_left']; exact q2, ?_, ?_⟩
    · rw [CVal.encode, CVal.encode, q3, q4]
    · simp only [CVal.isNil, q4]
  | .simple c b, h => by
    rw [CVal.copy]
    exact ⟨fun _ => ⟨.simple c b, copySimple_real h, by simp [sameVal], rfl, rfl⟩, fun hc => absurd (by simp [copyable]) hc⟩
  | .std d, h => by
    rw [CVal.copy]
    exact ⟨fun _ => ⟨.std d, copyStd_real h, by simp [sameVal], rfl, rfl⟩, fun hc => absurd (by simp [copyable]) hc⟩

theorem copyVals_real : ∀ es : List CVal, realVals es →
    (copyables es → ∃ l, copyVals es = .ok l ∧ sameVals es l ∧ encodeVals l = encodeVals es ∧ l.length = es.length) ∧
      (¬ copyables es → copyVals es = .panic)
  | [], _ => ⟨fun _ => ⟨[], rfl, by simp [sameVals], rfl, rfl⟩, fun h => absurd (by simp [copyables]) h⟩
  | v :: l, h => by
    rw [realVals] at h
    rw [copyables, copyVals]
    obtain ⟨a1, a2⟩ := copyVal_real v h.1
    obtain ⟨b1, b2⟩ := copyVals_real l h.2
    constructor
    · rintro ⟨c1, c2⟩
      obtain ⟨v', p1, p2, p3, -⟩ := a1 c1
      obtain ⟨l', q1, q2, q3, q4⟩ := b1 c2
      refine ⟨v' :: l', by rw [p1, q1]; rfl, ?_, ?_, by simp [q4]⟩
      · rw [sameVals]; exact ⟨v', l', rfl, p2, q2⟩
      · rw [encodeVals, encodeVals, p3, q3]
    · intro hc
      by_cases c1 : copyable v
      · obtain ⟨v', p1, -⟩ := a1 c1
        rw [p1, b2 (fun c2 => hc ⟨c1, c2⟩)]
        rfl
      · rw [a2 c1]; rfl

theorem copyPart_real : ∀ (bit : UInt8) (o : Option CVal), realPart o →
    (copyablePart o → ∃ c, copyValuePart o = .ok c ∧ samePart o c ∧ recValuePart bit c = recValuePart bit o) ∧
      (¬ copyablePart o → copyValuePart o = .panic)
  | _, none, _ => ⟨fun _ => ⟨none, rfl, by simp [samePart], rfl⟩, fun h => absurd (by simp [copyablePart]) h⟩
  | bit, some v, h => by
    rw [realPart] at h
    rw [copyablePart, copyValuePart]
    obtain ⟨a1, a2⟩ := copyVal_real v h
    refine ⟨fun hc => ?_, fun hc => by rw [a2 hc]; rfl⟩
    obtain ⟨v', p1, p2, p3, p4⟩ := a1 hc
    refine ⟨some v', by rw [p1]; rfl, by rw [samePart]; exact ⟨v', rfl, p2⟩, ?_⟩
    rw [recValuePart, recValuePart, p3, p4]

theorem copyRec_real : ∀ r : CRec, realRec r →
    (copyableR r → ∃ c, r.copy = .ok c ∧ sameRec r c ∧ c.encode = r.encode) ∧ (¬ copyableR r → r.copy = .panic)
  | .record key value scheme t a b, h => by
    rw [realRec] at h
    rw [copyableR, CRec.copy]
    obtain ⟨k1, k2⟩ := copyKey_spec h.1
    obtain ⟨v1, v2⟩ := copyPart_real 5 value h.2.1
    obtain ⟨s1, s2⟩ := copyPart_real 4 scheme h.2.2
    constructor
    · rintro ⟨c1, c2, c3⟩
      obtain ⟨k', p1, p2, p3⟩ := k1 c1
      obtain ⟨v', q1, q2, q3⟩ := v1 c2
      obtain ⟨s', r1, r2, r3⟩ := s1 c3
      refine ⟨.record k' v' s' t a b, by rw [p1, q1, r1]; rfl, ?_, ?_⟩
      · rw [sameRec]; exact ⟨k', v', s', rfl, p2, q2, r2⟩
      · rw [CRec.encode, CRec.encode, p3, q3, r3]
    · intro hc
      by_cases c1 : copyableKey key
      · obtain ⟨k', p1, -⟩ := k1 c1
        by_cases c2 : copyablePart value
        · obtain ⟨v', q1, -⟩ := v1 c2
          rw [p1, q1, s2 (fun c3 => hc ⟨c1, c2, c3⟩)]
          rfl
        · rw [p1, v2 c2]; rfl
      · rw [k2 c1]; rfl
  | .mapped r, h => by
    rw [copyableR, CRec.copy]
    obtain ⟨a1, a2⟩ := copyMapped_real h
    refine ⟨fun hc => ?_, fun hc => by rw [a2 hc]; rfl⟩
    obtain ⟨c, q1, q2⟩ := a1 hc
    exact ⟨.mapped c, by rw [q1]; rfl, by rw [sameRec]; exact ⟨c, rfl, q2⟩, rfl⟩

theorem copyRecs_real : ∀ rs : List CRec, realRecs rs →
    (copyableRecs rs → ∃ l, copyRecs rs = .ok l ∧ sameRecs rs l ∧ encodeRecs l = encodeRecs rs ∧ l.length = rs.length) ∧
      (¬ copyableRecs rs → copyRecs rs = .panic)
  | [], _ => ⟨fun _ => ⟨[], rfl, by simp [sameRecs], rfl, rfl⟩, fun h => absurd (by simp [copyableRecs]) h⟩
  | v :: l, h => by
    rw [realRecs] at h
    rw [copyableRecs, copyRecs]
    obtain ⟨a1, a2⟩ := copyRec_real v h.1
    obtain ⟨b1, b2⟩ := copyRecs_real l h.2
    constructor
    · rintro ⟨c1, c2⟩
      obtain ⟨v', p1, p2, p3⟩ := a1 c1
      obtain ⟨l', q1, q2, q3, q4⟩ := b1 c2
      refine ⟨v' :: l', by rw [p1, q1]; rfl, ?_, ?_, by simp [q4]⟩
      · rw [sameRecs]; exact ⟨v', l', rfl, p2, q2⟩
      · rw [encodeRecs, encodeRecs, p3, q3]
    · intro hc
      by_cases c1 : copyableR v
      · obtain ⟨v', p1, -⟩ := a1 c1
        rw [p1, b2 (fun c2 => hc ⟨c1, c2⟩)]
        rfl
      · rw [a2 c1]; rfl
end

/-- The full claim of C102: `Copy` of every value and record succeeds. -/
def CopyNeverPanics : Prop := (∀ v : CVal, realVal v → v.copy ≠ .panic) ∧ ∀ r : CRec, realRec r → r.copy ≠ .panic

/-- C102: exactly which values can be copied; the copy has the same contents and is encoded to the same bytes. -/
theorem C102_value_copy_partial (v : CVal) (h : realVal v) :
    (v.copy = .panic ↔ ¬ copyable v) ∧ (copyable v → ∃ c, v.copy = .ok c ∧ sameVal v c ∧ c.encode = v.encode) := by
  obtain ⟨h1, h2⟩ := copyVal_real v h
  refine ⟨⟨fun hp hc => ?_, h2⟩, fun hc => ?_⟩
  · obtain ⟨c, e, -⟩ := h1 hc
    rw [e] at hp
    exact absurd hp (by simp)
  · obtain ⟨c, e, e1, e2, -⟩ := h1 hc
    exact ⟨c, e, e1, e2⟩

example := C102_value_copy_partial (.array [.prim (some [7]), .prim none]) (by simp [realVal, realVals])

/-- C102: the same for records. -/
theorem C102_record_copy_partial (r : CRec) (h : realRec r) :
    (r.copy = .panic ↔ ¬ copyableR r) ∧ (copyableR r → ∃ c, r.copy = .ok c ∧ sameRec r c ∧ c.encode = r.encode) := by
  obtain ⟨h1, h2⟩ := copyRec_real r h
  refine ⟨⟨fun hp hc => ?_, h2⟩, h1⟩
  obtain ⟨c, e, -⟩ := h1 hc
  rw [e] at hp
  exact absurd hp (by simp)

example := C102_record_copy_partial (.record none (some (.prim (some [7]))) none (some 5) none none) (by simp [realRec, Spec.realPart, realVal, realKey])

/-- A record that decodes, but whose copy does not. -/
def badRecord : Bytes := [0x70, 0x80, 0x80, 0x80, 0x80, 0x80, 0x80, 0x80, 0x00]

/-- C102 as stated does not hold: the copy of a decoded record panics if its key count is a long zero reaching beyond the record. -/
theorem C102_refuted : ¬ CopyNeverPanics := by
  rintro ⟨-, h⟩
  refine h (.mapped ⟨[0x70, 0x80, 0x80, 0x80, 0x80, 0x80, 0x80, 0x80], ⟨[], [0x80, 0x80, 0x80, 0x80, 0x80, 0x80, 0x80, 0x00]⟩,
    ⟨[0x80, 0x80, 0x80], .array, 0x8080, []⟩, ⟨[0x80, 0x80, 0x80], .array, 0x8080, []⟩, none, none⟩) ?_ ?_
  · rw [realRec]
    exact ⟨badRecord, 8, by decide, by decide +kernel⟩
  · rw [CRec.copy, show RecInfo.copy _ = .panic by decide +kernel]
    rfl

example : decodeRecord [0x70, 0x00, 0x01, 1, 0x61, 0x00, 0xff] = .ok (⟨[0x70, 0x00, 0x01, 1, 0x61, 0x00], ⟨[], [0x00, 0x01, 1, 0x61, 0x00, 0xff]⟩,
    ⟨[0x01, 1, 0x61], .prim, 0, [0x61]⟩, ⟨[0x00], .prim, 0, []⟩, none, none⟩, 6) := by decide +kernel

example : realVal (.records [.record (some (.key (newSimpleKey (some [1])))) (some (.array [.prim (some [2]), .prim none])) none (some 5)
      none none]) ∧
    copyable (.records [.record (some (.key (newSimpleKey (some [1])))) (some (.array [.prim (some [2]), .prim none])) none (some 5)
      none none]) := by
  simp [realVal, realRecs, realRec, realPart, realVals, realKey, copyable, copyableRecs, copyableR, copyablePart, copyables, copyableKey,
    newSimpleKey, Slice.bytes]

/-! ### C103: CopyConstruct of decoded records -/

/-- The full claim of C103: the copy constructed from a decoded record is encoded to the bytes of the record. -/
def RecordCopyConstruct : Prop :=
  ∀ (buf : Bytes) (h : Heap) (root : Nat) (r : RecInfo) (n : Nat), decodeRecord buf = .ok (r, n) → allocRec [] buf = (h, .ok root) →
    ∃ fuel h' c, copyRec fuel h root = (h', .ok c) ∧ c.encode = .ok r.buf

/-- C103: whatever copy is constructed from a decoded record, it is not encoded to the bytes of the record. -/
theorem C103_never_partial (buf : Bytes) (r : RecInfo) (n : Nat) (hd : decodeRecord buf = .ok (r, n)) (h h' : Heap)
    (id v s fuel : Nat) (hr : h[id]? = some (.record r v s)) (c : CRec) (hc : copyRec fuel h id = (h', .ok c)) :
    c.encode ≠ .ok r.buf := by
  have hk := C50_decoded_key_empty_partial buf r n hd
  have h6 : ∃ m l, r.buf = m :: l ∧ (m >>> 6) &&& 0x01 ≠ 0 := by
    obtain ⟨h1, h2, h3, -⟩ := decodeRecord_ok hd
    cases buf with
    | nil => simp at h2; omega
    | cons m body =>
      refine ⟨m, body.take (n - 1), by rw [h3, show n = n - 1 + 1 by omega, List.take_succ_cons]; simp, ?_⟩
      intro h0
      unfold decodeRecord at hd
      rw [if_neg (by simp), goByte_head, Res.bind_ok, if_pos h0] at hd
      exact absurd hd (by simp)
  obtain ⟨m, l, hm, hb⟩ := h6
  intro he
  cases fuel with
  | zero => simp [copyRec] at hc
  | succ fuel =>
    rw [copyRec, hr] at hc
    simp only [KeyObj.copyConstruct, hk, addAll, Res.bind_ok] at hc
    split at hc
    · split at hc
      · simp only [Prod.mk.injEq, Res.ok.injEq] at hc
        obtain ⟨-, rfl⟩ := hc
        obtain ⟨p, ⟨m', hw, -, hb6, -⟩, hkp, -⟩ := C49_layout _ _ _ _ _ _ _ he
        have hn : p.key = none := by simpa [IsKeyPart, KeyObj.isEmpty, newKey] using hkp
        rw [hm] at hw
        simp only [List.cons.injEq] at hw
        rw [← hw.1, hn] at hb6
        exact hb ((bit6 m).mpr hb6)
      · simp at hc
    · simp at hc

/-- C103: the copy constructed from a record with primitive value and scheme has no key, and everything else of the record. -/
theorem C103_content_partial (buf : Bytes) (r : RecInfo) (n : Nat) (hd : decodeRecord buf = .ok (r, n)) (h : Heap)
    (id v s fuel : Nat) (hr : h[id]? = some (.record r v s)) (sv ss : List Slot) (hv : h[v]? = some (.val r.value sv))
    (hs : h[s]? = some (.val r.scheme ss)) (kv : r.value.kind = .prim) (ks : r.scheme.kind = .prim) :
    ∃ k, k.subKeys = [] ∧ copyRec (fuel + 2) h id = (h, .ok (.record (some k) (some (.prim r.value.value)) (some (.prim r.scheme.value))
      r.timestamp (r.signature.map Prod.fst) (r.signature.map Prod.snd))) := by
  have hk := C50_decoded_key_empty_partial buf r n hd
  refine ⟨.key newKey, rfl, ?_⟩
  rw [copyRec, hr]
  simp only [KeyObj.copyConstruct, hk, addAll, Res.bind_ok, copyVal, hv, hs, kv, ks, StdValue.value, if_pos]

/-- C103 as stated does not hold. -/
theorem C103_refuted : ¬ RecordCopyConstruct := by
  intro H
  obtain ⟨fuel, h', c, h1, h2⟩ := H [0x70, 0x00, 0x01, 1, 0x61, 0x00] _ 2 _ 6 rfl (by rfl)
  exact C103_never_partial [0x70, 0x00, 0x01, 1, 0x61, 0x00] _ 6 rfl _ h' 2 0 1 fuel rfl c h1 h2

example : ∃ r h, decodeRecord [0x70, 0x00, 0x01, 1, 0x61, 0x00] = .ok (r, 6) ∧ allocRec [] [0x70, 0x00, 0x01, 1, 0x61, 0x00] = (h, .ok 2) ∧
    h[2]? = some (.record r 0 1) ∧ h[0]? = some (.val r.value []) ∧ h[1]? = some (.val r.scheme []) ∧ r.value.kind = .prim ∧
    r.scheme.kind = .prim ∧ r.value.value = some [0x61] :=
  ⟨⟨[0x70, 0x00, 0x01, 1, 0x61, 0x00], ⟨[], [0x00, 0x01, 1, 0x61, 0x00]⟩, ⟨[0x01, 1, 0x61], .prim, 0, [0x61]⟩, ⟨[0x00], .prim, 0, []⟩,
    none, none⟩, _, by decide +kernel, rfl, by decide +kernel⟩

example := C103_content_partial [0x70, 0x00, 0x01, 1, 0x61, 0x00] ⟨[0x70, 0x00, 0x01, 1, 0x61, 0x00], ⟨[], [0x00, 0x01, 1, 0x61, 0x00]⟩,
  ⟨[0x01, 1, 0x61], .prim, 0, [0x61]⟩, ⟨[0x00], .prim, 0, []⟩, none, none⟩ 6 (by decide +kernel)
  (allocRec [] [0x70, 0x00, 0x01, 1, 0x61, 0x00]).1 2 0 1 5 (by decide +kernel) [] [] (by decide +kernel) (by decide +kernel) rfl rfl

/-- The copy of a record with key, value and scheme empty or primitive: that it can be made is `C103_content_partial`. -/
example := C103_never_partial [0x70, 0x00, 0x01, 1, 0x61, 0x00] ⟨[0x70, 0x00, 0x01, 1, 0x61, 0x00], ⟨[], [0x00, 0x01, 1, 0x61, 0x00]⟩,
  ⟨[0x01, 1, 0x61], .prim, 0, [0x61]⟩, ⟨[0x00], .prim, 0, []⟩, none, none⟩ 6 (by decide +kernel)
  (allocRec [] [0x70, 0x00, 0x01, 1, 0x61, 0x00]).1 _ 2 0 1 7 (by decide +kernel) _ rfl

end Poodle.Props
