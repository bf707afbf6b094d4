import Verif.Props.Record

/-
Property C52: the exact format of records that decode (/repo/src/util/record_util.go:157-250).
-/

namespace Poodle.Props
open Poodle Spec

theorem bits_rec (m : UInt8) : ((m >>> 5) &&& 0x01 ≠ 0 ↔ m.toNat.testBit 5 = true) ∧ ((m >>> 4) &&& 0x01 ≠ 0 ↔ m.toNat.testBit 4 = true) ∧
    ((m >>> 2) &&& 0x01 ≠ 0 ↔ m.toNat.testBit 2 = true) ∧ ((m >>> 1) &&& 0x01 ≠ 0 ↔ m.toNat.testBit 1 = true) := by
  refine forall_u8 (P := fun m => ((m >>> 5) &&& 0x01 ≠ 0 ↔ m.toNat.testBit 5 = true) ∧
    ((m >>> 4) &&& 0x01 ≠ 0 ↔ m.toNat.testBit 4 = true) ∧
    ((m >>> 2) &&& 0x01 ≠ 0 ↔ m.toNat.testBit 2 = true) ∧ ((m >>> 1) &&& 0x01 ≠ 0 ↔ m.toNat.testBit 1 = true)) ?_ m
  decide +kernel

theorem twos_unique {u : Nat} {x y : Int} (hx : TwosComplement 64 u x) (hy : TwosComplement 64 u y) : x = y := by
  obtain ⟨a1, a2, a3, a4⟩ := hx
  obtain ⟨b1, b2, b3, b4⟩ := hy
  norm_num at *
  omega

theorem decodeRecPart_iff (buf : Bytes) (bit : UInt8) (limit pos : Nat) (d : StdValue) (pos' : Nat) (hp : pos ≤ buf.length) :
    decodeRecPart buf bit limit pos = .ok (d, pos') ↔
      bit ≠ 0 ∧ IsStdWire d.buf d.kind d.size d.content ∧ d.buf.length ≤ limit ∧ pos' = pos + d.buf.length ∧
        ∃ rest, buf.drop pos = d.buf ++ rest := by
  constructor
  · intro h
    obtain ⟨-, -, a, b, c, d, e⟩ := decodeRecPart_ok h
    exact ⟨b, a, c, d, e⟩
  · rintro ⟨h1, h2, h3, rfl, rest, h4⟩
    unfold decodeRecPart
    rw [if_neg (by omega), if_pos h1, (decodeStd_ok_iff _ d d.buf.length).mpr ⟨rest, h4, rfl, h2⟩, Res.bind_ok]
    simp only
    rw [if_neg (by omega)]

/-- The timestamp. -/
theorem decodeRecTime_iff (buf : Bytes) (bit : UInt8) (pos : Nat) (t : Option Int) (pos' : Nat) (hp : pos ≤ buf.length) :
    decodeRecTime buf bit pos = .ok (t, pos') ↔
      ∃ ts rest, buf.drop pos = ts ++ rest ∧ pos' = pos + ts.length ∧
        (if bit ≠ 0 then ts.length = 8 ∧ ∃ x, t = some x ∧ TwosComplement 64 (bigEndian ts) x else ts = [] ∧ t = none) := by
  unfold decodeRecTime
  by_cases hb : bit ≠ 0
  · simp only [if_pos hb]
    rw [if_neg (by omega)]
    have hs : ∀ ts : Bytes, ts.length = 8 → TwosComplement 64 (bigEndian ts) (toSigned 64 (beVal ts)) := by
      intro ts h
      rw [← beVal_eq_bigEndian]
      apply toSigned_spec64
      have := beVal_lt ts
      rwa [h] at this
    constructor
    · intro h
      obtain ⟨x, h1, h⟩ := Res.bind_eq_ok.mp h
      unfold bytesToTime at h1
      split at h1
      · exact absurd h1 (by simp)
      · rename_i hl
        simp only [Res.ok.injEq, Prod.mk.injEq] at h h1
        obtain ⟨rfl, rfl⟩ := h
        have hl8 : ((buf.drop pos).take 8).length = 8 := by rw [List.length_take]; omega
        exact ⟨(buf.drop pos).take 8, (buf.drop pos).drop 8, (List.take_append_drop 8 _).symm, by rw [hl8], hl8, x, rfl,
          h1 ▸ hs _ hl8⟩
    · rintro ⟨ts, rest, h1, rfl, h2, x, rfl, h3⟩
      rw [h1, bytesToTime, if_neg (by rw [List.length_append]; omega), ← h2, List.take_left]
      rw [Res.bind_ok, twos_unique (hs ts h2) h3]
  · simp only [if_neg hb]
    constructor
    · intro h
      simp only [Res.ok.injEq, Prod.mk.injEq] at h
      obtain ⟨rfl, rfl⟩ := h
      exact ⟨[], _, rfl, rfl, rfl, rfl⟩
    · rintro ⟨ts, rest, -, rfl, rfl, rfl⟩
      rfl

theorem goSlice_drop {buf p q r : Bytes} {pos : Nat} (hp : pos ≤ buf.length) (h : buf.drop pos = p ++ q ++ r) :
    goSlice buf (pos + p.length) (pos + p.length + q.length) = .ok q := by
  have hl := congrArg List.length h
  simp only [List.length_drop, List.length_append] at hl
  unfold goSlice
  rw [if_pos (by omega)]
  have e : (buf.drop (pos + p.length)).take q.length = q := by
    rw [← List.drop_drop, h, List.append_assoc, List.drop_left, List.take_left]
  rw [List.drop_take, show ((pos : Int) + p.length + q.length).toNat - ((pos : Int) + p.length).toNat = q.length by omega,
    show ((pos : Int) + p.length).toNat = pos + p.length by omega, e]

/-- The signature. -/
theorem decodeRecSig_iff (buf : Bytes) (bit : UInt8) (pos : Nat) (t : Option (Int × Int)) (pos' : Nat) (hp : pos ≤ buf.length) :
    decodeRecSig buf bit pos = .ok (t, pos') ↔
      ∃ sg rest, buf.drop pos = sg ++ rest ∧ pos' = pos + sg.length ∧
        (if bit ≠ 0 ∧ 64 ≤ (sg ++ rest).length then
          ∃ R S, sg = R ++ S ∧ R.length = 32 ∧ S.length = 32 ∧ t = some ((bigEndian R : Int), (bigEndian S : Int))
          else sg = [] ∧ t = none) := by
  have key : ∀ sg rest R S : Bytes, buf.drop pos = sg ++ rest → sg = R ++ S → R.length = 32 → S.length = 32 →
      goSlice buf pos (pos + 32) = .ok R ∧ goSlice buf (pos + 32) (pos + 64) = .ok S := by
    intro sg rest R S h1 h2 h3 h4
    have a := goSlice_drop (p := []) (q := R) (r := S ++ rest) hp (by rw [h1, h2]; simp)
    have b := goSlice_drop (p := R) (q := S) (r := rest) hp (by rw [h1, h2])
    rw [h3] at a b
    rw [h4] at b
    exact ⟨a, b⟩
  unfold decodeRecSig
  by_cases hb : bit ≠ 0
  · simp only [if_pos hb]
    rw [if_neg (by omega)]
    by_cases hl : buf.length < pos + 64
    · rw [if_pos hl]
      constructor
      · intro h
        simp only [Res.ok.injEq, Prod.mk.injEq] at h
        obtain ⟨rfl, rfl⟩ := h
        refine ⟨[], buf.drop pos, rfl, rfl, ?_⟩
        rw [if_neg (by simp only [List.nil_append, List.length_drop]; omega)]
        exact ⟨rfl, rfl⟩
      · rintro ⟨sg, rest, h1, rfl, h2⟩
        have hh := congrArg List.length h1
        rw [List.length_drop] at hh
        rw [if_neg (by omega)] at h2
        obtain ⟨rfl, rfl⟩ := h2
        rfl
    · rw [if_neg hl]
      constructor
      · intro h
        have e1 : buf.drop pos = ((buf.drop pos).take 32 ++ ((buf.drop pos).drop 32).take 32) ++ (buf.drop pos).drop 64 := by
          generalize buf.drop pos = l
          conv_lhs => rw [← List.take_append_drop 32 l, ← List.take_append_drop 32 (l.drop 32), List.drop_drop]
          rw [List.append_assoc]
        obtain ⟨k1, k2⟩ := key _ _ _ _ e1 rfl (by simp only [List.length_take, List.length_drop]; omega)
          (by simp only [List.length_take, List.length_drop]; omega)
        rw [k1, k2] at h
        simp only [Res.bind_ok, Res.ok.injEq, Prod.mk.injEq] at h
        obtain ⟨rfl, rfl⟩ := h
        refine ⟨_, _, e1, by simp only [List.length_append, List.length_take, List.length_drop]; omega, ?_⟩
        rw [← e1, if_pos ⟨hb, by rw [List.length_drop]; omega⟩]
        refine ⟨_, _, rfl, by simp only [List.length_take, List.length_drop]; omega,
          by simp only [List.length_take, List.length_drop]; omega, ?_⟩
        simp only [byteArrayToBigInt, beVal_eq_bigEndian]
      · rintro ⟨sg, rest, h1, rfl, h2⟩
        have hh := congrArg List.length h1
        rw [List.length_drop] at hh
        rw [if_pos ⟨hb, by omega⟩] at h2
        obtain ⟨R, S, h3, h4, h5, rfl⟩ := h2
        obtain ⟨k1, k2⟩ := key _ _ _ _ h1 h3 h4 h5
        rw [k1, k2]
        simp only [Res.bind_ok, byteArrayToBigInt, beVal_eq_bigEndian, h3, List.length_append, h4, h5]
  · simp only [if_neg hb]
    constructor
    · intro h
      simp only [Res.ok.injEq, Prod.mk.injEq] at h
      obtain ⟨rfl, rfl⟩ := h
      refine ⟨[], buf.drop pos, rfl, rfl, ?_⟩
      rw [if_neg (fun h => hb h.1)]
      exact ⟨rfl, rfl⟩
    · rintro ⟨sg, rest, h1, rfl, h2⟩
      rw [if_neg (fun h => hb h.1)] at h2
      obtain ⟨rfl, rfl⟩ := h2
      rfl

/-- A key without sub keys is a count of zero. -/
theorem newMappedKey_empty_iff (buf : Bytes) (hne : buf ≠ []) (hgo : buf.length < 2 ^ 63) (k : MappedKey) :
    (∃ n, newMappedKey buf = .ok (k, n)) ∧ k.keys = [] ↔
      (∃ p q, buf = p ++ q ∧ IsUvarint p 0 ∧ p.length ≤ 10) ∧ k = { keys := [], buf := buf } := by
  constructor
  · rintro ⟨⟨n, h⟩, hk⟩
    obtain ⟨hb, len, hd⟩ := newMappedKey_count h
    rw [hk] at hd
    obtain ⟨p, rest, h1, h2, h3, -⟩ := (C04_decodeUvarint64_ok_iff_partial buf hne hgo _ _).mp hd
    refine ⟨⟨p, rest, h1, h2, h3⟩, ?_⟩
    cases k
    simp only at hb hk
    rw [hb, hk]
  · rintro ⟨⟨p, q, h1, h2, h3⟩, rfl⟩
    have := (C04_decodeUvarint64_ok_iff_partial buf hne hgo 0 p.length).mpr ⟨p, q, h1, h2, h3, by norm_num, rfl, by omega⟩
    refine ⟨⟨p.length, ?_⟩, rfl⟩
    unfold newMappedKey
    rw [this, Res.bind_ok]
    simp [decodeSubKeys]

/-- C52: exactly which buffers decode to which record, and how many bytes are consumed. -/
theorem C52_format (buf : Bytes) (hgo : buf.length < 2 ^ 63) (r : RecInfo) (n : Nat) :
    decodeRecord buf = .ok (r, n) ↔ IsMappedRecord buf r n := by
  constructor
  · intro h
    have hkeys := C50_decoded_key_empty_partial buf r n h
    cases buf with
    | nil => simp [decodeRecord] at h
    | cons m body =>
    obtain ⟨-, hnl, hrb, -⟩ := decodeRecord_ok h
    unfold decodeRecord at h
    rw [if_neg (by simp), goByte_head, Res.bind_ok] at h
    by_cases hb : (m >>> 6) &&& 0x01 = 0
    · rw [if_pos hb] at h; exact absurd h (by simp)
    rw [if_neg hb] at h
    obtain ⟨⟨k, kn⟩, hk, h⟩ := Res.bind_eq_ok.mp h
    simp only at h
    split at h
    · exact absurd h (by simp)
    obtain ⟨⟨v, p1⟩, h1, h⟩ := Res.bind_eq_ok.mp h
    obtain ⟨⟨s, p2⟩, h2, h⟩ := Res.bind_eq_ok.mp h
    obtain ⟨⟨ts, p3⟩, h3, h⟩ := Res.bind_eq_ok.mp h
    obtain ⟨⟨sg, p4⟩, h4, h⟩ := Res.bind_eq_ok.mp h
    obtain ⟨b, h5, h⟩ := Res.bind_eq_ok.mp h
    simp only [Res.ok.injEq, Prod.mk.injEq] at h
    obtain ⟨heq, rfl⟩ := h
    have hkk : k.keys = [] := by rw [← heq] at hkeys; exact hkeys
    have hg : k.getBuf.length = 1 := by
      simp [MappedKey.getBuf, MappedKey.isEmpty, hkk]
    rw [hg] at h1
    simp only [List.drop_succ_cons, List.drop_zero] at hk
    cases body with
    | nil => simp [decodeRecPart] at h1
    | cons k0 tail =>
    obtain ⟨hz, hkeq⟩ := (newMappedKey_empty_iff (k0 :: tail) (by simp) (by simp only [List.length_cons] at hgo ⊢; omega) k).mp
      ⟨⟨kn, hk⟩, hkk⟩
    obtain ⟨b5, b4, b2, b1⟩ := bits_rec m
    obtain ⟨c1, c2, c3, c4, rest1, e1⟩ := (decodeRecPart_iff _ _ _ _ _ _ (by simp)).mp h1
    have l1 := congrArg List.length e1
    simp only [List.length_drop, List.length_cons, List.length_append] at l1
    simp only at h2
    obtain ⟨d1, d2, d3, d4, rest2, e2⟩ := (decodeRecPart_iff _ _ _ _ _ _ (by simp only [List.length_cons]; omega)).mp h2
    rw [c4, ← List.drop_drop, e1, List.drop_left] at e2
    have l2 := congrArg List.length e2
    simp only [List.length_append] at l2
    simp only at h3
    obtain ⟨t, rest3, e3, t2, t3⟩ := (decodeRecTime_iff _ _ _ _ _ (by simp only [List.length_cons]; omega)).mp h3
    rw [d4, c4, ← List.drop_drop, ← List.drop_drop, e1, List.drop_left, e2, List.drop_left] at e3
    have l3 := congrArg List.length e3
    simp only [List.length_append] at l3
    simp only at h4
    obtain ⟨g, rest4, e4, g2, g3⟩ := (decodeRecSig_iff _ _ _ _ _ (by simp only [List.length_cons]; omega)).mp h4
    rw [t2, d4, c4, ← List.drop_drop, ← List.drop_drop, ← List.drop_drop, e1, List.drop_left, e2, List.drop_left, e3,
      List.drop_left] at e4
    simp only [List.drop_succ_cons, List.drop_zero, Nat.reduceAdd] at e1
    have hbuf : m :: k0 :: tail = m :: k0 :: (v.buf ++ s.buf ++ t ++ g ++ rest4) := by
      rw [e1, e2, e3, e4]; simp
    have hb6 : m.toNat.testBit 6 = true := by
      rw [bit6] at hb
      simpa using hb
    have hbt : b = m :: k0 :: (v.buf ++ s.buf ++ t ++ g) := by
      obtain ⟨-, rfl⟩ := goSlice_zero_ok h5
      simp only
      rw [hbuf, show p4 = (m :: k0 :: (v.buf ++ s.buf ++ t ++ g)).length by
        simp only [List.length_cons, List.length_append]; omega,
        show m :: k0 :: (v.buf ++ s.buf ++ t ++ g ++ rest4) = m :: k0 :: (v.buf ++ s.buf ++ t ++ g) ++ rest4 by simp,
        List.take_left]
    subst heq
    refine ⟨m, k0, t, g, rest4, hbuf, hbt, ?_, hb6, b5.mp c1, b4.mp d1, hz, hkeq, c2, c3, d2, d3, ?_, ?_⟩
    · simp only [hbt, List.length_cons, List.length_append]; omega
    · simpa only [b2] using t3
    · simpa only [b1] using g3
  · rintro ⟨m, k0, t, g, rest, hbuf, hb, hn, m6, m5, m4, hz, hk, v1, v2, s1, s2, t1, g1⟩
    obtain ⟨b5, b4, b2, b1⟩ := bits_rec m
    have hlen := congrArg List.length hbuf
    simp only [List.length_cons, List.length_append] at hlen
    obtain ⟨⟨kn, hkn⟩, -⟩ := (newMappedKey_empty_iff (buf.drop 1) (by rw [hbuf]; simp) (by rw [List.length_drop]; omega) r.key).mpr ⟨hz, hk⟩
    have hg : r.key.getBuf.length = 1 := by
      simp [MappedKey.getBuf, MappedKey.isEmpty, hk]
    unfold decodeRecord
    have hm0 : goByte buf 0 = .ok m := by rw [hbuf]; rfl
    have e0 : buf.drop 2 = r.value.buf ++ (r.scheme.buf ++ (t ++ (g ++ rest))) := by rw [hbuf]; simp
    rw [if_neg (by omega), hm0, Res.bind_ok, if_neg (by rw [bit6, m6]; simp), hkn, Res.bind_ok]
    simp only
    rw [if_neg (by rw [hg]; decide), hg,
      (decodeRecPart_iff buf _ maxValueLength (1 + 1) r.value (2 + r.value.buf.length) (by omega)).mpr ⟨b5.mpr m5, v1, v2, rfl, _, e0⟩,
      Res.bind_ok]
    have e1 : buf.drop (2 + r.value.buf.length) = r.scheme.buf ++ (t ++ (g ++ rest)) := by
      rw [← List.drop_drop, e0, List.drop_left]
    simp only
    rw [(decodeRecPart_iff buf _ maxRecSchemeLength (2 + r.value.buf.length) r.scheme
      (2 + r.value.buf.length + r.scheme.buf.length) (by omega)).mpr ⟨b4.mpr m4, s1, s2, rfl, _, e1⟩, Res.bind_ok]
    have e2 : buf.drop (2 + r.value.buf.length + r.scheme.buf.length) = t ++ (g ++ rest) := by
      rw [← List.drop_drop, e1, List.drop_left]
    simp only
    rw [(decodeRecTime_iff buf _ (2 + r.value.buf.length + r.scheme.buf.length) r.timestamp
      (2 + r.value.buf.length + r.scheme.buf.length + t.length) (by omega)).mpr ⟨t, g ++ rest, e2, rfl, by simpa only [b2] using t1⟩,
      Res.bind_ok]
    have e3 : buf.drop (2 + r.value.buf.length + r.scheme.buf.length + t.length) = g ++ rest := by
      rw [← List.drop_drop, e2, List.drop_left]
    simp only
    rw [(decodeRecSig_iff buf _ (2 + r.value.buf.length + r.scheme.buf.length + t.length) r.signature
      (2 + r.value.buf.length + r.scheme.buf.length + t.length + g.length) (by omega)).mpr
      ⟨g, rest, e3, rfl, by simpa only [b1] using g1⟩, Res.bind_ok]
    simp only
    have e4 := goSlice_drop (buf := buf) (pos := 0) (p := []) (q := r.buf) (r := rest) (by omega) (by rw [hbuf, hb]; simp)
    have e5 : 2 + r.value.buf.length + r.scheme.buf.length + t.length + g.length = r.buf.length := by
      rw [hb]; simp only [List.length_cons, List.length_append]; omega
    simp only [List.length_nil, Nat.cast_zero, zero_add] at e4
    rw [e5, e4, Res.bind_ok, ← hn]

example : IsMappedRecord ([0x76, 0x00, 0x01, 1, 0x61, 0x00] ++ [255, 255, 255, 255, 255, 255, 255, 254] ++ List.replicate 32 1 ++
    List.replicate 32 2 ++ [9])
    { buf := [0x76, 0x00, 0x01, 1, 0x61, 0x00] ++ [255, 255, 255, 255, 255, 255, 255, 254] ++ List.replicate 32 1 ++ List.replicate 32 2,
      key := ⟨[], [0x00, 0x01, 1, 0x61, 0x00] ++ [255, 255, 255, 255, 255, 255, 255, 254] ++ List.replicate 32 1 ++
        List.replicate 32 2 ++ [9]⟩,
      value := ⟨[0x01, 1, 0x61], .prim, 0, [0x61]⟩, scheme := ⟨[0x00], .prim, 0, []⟩, timestamp := some (-2),
      signature := some ((bigEndian (List.replicate 32 1) : Int), (bigEndian (List.replicate 32 2) : Int)) } 78 := by
  rw [← C52_format _ (by decide)]
  decide +kernel

end Poodle.Props
