import Verif.Spec.MappedObj
import Verif.Props.ValueCopy

/-
Property C191: objects made from bytes, in any sequence of calls.
-/

namespace Poodle.Props
open Poodle Poodle.Spec

/-! ### Keys -/

theorem subKeyLoop_eq (n : Nat) : ∀ buf : Bytes, match decodeSubKeys n buf with
    | .ok (ks, m) => subKeyLoop n buf = (ks, .ok m)
    | .err => (subKeyLoop n buf).2 = .err
    | .panic => (subKeyLoop n buf).2 = .panic := by
  induction n with
  | zero => intro buf; rfl
  | succ n ih =>
    intro buf
    rw [decodeSubKeys, subKeyLoop]
    rcases hd : decodeVarchar buf with ⟨d, len⟩ | - | -
    · simp only [Res.bind_ok]
      have := ih (buf.drop len)
      rcases hk : decodeSubKeys n (buf.drop len) with ⟨ks, m⟩ | - | -
      · rw [hk] at this
        simp only [Res.bind_ok, this]
      · rw [hk] at this
        simp only [Res.bind_err]
        rcases hl : subKeyLoop n (buf.drop len) with ⟨bs, r⟩
        rw [hl] at this
        simp only at this
        rw [this]
      · rw [hk] at this
        simp only [Res.bind_panic]
        rcases hl : subKeyLoop n (buf.drop len) with ⟨bs, r⟩
        rw [hl] at this
        simp only at this
        rw [this]
    · simp only [Res.bind_err]
    · simp only [Res.bind_panic]

theorem keyDecode_eq (k : MKey) : match newMappedKey k.buf with
    | .ok (m, n) => m.buf = k.buf ∧ k.decode = ({ decoded := true, keys := m.keys, buf := k.buf }, .ok n)
    | .err => k.decode.2 = .err
    | .panic => k.decode.2 = .panic := by
  rw [newMappedKey, MKey.decode]
  rcases hc : decodeUvarint64 k.buf with ⟨c, len⟩ | - | -
  · simp only [Res.bind_ok]
    by_cases hm : c > maxMake24
    · rw [if_pos hm, if_pos hm]
    · rw [if_neg hm, if_neg hm]
      have := subKeyLoop_eq c (k.buf.drop len)
      rcases hk : decodeSubKeys c (k.buf.drop len) with ⟨ks, m⟩ | - | -
      · rw [hk] at this
        simp only [Res.bind_ok, this, and_self]
      · rw [hk] at this
        simp only [Res.bind_err]
        rcases hl : subKeyLoop c (k.buf.drop len) with ⟨bs, r⟩
        rw [hl] at this
        simp only at this
        rw [this]
      · rw [hk] at this
        simp only [Res.bind_panic]
        rcases hl : subKeyLoop c (k.buf.drop len) with ⟨bs, r⟩
        rw [hl] at this
        simp only at this
        rw [this]
  · simp only [Res.bind_err]
  · simp only [Res.bind_panic]

/-! ### Standard values -/

theorem decodeCount_isSet {buf : Bytes} {bits : UInt8} {pos pos' : Nat} {r : Option Nat}
    (h : decodeCount buf bits true pos = .ok (r, pos')) : r = none := by
  unfold decodeCount at h
  by_cases h0 : bits = 0
  · simp [h0] at h; exact h.1.symm
  · simp [h0] at h

theorem stdDecode_eq (d : MStd) (hne : d.buf ≠ []) : match decodeStd d.buf with
    | .ok (v, n) => d.decode = (⟨true, v.buf, if v.kind = .array then some v.size else d.arr,
        if v.kind = .records then some v.size else d.recs, if v.kind = .prim then d.size else v.size, some v.content⟩, .ok n) ∧ (v.kind = .prim → v.size = 0)
    | .err => d.decode.2 = .err
    | .panic => d.decode.2 = .panic := by
  obtain ⟨dec, buf, arr0, recs0, size0, content0⟩ := d
  cases buf with
  | nil => exact absurd rfl hne
  | cons magic rest =>
    rw [decodeStd, if_neg (by simp), goByte_head, Res.bind_ok]
    simp only [MStd.decode]
    rcases h1 : decodeCount (magic :: rest) ((magic >>> 6) &&& 0x03) false 1 with ⟨arr, pos⟩ | - | -
    rotate_left
    · simp only [Res.bind_err]
    · simp only [Res.bind_panic]
    simp only [Res.bind_ok]
    rcases h2 : decodeCount (magic :: rest) ((magic >>> 4) &&& 0x03) arr.isSome pos with ⟨recs, pos2⟩ | - | -
    rotate_left
    · simp only [Res.bind_err]
    · simp only [Res.bind_panic]
    simp only [Res.bind_ok]
    have hb : ∀ (a r : Option Nat), ((MStd.setArr ⟨dec, magic :: rest, arr0, recs0, size0, content0⟩ a).setRecs r).buf = magic :: rest := by
      intro a r; cases a <;> cases r <;> rfl
    unfold MStd.decodeEnd
    rw [hb]
    by_cases c1 : (magic >>> 3) &&& 0x01 = 1
    · rw [if_pos c1, if_pos c1]
    rw [if_neg c1, if_neg c1]
    by_cases c2 : (magic >>> 2) &&& 0x01 = 1
    · rw [if_pos c2, if_pos c2]
    rw [if_neg c2, if_neg c2]
    rcases h3 : decodeContent (magic :: rest) (magic &&& 0x03) pos2 with ⟨len, pos3⟩ | - | -
    rotate_left
    · simp only [Res.bind_err]
    · simp only [Res.bind_panic]
    simp only [Res.bind_ok]
    rcases h4 : goSlice (magic :: rest) ((pos3 : Int) - len) pos3 with c | - | -
    rotate_left
    · simp only [Res.bind_err]
    · simp only [Res.bind_panic]
    simp only [Res.bind_ok]
    rcases arr with - | a
    · rcases recs with - | r
      · simp [MStd.setArr, MStd.setRecs]
      · simp [MStd.setArr, MStd.setRecs]
    · have := decodeCount_isSet h2
      subst this
      simp [MStd.setArr, MStd.setRecs]

/-! ### Records -/

/-- The object with the parts of a decoded record; parts that the first byte does not announce are as before. -/
theorem recordDecode_eq (r : MRecord) (hne : r.buf ≠ []) : match decodeRecord r.buf with
    | .ok (c, n) => (r.timestamp = none ∨ r.timestamp = c.timestamp) → (r.signature = none ∨ r.signature = c.signature) →
      r.decode = (⟨true, c.buf, some c.key, some c.value, some c.scheme, c.timestamp, c.signature⟩, .ok n)
    | .err => r.decode.2 = .err
    | .panic => r.decode.2 = .panic := by
  obtain ⟨dec, buf, key0, value0, scheme0, time0, sig0⟩ := r
  cases buf with
  | nil => exact absurd rfl hne
  | cons magic rest =>
    rw [decodeRecord, if_neg (by simp), goByte_head, Res.bind_ok]
    simp only [MRecord.decode]
    by_cases c6 : (magic >>> 6) &&& 0x01 = 0
    · rw [if_pos c6, if_pos c6]
    rw [if_neg c6, if_neg c6]
    rcases h1 : newMappedKey ((magic :: rest).drop 1) with ⟨k, kn⟩ | - | -
    rotate_left
    · simp only [Res.bind_err]
    · simp only [Res.bind_panic]
    simp only [Res.bind_ok]
    by_cases ck : k.getBuf.length > maxKeyLength
    · rw [if_pos ck, if_pos ck]
    rw [if_neg ck, if_neg ck]
    unfold MRecord.decodeValues
    dsimp only
    rcases h2 : decodeRecPart (magic :: rest) ((magic >>> 5) &&& 0x01) maxValueLength (1 + k.getBuf.length) with ⟨v, p2⟩ | - | -
    rotate_left
    · simp only [Res.bind_err]
    · simp only [Res.bind_panic]
    simp only [Res.bind_ok]
    rcases h3 : decodeRecPart (magic :: rest) ((magic >>> 4) &&& 0x01) maxRecSchemeLength p2 with ⟨s, p3⟩ | - | -
    rotate_left
    · simp only [Res.bind_err]
    · simp only [Res.bind_panic]
    simp only [Res.bind_ok]
    unfold MRecord.decodeTime
    dsimp only
    rcases h4 : decodeRecTime (magic :: rest) ((magic >>> 2) &&& 0x01) p3 with ⟨t, p4⟩ | - | -
    rotate_left
    · simp only [Res.bind_err]
    · simp only [Res.bind_panic]
    simp only [Res.bind_ok]
    have ht : (magic >>> 2) &&& 0x01 = 0 → t = none := by
      intro hz
      rw [decodeRecTime, if_neg (by simp [hz])] at h4
      simp at h4; exact h4.1.symm
    have e4 : (if (magic >>> 2) &&& 0x01 ≠ 0 then (⟨dec, magic :: rest, some k, some v, some s, t, sig0⟩ : MRecord)
        else ⟨dec, magic :: rest, some k, some v, some s, time0, sig0⟩) =
        ⟨dec, magic :: rest, some k, some v, some s, if (magic >>> 2) &&& 0x01 ≠ 0 then t else time0, sig0⟩ := by split <;> rfl
    rw [e4]
    unfold MRecord.decodeSig
    dsimp only
    rcases h5 : decodeRecSig (magic :: rest) ((magic >>> 1) &&& 0x01) p4 with ⟨g, p5⟩ | - | -
    rotate_left
    · simp only [Res.bind_err]
    · simp only [Res.bind_panic]
    simp only [Res.bind_ok]
    have hg : (magic >>> 1) &&& 0x01 = 0 → g = none := by
      intro hz
      rw [decodeRecSig, if_neg (by simp [hz])] at h5
      simp at h5; exact h5.1.symm
    have e5 : ∀ tt, (if (magic >>> 1) &&& 0x01 ≠ 0 then (⟨dec, magic :: rest, some k, some v, some s, tt, g⟩ : MRecord)
        else ⟨dec, magic :: rest, some k, some v, some s, tt, sig0⟩) =
        ⟨dec, magic :: rest, some k, some v, some s, tt, if (magic >>> 1) &&& 0x01 ≠ 0 then g else sig0⟩ := by intro tt; split <;> rfl
    rw [e5]
    dsimp only
    rcases h6 : goSlice (magic :: rest) 0 p5 with b | - | -
    rotate_left
    · simp only [Res.bind_err]
    · simp only [Res.bind_panic]
    simp only [Res.bind_ok]
    intro e1 e2
    by_cases z2 : (magic >>> 2) &&& 0x01 = 0 <;> by_cases z1 : (magic >>> 1) &&& 0x01 = 0
    · have := ht z2; have := hg z1; subst t g
      simp at e1 e2
      simp [z1, z2, e1, e2]
    · have := ht z2; subst t
      simp at e1
      simp [z1, z2, e1]
    · have := hg z1; subst g
      simp at e2
      simp [z1, z2, e2]
    · simp [z1, z2]

theorem count_cut {b rest : Bytes} (hne : b ≠ []) {p q : Bytes} (hp : b ++ rest = p ++ q) (hz : IsUvarint p 0)
    (hlen : p.length ≤ 10) (hno : ¬ ∃ p q, b = p ++ q ∧ IsUvarint p 0 ∧ p.length ≤ 10) : newMappedKey b = .err := by
  have hb : b <+: p := by
    rcases List.append_eq_append_iff.mp hp with ⟨a, h1, -⟩ | ⟨a, h1, -⟩
    · exact ⟨a, h1.symm⟩
    · exact absurd ⟨p, a, h1, hz, hlen⟩ hno
  have hbp : b ≠ p := by
    rintro rfl
    exact hno ⟨b, [], by simp, hz, hlen⟩
  rw [newMappedKey, (uvarint_strict_prefix_err hz hb hbp hne).1]
  rfl

/-- Histories: if the objects in a set are decoded into the set, and answer as given. -/
theorem hist {S : MObj → Prop} {f : MCall → Res MOut} (h : ∀ o, S o → S o.decode.1 ∧ ∀ call, (o.call call).2 = f call) :
    ∀ (cs : List MCall) (o : MObj), S o → (o.calls cs).2 = cs.map f := by
  intro cs
  induction cs with
  | nil => intro o _; rfl
  | cons c cs ih =>
    intro o ho
    obtain ⟨h1, h2⟩ := h o ho
    rw [MObj.calls, List.map_cons, h2 c, ih]
    cases c
    case decode => exact h1
    all_goals exact ho

theorem make_key (buf : Bytes) : match MType.key.make buf with
    | .ok (o, n) => ∃ c b, meant buf .key = .ok (c, b, n) ∧ ∀ again cs, (o.calls cs).2 = cs.map (given .key c b n again)
    | .err => meant buf .key = .err
    | .panic => meant buf .key = .panic := by
  have e1 := keyDecode_eq ⟨false, [], buf⟩
  dsimp only at e1
  rw [MType.make, if_neg (by simp), MType.fresh, MObj.decode, meant]
  rcases hm : newMappedKey buf with ⟨m, n⟩ | - | -
  · rw [hm] at e1
    obtain ⟨e1, e2⟩ := e1
    rw [e2]
    refine ⟨_, _, rfl, fun again cs => hist (S := fun o => o = .key ⟨true, m.keys, buf⟩) ?_ cs _ rfl⟩
    rintro o rfl
    have e3 := keyDecode_eq ⟨true, m.keys, buf⟩
    dsimp only at e3
    rw [hm] at e3
    refine ⟨by rw [MObj.decode, e3.2], fun call => ?_⟩
    have hem : MKey.isEmpty ⟨true, m.keys, buf⟩ = .ok m.isEmpty := by
      rw [MKey.isEmpty, MappedKey.isEmpty, e1]
      cases buf.isEmpty <;> simp
    cases call
    case decode => simp [MObj.call, MObj.decode, e3.2, given, Res.bind]
    case encode => rfl
    case isDecoded => rfl
    case isEncoded => rfl
    case buf => simp [MObj.call, MObj.getBuf, MKey.getBuf, hem, given, promised, Res.bind, MappedKey.getBuf, e1]
    case est =>
      simp only [MObj.call, MObj.est, MKey.est, hem, given, promised, Res.bind_ok, Res.bind, MappedKey.getBuf, e1]
      cases m.isEmpty <;> rfl
    case content => simp [MObj.call, MObj.content, hem, MKey.getKey, given, promised, Res.bind]
  · rw [hm] at e1
    rcases hd : MKey.decode ⟨false, [], buf⟩ with ⟨k, r⟩
    rw [hd] at e1
    dsimp only at e1
    subst e1
    rfl
  · rw [hm] at e1
    rcases hd : MKey.decode ⟨false, [], buf⟩ with ⟨k, r⟩
    rw [hd] at e1
    dsimp only at e1
    subst e1
    rfl

theorem make_simple (buf : Bytes) (hl : buf.length < 2 ^ 63) : match MType.simple.make buf with
    | .ok (o, n) => ∃ c b, meant buf .simple = .ok (c, b, n) ∧ ∀ cs, (o.calls cs).2 = cs.map (promised c b n)
    | .err => meant buf .simple = .err
    | .panic => meant buf .simple = .panic := by
  rw [MType.make, if_neg (by simp), MType.fresh, MObj.decode, meant, MSimple.decode, decodeSimple]
  dsimp only
  rcases hm : decodeVarchar buf with ⟨d, n⟩ | - | -
  · refine ⟨_, _, rfl, fun cs => hist (S := fun o => o = .simple ⟨true, buf.take n, some d⟩) ?_ cs _ rfl⟩
    rintro o rfl
    have hd : decodeVarchar (buf.take n) = .ok (d, n) := by
      rcases buf with - | ⟨x, b⟩
      · simpa using hm
      · exact (C02_decodeVarchar_in_bounds _ (by simp) hl d n hm).2.2.2.2 _ (by rw [List.length_take]; omega) (by rw [List.take_take, Nat.min_self])
    have e : MSimple.decode ⟨true, buf.take n, some d⟩ = (⟨true, buf.take n, some d⟩, .ok n) := by
      rw [MSimple.decode]
      dsimp only
      rw [hd]
      simp [List.take_take]
    refine ⟨by rw [MObj.decode, e], fun call => ?_⟩
    cases call
    case decode => simp [MObj.call, MObj.decode, e, promised, Res.bind]
    case content =>
      simp only [MObj.call, MObj.content, promised, Res.bind, Slice.bytes]
      cases d <;> rfl
    all_goals rfl
  · rfl
  · rfl

theorem make_std (buf : Bytes) : match MType.std.make buf with
    | .ok (o, n) => ∃ c b, meant buf .std = .ok (c, b, n) ∧ ∀ cs, (o.calls cs).2 = cs.map (promised c b n)
    | .err => meant buf .std = .err
    | .panic => meant buf .std = .panic := by
  by_cases hb : buf = []
  · subst hb; rfl
  have hlen : ¬ buf.length < 1 := by
    have := List.length_pos_iff.mpr hb
    omega
  rw [MType.make, if_neg (by simp [hlen]), MType.fresh, MObj.decode, meant]
  have e1 := stdDecode_eq ⟨false, buf, none, none, 0, none⟩ hb
  dsimp only at e1
  rcases hm : decodeStd buf with ⟨v, n⟩ | - | -
  · rw [hm] at e1
    obtain ⟨e1, hv⟩ := e1
    rw [e1]
    obtain ⟨rest, h1, h2, h3⟩ := (decodeStd_ok_iff _ _ _).mp hm
    have hd := (decodeStd_ok_iff v.buf v v.buf.length).mpr ⟨[], by simp, rfl, h3⟩
    have hne : v.buf ≠ [] := by
      intro h0
      rw [h0] at hd
      simp [decodeStd] at hd
    refine ⟨_, _, rfl, fun cs => hist (S := fun o => o = .std ⟨true, v.buf, if v.kind = .array then some v.size else none,
      if v.kind = .records then some v.size else none, if v.kind = .prim then 0 else v.size, some v.content⟩) ?_ cs _ rfl⟩
    rintro o rfl
    have e2 := stdDecode_eq ⟨true, v.buf, if v.kind = .array then some v.size else none,
      if v.kind = .records then some v.size else none, if v.kind = .prim then 0 else v.size, some v.content⟩ hne
    dsimp only at e2
    rw [hd] at e2
    have e3 := e2.1
    have hn : v.buf.length = n := h2.symm
    refine ⟨?_, fun call => ?_⟩
    · rw [MObj.decode, e3]
      cases v.kind <;> rfl
    · cases call
      case decode => simp [MObj.call, MObj.decode, e3, promised, Res.bind, hn]
      case content =>
        simp only [MObj.call, MObj.content, promised, MStd.content', MStd.kind, StdValue.value]
        cases hk : v.kind
        case prim => simp [Res.bind, hv hk]
        all_goals simp [Res.bind]
      all_goals rfl
  · rw [hm] at e1
    rcases hd : MStd.decode ⟨false, buf, none, none, 0, none⟩ with ⟨k, r⟩
    rw [hd] at e1
    dsimp only at e1
    subst e1
    rfl
  · rw [hm] at e1
    rcases hd : MStd.decode ⟨false, buf, none, none, 0, none⟩ with ⟨k, r⟩
    rw [hd] at e1
    dsimp only at e1
    subst e1
    rfl

theorem make_record (buf : Bytes) (hl : buf.length < 2 ^ 63) : match MType.record.make buf with
    | .ok (o, n) => ∃ c b, meant buf .record = .ok (c, b, n) ∧ ∀ again, (again = true ↔ countWithin b) → ∀ cs,
        (o.calls cs).2 = cs.map (given .record c b n again)
    | .err => meant buf .record = .err
    | .panic => meant buf .record = .panic := by
  by_cases hb : buf = []
  · subst hb; rfl
  have hlen : ¬ buf.length < 1 := by
    have := List.length_pos_iff.mpr hb
    omega
  rw [MType.make, if_neg (by simp [hlen]), MType.fresh, MObj.decode, meant]
  have e1 := recordDecode_eq ⟨false, buf, none, none, none, none, none⟩ hb
  dsimp only at e1
  rcases hm : decodeRecord buf with ⟨v, n⟩ | - | -
  · rw [hm] at e1
    have e1 := e1 (Or.inl rfl) (Or.inl rfl)
    rw [e1]
    have hkeys := C50_decoded_key_empty_partial buf v n hm
    obtain ⟨mg, k, ts, sg, rest, hbuf, hrb, hn, -, -, -, hz, hk, -⟩ := (C52_format buf hl v n).mp hm
    have hnl : v.buf.length = n := hn.symm
    have hreal : realRec (.mapped v) := by
      rw [realRec]
      exact ⟨buf, n, hl, hm⟩
    obtain ⟨hc1, hc2⟩ := copyMapped_real hreal
    have hne : v.buf ≠ [] := by
      rw [hrb]; simp
    refine ⟨_, _, rfl, fun again hag cs => hist (S := fun o => ∃ kb, o = .record ⟨true, v.buf, some ⟨[], kb⟩, some v.value, some v.scheme,
      v.timestamp, v.signature⟩) ?_ cs _ ⟨v.key.buf, ?_⟩⟩
    rotate_left
    · rw [← hkeys]
    rintro o ⟨kb, rfl⟩
    have e2 := recordDecode_eq ⟨true, v.buf, some ⟨[], kb⟩, some v.value, some v.scheme, v.timestamp, v.signature⟩ hne
    dsimp only at e2
    have hother : ∀ call, call ≠ .decode → ((MObj.record ⟨true, v.buf, some ⟨[], kb⟩, some v.value, some v.scheme, v.timestamp,
        v.signature⟩).call call).2 = given .record (.record (some ([], [0x00])) (some v.value) (some v.scheme) v.timestamp v.signature)
        v.buf n again call := by
      intro call hcall
      cases call
      case decode => exact absurd rfl hcall
      case content => simp [MObj.call, MObj.content, given, promised, Res.bind, MappedKey.getBuf, MappedKey.isEmpty]
      all_goals rfl
    by_cases hcw : countWithin v.buf
    · obtain ⟨c, q1, q2⟩ := hc1 hcw
      have hat := hag.mpr hcw
      rcases hd : decodeRecord v.buf with ⟨c', n'⟩ | - | -
      · have : c' = c := by
          rw [RecInfo.copy, hd] at q1
          simpa using q1
        subst this
        obtain ⟨w1, w2, w3, w4, w5, w6⟩ := q2
        have hck := C50_decoded_key_empty_partial _ _ _ hd
        rw [hd] at e2
        have e3 := e2 (Or.inr w5.symm) (Or.inr w6.symm)
        have hn' : n' = n := by
          have hl' : v.buf.length < 2 ^ 63 := by
            have h1 := congrArg List.length hbuf
            rw [hrb]
            simp only [List.length_cons, List.length_append] at h1 ⊢
            omega
          obtain ⟨-, -, -, -, -, -, -, g, -⟩ := (C52_format v.buf hl' c' n').mp hd
          rw [g, w1, hn]
        refine ⟨⟨c'.key.buf, ?_⟩, fun call => ?_⟩
        · rw [MObj.decode, e3, w1, w3, w4, w5, w6, ← hck]
        · by_cases hcall : call = .decode
          · subst hcall
            simp [MObj.call, MObj.decode, e3, given, hat, Res.bind, hn']
          · exact hother call hcall
      · rw [RecInfo.copy, hd] at q1; exact absurd q1 (by simp)
      · rw [RecInfo.copy, hd] at q1; exact absurd q1 (by simp)
    · have hat : again = false := by
        cases again
        · rfl
        · exact absurd (hag.mp rfl) hcw
      have hnk : newMappedKey (v.buf.drop 1) = .err := by
        obtain ⟨p, q, z1, z2, z3⟩ := hz
        refine count_cut (rest := rest) ?_ ?_ z2 z3 hcw (q := q)
        · rw [hrb]; simp
        · rw [← z1, hbuf, hrb]
          simp
      have e3 : MRecord.decode ⟨true, v.buf, some ⟨[], kb⟩, some v.value, some v.scheme, v.timestamp, v.signature⟩ =
          (⟨true, v.buf, some ⟨[], kb⟩, some v.value, some v.scheme, v.timestamp, v.signature⟩, .err) := by
        rw [MRecord.decode]
        dsimp only
        rw [hnk]
        rw [hrb]
        have h6 : ¬ (mg >>> 6) &&& 0x01 = 0 := by
          intro h0
          rw [hbuf, decodeRecord, if_neg (by simp), goByte_head, Res.bind_ok, if_pos h0] at hm
          exact absurd hm (by simp)
        simp only [h6, if_false]
      refine ⟨⟨kb, ?_⟩, fun call => ?_⟩
      · rw [MObj.decode, e3]
      · by_cases hcall : call = .decode
        · subst hcall
          simp [MObj.call, MObj.decode, e3, given, hat, Res.bind]
        · exact hother call hcall
  · rw [hm] at e1
    rcases hd : MRecord.decode ⟨false, buf, none, none, none, none, none⟩ with ⟨k, r⟩
    rw [hd] at e1
    dsimp only at e1
    subst e1
    rfl
  · rw [hm] at e1
    rcases hd : MRecord.decode ⟨false, buf, none, none, none, none, none⟩ with ⟨k, r⟩
    rw [hd] at e1
    dsimp only at e1
    subst e1
    rfl

/-- C191: objects made from bytes keep the promises of their interface, whatever is called in whatever order. -/
def KeepsPromises : Prop := ∀ (t : MType) (buf : Bytes) (o : MObj) (n : Nat), buf.length < 2 ^ 63 → t.make buf = .ok (o, n) →
  ∃ c b, meant buf t = .ok (c, b, n) ∧ ∀ cs, (o.calls cs).2 = cs.map (promised c b n)

/-- C191 does not hold: a key says that it is not decoded. -/
theorem C191_refuted : ¬ KeepsPromises := by
  intro h
  obtain ⟨c, b, -, h⟩ := h .key [1, 1, 7] (.key ⟨true, [some [7]], [1, 1, 7]⟩) 3 (by decide) (by decide +kernel)
  have := h [.isDecoded]
  revert this
  simp [MObj.calls, MObj.call, MObj.isDecoded, MKey.isDecoded, promised]

/-- C191, exactly: constructors fail where the bytes have no meaning, and otherwise the object answers as `given`, in any sequence of
calls: as promised, but that keys say they are not decoded and return no error when they are encoded, and that records, if the count of sub keys
does not end within their bytes, return an error when they are decoded again (and stay as they are). -/
theorem C191_partial (t : MType) (buf : Bytes) (hl : buf.length < 2 ^ 63) : match t.make buf with
    | .ok (o, n) => ∃ c b, meant buf t = .ok (c, b, n) ∧ ∀ again, (again = true ↔ countWithin b) → ∀ cs,
        (o.calls cs).2 = cs.map (given t c b n again)
    | .err => meant buf t = .err
    | .panic => meant buf t = .panic := by
  have hv : ∀ (c : MContent) (b : Bytes) (n : Nat) (again : Bool), promised c b n = given .simple c b n again ∧
      promised c b n = given .std c b n again := by
    intro c b n again
    constructor <;> funext call <;> cases call <;> rfl
  cases t
  · have := make_key buf
    split at this
    · obtain ⟨c, b, h1, h2⟩ := this
      exact ⟨c, b, h1, fun again _ => h2 again⟩
    · exact this
    · exact this
  · have := make_simple buf hl
    split at this
    · obtain ⟨c, b, h1, h2⟩ := this
      exact ⟨c, b, h1, fun again _ => (hv c b _ again).1 ▸ h2⟩
    · exact this
    · exact this
  · have := make_std buf
    split at this
    · obtain ⟨c, b, h1, h2⟩ := this
      exact ⟨c, b, h1, fun again _ => (hv c b _ again).2 ▸ h2⟩
    · exact this
    · exact this
  · exact make_record buf hl

/-- C191, what holds: values keep the promises. -/
theorem C191_values_partial (t : MType) (ht : t = .simple ∨ t = .std) (buf : Bytes) (hl : buf.length < 2 ^ 63) (o : MObj) (n : Nat)
    (h : t.make buf = .ok (o, n)) : ∃ c b, meant buf t = .ok (c, b, n) ∧ ∀ cs, (o.calls cs).2 = cs.map (promised c b n) := by
  rcases ht with rfl | rfl
  · have := make_simple buf hl
    rw [h] at this
    exact this
  · have := make_std buf
    rw [h] at this
    exact this

/-- An array with two elements announced, followed by something else. -/
example : MType.std.make [0x41, 2, 3, 9, 9, 9, 7] = .ok (.std ⟨true, [0x41, 2, 3, 9, 9, 9], some 2, none, 2, some [9, 9, 9]⟩, 6) ∧
    ((MObj.std ⟨true, [0x41, 2, 3, 9, 9, 9], some 2, none, 2, some [9, 9, 9]⟩).calls [.decode, .encode, .content]).2 =
      [.ok (.number 6), .err, .ok (.content (.std .array 2 none))] := by decide +kernel

/-- A record that refuses to be decoded again, and remains as it is. -/
example : ∃ o, MType.record.make badRecord = .ok (o, 8) ∧ (o.calls [.decode, .isDecoded, .decode]).2 = [.err, .ok (.flag true), .err] :=
  ⟨.record ⟨true, [0x70, 0x80, 0x80, 0x80, 0x80, 0x80, 0x80, 0x80], some ⟨[], [0x80, 0x80, 0x80, 0x80, 0x80, 0x80, 0x80, 0x00]⟩,
    some ⟨[0x80, 0x80, 0x80], .array, 0x8080, []⟩, some ⟨[0x80, 0x80, 0x80], .array, 0x8080, []⟩, none, none⟩, by decide +kernel⟩

example := C191_partial .std [0x41, 2, 3, 9, 9, 9, 7] (by decide)

end Poodle.Props
