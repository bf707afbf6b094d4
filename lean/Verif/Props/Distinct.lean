import Verif.Spec.Distinct
import Verif.Props.Record
import Verif.Lemmas.ValueEnc

/-
Property C211: which values and records have the same encoding (/repo/src/util/value_util.go, /repo/src/util/record_util.go).
-/

namespace Poodle.Props
open Poodle Poodle.Spec

/-! ### C211 Different values and records have different encodings -/

theorem keyPart_cases {k : Option KeyObj} {o : Option Bytes} (hk : ownKey k = true) (h : IsKeyPart k o) :
    (o = none ∧ shownKey k = none) ∨ ∃ key key' : Key, k = some (.key key) ∧ key.encode = (key', true) ∧
      ∃ w, key'.getBuf = .ok w ∧ o = some w ∧ w = keyBytes key.keys ∧ shownKey k = some (key.keys.map Slice.bytes) := by
  cases k with
  | none => exact .inl ⟨h, rfl⟩
  | some k =>
    cases k with
    | empty => simp [IsKeyPart, KeyObj.isEmpty] at h; exact .inl ⟨h, rfl⟩
    | mapped m => simp [ownKey] at hk
    | key key =>
      simp only [IsKeyPart, KeyObj.isEmpty, List.isEmpty_iff] at h
      by_cases he : key.keys = []
      · rw [if_pos he] at h
        exact .inl ⟨h, by simp [shownKey, he]⟩
      · rw [if_neg he] at h
        obtain ⟨w, hw, ho⟩ := h
        have e : keyPartBytes (.key key) = if key.encode.2 then key.encode.1.getBuf else .err := rfl
        rw [e] at hw
        by_cases h2 : key.encode.2 = true
        · rw [if_pos h2] at hw
          refine .inr ⟨key, key.encode.1, rfl, Prod.ext rfl h2, w, hw, ho, ?_, by simp [shownKey, he]⟩
          rw [key_encode_eq] at h2
          rw [key_encode_eq] at hw
          split at h2
          · rename_i hl
            rw [if_pos hl] at hw
            simpa [Key.getBuf, Slice.bytes] using hw.symm
          · simp at h2
        · rw [if_neg h2] at hw
          simp at hw

theorem keyPart_inj {k k' : Option KeyObj} {o o' : Option Bytes} (hk : ownKey k = true) (hk' : ownKey k' = true) (h : IsKeyPart k o)
    (h' : IsKeyPart k' o') (hs : o.isSome = o'.isSome) {r r' : Bytes} (e : o.getD [] ++ r = o'.getD [] ++ r') :
    o = o' ∧ r = r' ∧ shownKey k = shownKey k' := by
  rcases keyPart_cases hk h with ⟨rfl, h1⟩ | ⟨key, key2, rfl, he, w, hw, rfl, -, h1⟩ <;>
    rcases keyPart_cases hk' h' with ⟨rfl, h2⟩ | ⟨key', key2', rfl, he', w', hw', rfl, -, h2⟩
  · exact ⟨rfl, by simpa using e, by rw [h1, h2]⟩
  · simp at hs
  · simp at hs
  · obtain ⟨e1, e2⟩ := C09_key_encoding_prefix_free _ _ _ _ he he' w w' r r' hw hw' (by simpa using e)
    subst e2
    exact ⟨rfl, by simpa using e, by rw [h1, h2, e1]⟩

theorem bigIntToByteArray_mod {x y : Int} (h : bigIntToByteArray x = bigIntToByteArray y) : x.natAbs % 2 ^ 256 = y.natAbs % 2 ^ 256 := by
  have h1 := beVal_bigIntToByteArray x
  rw [h, beVal_bigIntToByteArray] at h1
  exact h1.symm

theorem bigIntToByteArray_of_mod {x y : Int} (h : x.natAbs % 2 ^ 256 = y.natAbs % 2 ^ 256) : bigIntToByteArray x = bigIntToByteArray y :=
  beVal_injective (by rw [bigIntToByteArray_length, bigIntToByteArray_length]) (by
    rw [beVal_bigIntToByteArray, beVal_bigIntToByteArray]; exact h)

theorem timeToBytes_mod (x : Int) : beVal (timeToBytes x) = (x % 2 ^ 64).toNat := by
  rw [timeToBytes, beVal_beBytes, toUnsigned, show (256 ^ 8 : Nat) = 2 ^ 64 from rfl, Nat.mod_eq_of_lt]
  omega

theorem timeToBytes_iff (x y : Int) : timeToBytes x = timeToBytes y ↔ (x % 2 ^ 64).toNat = (y % 2 ^ 64).toNat := by
  rw [← timeToBytes_mod, ← timeToBytes_mod]
  exact ⟨fun h => by rw [h], beVal_injective (by simp [timeToBytes, beBytes_length])⟩

theorem time_inj {t t' r s r' s' : Option Int} (ht : t.isSome = t'.isSome)
    (hs : (signaturePart t r s).isSome = (signaturePart t' r' s').isSome) {q q' : Bytes}
    (e : (t.map timeToBytes).getD [] ++ ((signaturePart t r s).getD [] ++ q) = (t'.map timeToBytes).getD [] ++ ((signaturePart t' r' s').getD [] ++ q')) :
    q = q' ∧ t.map timeToBytes = t'.map timeToBytes ∧ signaturePart t r s = signaturePart t' r' s' ∧
      (t.map fun t => (t % 2 ^ 64).toNat) = (t'.map fun t => (t % 2 ^ 64).toNat) ∧ shownSignature t r s = shownSignature t' r' s' := by
  cases t with
  | none =>
    cases t' with
    | none => simpa [signaturePart, shownSignature] using e
    | some _ => simp at ht
  | some t =>
    cases t' with
    | none => simp at ht
    | some t' =>
      simp only [Option.map_some, Option.getD_some] at e ⊢
      obtain ⟨e1, e2⟩ := List.append_inj e (by simp [timeToBytes, beBytes_length])
      have e3 := (timeToBytes_iff t t').mp e1
      have key : ∀ {r s : Option Int}, (∃ a b, r = some a ∧ s = some b ∧ signaturePart (some t) r s = some (bigIntToByteArray a ++ bigIntToByteArray b) ∧
          signaturePart (some t') r s = some (bigIntToByteArray a ++ bigIntToByteArray b) ∧
          shownSignature (some t) r s = some (a.natAbs % 2 ^ 256, b.natAbs % 2 ^ 256) ∧ shownSignature (some t') r s = some (a.natAbs % 2 ^ 256, b.natAbs % 2 ^ 256)) ∨
          signaturePart (some t) r s = none ∧ signaturePart (some t') r s = none ∧ shownSignature (some t) r s = none ∧ shownSignature (some t') r s = none := by
        intro r s
        cases r <;> cases s <;> simp [signaturePart, shownSignature]
      rcases @key r s with ⟨a, b, -, -, k1, -, k3, -⟩ | ⟨k1, -, k3, -⟩ <;>
        rcases @key r' s' with ⟨a', b', -, -, -, k2, -, k4⟩ | ⟨-, k2, -, k4⟩ <;> rw [k1, k2] at hs e2 ⊢ <;> rw [k3, k4]
      · simp only [Option.getD_some] at e2
        obtain ⟨e4, e5⟩ := List.append_inj e2 (by simp [bigIntToByteArray_length])
        obtain ⟨e6, e7⟩ := List.append_inj e4 (by simp [bigIntToByteArray_length])
        exact ⟨e5, by rw [e1], by rw [e4], by rw [e3], by rw [bigIntToByteArray_mod e6, bigIntToByteArray_mod e7]⟩
      · simp at hs
      · simp at hs
      · exact ⟨by simpa using e2, by rw [e1], rfl, by rw [e3], rfl⟩

/-- A list of values with bytes starts, up to nil primitives, with a value that has bytes. -/
theorem first_value {m : List CVal} {w : Bytes} (hm : ownKeysAll m = true) (h : encodeVals m = .ok w) :
    (w = [] ∧ showns m = []) ∨ ∃ (v : CVal) (m' : List CVal) (x w' : Bytes), v.encode = .ok x ∧ v ≠ .prim none ∧ ownKeys v = true ∧
      ownKeysAll m' = true ∧ encodeVals m' = .ok w' ∧ w = x ++ w' ∧ showns m = (shownVal v).toList ++ showns m' := by
  induction m generalizing w with
  | nil => rw [encodeVals] at h; cases h; exact .inl ⟨rfl, rfl⟩
  | cons v m ih =>
    rw [encodeVals] at h
    obtain ⟨x, h1, h⟩ := Res.bind_eq_ok.mp h
    obtain ⟨w', h2, h⟩ := Res.bind_eq_ok.mp h
    cases h
    rw [ownKeysAll, Bool.and_eq_true] at hm
    by_cases hv : v = .prim none
    · subst hv
      rw [CVal.encode] at h1
      cases h1
      have e : showns (.prim none :: m) = showns m := by rw [showns, shownVal]; rfl
      rw [e]
      simpa using ih hm.2 h2
    · exact .inr ⟨v, m, x, w', h1, hv, hm.1, hm.2, h2, rfl, by rw [showns]⟩

theorem wire_unique {a b : CVal} {w w' r r' : Bytes} (ha : a.encode = .ok w) (hb : b.encode = .ok w') (hna : a ≠ .prim none)
    (hnb : b ≠ .prim none) (e : w ++ r = w' ++ r') : w = w' ∧ r = r' ∧ ∃ d, WireOf a d ∧ WireOf b d := by
  rcases encode_wire ha with ⟨h, -⟩ | ⟨d, rfl, hd⟩
  · exact absurd h hna
  rcases encode_wire hb with ⟨h, -⟩ | ⟨d', rfl, hd'⟩
  · exact absurd h hnb
  have h1 := decodeStd_of_wire (rest := r) hd.1
  have h2 := decodeStd_of_wire (rest := r') hd'.1
  rw [e, h2] at h1
  simp only [Res.ok.injEq, Prod.mk.injEq] at h1
  have h3 : d' = d := h1.1
  subst h3
  exact ⟨rfl, by simpa using e, d', hd, hd'⟩

theorem record_parts {key : Option KeyObj} {value scheme : Option CVal} {t r s : Option Int} {w : Bytes}
    (h : (CRec.record key value scheme t r s).encode = .ok w) : ∃ (m : UInt8) (a b c : Option Bytes),
      IsKeyPart key a ∧ IsValuePart value b ∧ IsValuePart scheme c ∧
      w = m :: (a.getD [] ++ (b.getD [] ++ (c.getD [] ++ ((t.map timeToBytes).getD [] ++ (signaturePart t r s).getD [])))) ∧
      m.toNat.testBit 6 = a.isSome ∧ m.toNat.testBit 5 = b.isSome ∧ m.toNat.testBit 4 = c.isSome ∧
      m.toNat.testBit 2 = t.isSome ∧ m.toNat.testBit 1 = (signaturePart t r s).isSome := by
  obtain ⟨⟨a, b, c, d, e⟩, ⟨m, hw, -, h6, h5, h4, -, h2, h1, -⟩, ha, hb, hc, hd, he⟩ := C49_layout _ _ _ _ _ _ _ h
  simp only at hw h6 h5 h4 h2 h1 ha hb hc hd he
  subst hd he
  exact ⟨m, a, b, c, ha, hb, hc, by rw [hw]; simp, h6, h5, h4, by simpa using h2, h1⟩

theorem record_ne_nil {r : CRec} {w : Bytes} (h : r.encode = .ok w) : w ≠ [] := by
  cases r with
  | record key value scheme t r s =>
    obtain ⟨m, a, b, c, -, -, -, hw, -⟩ := record_parts h
    rw [hw]; simp
  | mapped _ => rw [CRec.encode] at h; simp at h

theorem not_nilPrim {v : CVal} (h : ¬ v.isNil = true) : v ≠ .prim none := by
  rintro rfl
  exact h (by decide)

mutual
/-- What is written determines what is shown. -/
theorem shown_of_wire : ∀ (a b : CVal) (d : StdValue), ownKeys a = true → ownKeys b = true → WireOf a d → WireOf b d → shownVal a = shownVal b
  | .prim s, b, d, _, _, ha, hb => by
    obtain ⟨-, h1, h2, h3⟩ := ha
    subst h3
    cases b with
    | prim s' =>
      obtain ⟨-, -, -, h3⟩ := hb
      rw [h3]
    | array es =>
      obtain ⟨-, -, h4⟩ := hb
      rcases h4 with ⟨h5, -, h6⟩ | ⟨-, h5, -⟩
      · simp [shownVal, h5, h6]
      · rw [h1] at h5; simp at h5
    | records es =>
      obtain ⟨-, -, h4⟩ := hb
      rcases h4 with ⟨h5, -, h6⟩ | ⟨-, h5, -⟩
      · simp [shownVal, h5, h6]
      · rw [h1] at h5; simp at h5
    | simple _ _ => exact absurd hb.2 (by simp)
    | std _ => exact absurd hb.2 (by simp)
  | .array es, b, d, hoa, hob, ha, hb => by
    obtain ⟨-, h1, h2⟩ := ha
    cases b with
    | prim s' =>
      obtain ⟨-, h3, -, h4⟩ := hb
      rcases h2 with ⟨h5, -, h6⟩ | ⟨-, h5, -⟩
      · rw [h4, h5, h6]; simp [shownVal]
      · rw [h3] at h5; simp at h5
    | array es' =>
      obtain ⟨-, h3, h4⟩ := hb
      rcases h2 with ⟨rfl, h5, -⟩ | ⟨h0, h5, h6⟩
      · rcases h4 with ⟨rfl, -⟩ | ⟨-, h7, -⟩
        · rfl
        · rw [h5] at h7; simp at h7
      · rcases h4 with ⟨-, h7, -⟩ | ⟨h0', -, h8⟩
        · rw [h5] at h7; simp at h7
        · rw [shownVal, shownVal, if_neg h0, if_neg h0', ← h1, ← h3,
            showns_of_bytes es es' d.content (by simpa [ownKeys] using hoa) (by simpa [ownKeys] using hob) h6 h8]
    | records es' =>
      obtain ⟨-, h3, h4⟩ := hb
      rcases h2 with ⟨rfl, h5, -⟩ | ⟨h0, h5, h6⟩
      · rcases h4 with ⟨rfl, -⟩ | ⟨-, h7, -⟩
        · rfl
        · rw [h5] at h7; simp at h7
      · rcases h4 with ⟨-, h7, -⟩ | ⟨-, h7, -⟩ <;> · rw [h5] at h7; simp at h7
    | simple _ _ => exact absurd hb.2 (by simp)
    | std _ => exact absurd hb.2 (by simp)
  | .records rs, b, d, hoa, hob, ha, hb => by
    obtain ⟨-, h1, h2⟩ := ha
    cases b with
    | prim s' =>
      obtain ⟨-, h3, -, h4⟩ := hb
      rcases h2 with ⟨h5, -, h6⟩ | ⟨-, h5, -⟩
      · rw [h4, h5, h6]; simp [shownVal]
      · rw [h3] at h5; simp at h5
    | records es' =>
      obtain ⟨-, h3, h4⟩ := hb
      rcases h2 with ⟨rfl, h5, -⟩ | ⟨h0, h5, h6⟩
      · rcases h4 with ⟨rfl, -⟩ | ⟨-, h7, -⟩
        · rfl
        · rw [h5] at h7; simp at h7
      · rcases h4 with ⟨-, h7, -⟩ | ⟨h0', -, h8⟩
        · rw [h5] at h7; simp at h7
        · rw [shownVal, shownVal, if_neg h0, if_neg h0',
            shownRecs_of_bytes rs es' d.content (by simpa [ownKeys] using hoa) (by simpa [ownKeys] using hob) h6 h8]
    | array es' =>
      obtain ⟨-, h3, h4⟩ := hb
      rcases h2 with ⟨rfl, h5, -⟩ | ⟨h0, h5, h6⟩
      · rcases h4 with ⟨rfl, -⟩ | ⟨-, h7, -⟩
        · rfl
        · rw [h5] at h7; simp at h7
      · rcases h4 with ⟨-, h7, -⟩ | ⟨-, h7, -⟩ <;> · rw [h5] at h7; simp at h7
    | simple _ _ => exact absurd hb.2 (by simp)
    | std _ => exact absurd hb.2 (by simp)
  | .simple _ _, _, _, _, _, ha, _ => absurd ha.2 (by simp)
  | .std _, _, _, _, _, ha, _ => absurd ha.2 (by simp)

/-- Elements that are written alike. -/
theorem showns_of_bytes : ∀ (l m : List CVal) (w : Bytes), ownKeysAll l = true → ownKeysAll m = true → encodeVals l = .ok w →
    encodeVals m = .ok w → showns l = showns m
  | [], m, w, _, hm, h, h' => by
    rw [encodeVals] at h
    cases h
    rcases first_value hm h' with ⟨-, h⟩ | ⟨v, m', x, w', h1, h2, -, -, -, h3, -⟩
    · rw [h]; rfl
    · rcases encode_wire h1 with ⟨h, -⟩ | ⟨d, rfl, hd⟩
      · exact absurd h h2
      · have : d.buf = [] := by
          have := h3.symm
          simp only [List.append_eq_nil_iff] at this
          exact this.1
        exact absurd this hd.1.ne_nil
  | v :: l, m, w, hl, hm, h, h' => by
    rw [encodeVals] at h
    obtain ⟨x, h1, h⟩ := Res.bind_eq_ok.mp h
    obtain ⟨y, h2, h⟩ := Res.bind_eq_ok.mp h
    cases h
    rw [ownKeysAll, Bool.and_eq_true] at hl
    by_cases hv : v = .prim none
    · subst hv
      rw [CVal.encode] at h1
      cases h1
      have e : showns (.prim none :: l) = showns l := by rw [showns, shownVal]; rfl
      rw [e]
      exact showns_of_bytes l m y hl.2 hm h2 (by simpa using h')
    · rcases first_value hm h' with ⟨h, -⟩ | ⟨v', m', x', y', h1', hv', hk', hm', h2', e, h3⟩
      · rcases encode_wire h1 with ⟨h, -⟩ | ⟨d, rfl, hd⟩
        · exact absurd h hv
        · simp only [List.append_eq_nil_iff] at h
          exact absurd h.1 hd.1.ne_nil
      · obtain ⟨rfl, rfl, d, hd, hd'⟩ := wire_unique h1 h1' hv hv' e
        rw [showns, h3, shown_of_wire v v' d hl.1 hk' hd hd', showns_of_bytes l m' y hl.2 hm' h2 h2']

/-- Parts of records that are written alike. -/
theorem shownPart_of_bytes : ∀ (a b : Option CVal) (o o' : Option Bytes) (r r' : Bytes), ownKeysPart a = true → ownKeysPart b = true →
    IsValuePart a o → IsValuePart b o' → o.isSome = o'.isSome → o.getD [] ++ r = o'.getD [] ++ r' → r = r' ∧ shownPart a = shownPart b
  | none, b, o, o', r, r', _, _, ha, hb, hs, e => by
    simp only [IsValuePart] at ha
    subst ha
    cases b with
    | none =>
      simp only [IsValuePart] at hb
      subst hb
      exact ⟨by simpa using e, rfl⟩
    | some v =>
      simp only [IsValuePart] at hb
      by_cases hn : v.isNil = true
      · rw [if_pos hn] at hb
        subst hb
        exact ⟨by simpa using e, by simp [shownPart, hn]⟩
      · rw [if_neg hn] at hb
        obtain ⟨w, -, rfl⟩ := hb
        simp at hs
  | some u, b, o, o', r, r', hoa, hob, ha, hb, hs, e => by
    simp only [IsValuePart] at ha
    by_cases hu : u.isNil = true
    · rw [if_pos hu] at ha
      subst ha
      have e1 : shownPart (some u) = none := by simp [shownPart, hu]
      rw [e1]
      cases b with
      | none =>
        simp only [IsValuePart] at hb
        subst hb
        exact ⟨by simpa using e, rfl⟩
      | some v =>
        simp only [IsValuePart] at hb
        by_cases hn : v.isNil = true
        · rw [if_pos hn] at hb
          subst hb
          exact ⟨by simpa using e, by simp [shownPart, hn]⟩
        · rw [if_neg hn] at hb
          obtain ⟨w, -, rfl⟩ := hb
          simp at hs
    · rw [if_neg hu] at ha
      obtain ⟨w, hw, rfl⟩ := ha
      cases b with
      | none =>
        simp only [IsValuePart] at hb
        subst hb
        simp at hs
      | some v =>
        simp only [IsValuePart] at hb
        by_cases hn : v.isNil = true
        · rw [if_pos hn] at hb
          subst hb
          simp at hs
        · rw [if_neg hn] at hb
          obtain ⟨w', hw', rfl⟩ := hb
          obtain ⟨-, h2, d, hd, hd'⟩ := wire_unique hw hw' (not_nilPrim hu) (not_nilPrim hn) (by simpa using e)
          refine ⟨h2, ?_⟩
          rw [shownPart, shownPart, if_neg hu, if_neg hn]
          exact shown_of_wire u v d (by simpa [ownKeysPart] using hoa) (by simpa [ownKeysPart] using hob) hd hd'

/-- Records that are written alike, whatever follows. -/
theorem shownRec_of_bytes : ∀ (a b : CRec) (w w' r r' : Bytes), ownKeysRec a = true → ownKeysRec b = true → a.encode = .ok w →
    b.encode = .ok w' → w ++ r = w' ++ r' → r = r' ∧ shownRec a = shownRec b
  | .record key value scheme t x y, b, w, w', r, r', hoa, hob, ha, hb, e => by
    cases b with
    | mapped _ => rw [CRec.encode] at hb; simp at hb
    | record key' value' scheme' t' x' y' =>
      obtain ⟨m, p1, p2, p3, k1, k2, k3, rfl, b6, b5, b4, b2, b1⟩ := record_parts ha
      obtain ⟨m', p1', p2', p3', k1', k2', k3', rfl, b6', b5', b4', b2', b1'⟩ := record_parts hb
      simp only [ownKeysRec, Bool.and_eq_true] at hoa hob
      simp only [List.cons_append, List.append_assoc, List.cons.injEq] at e
      obtain ⟨rfl, e⟩ := e
      obtain ⟨-, e, h1⟩ := keyPart_inj hoa.1.1 hob.1.1 k1 k1' (by rw [← b6, ← b6']) e
      obtain ⟨e, h2⟩ := shownPart_of_bytes value value' p2 p2' _ _ hoa.1.2 hob.1.2 k2 k2' (by rw [← b5, ← b5']) e
      obtain ⟨e, h3⟩ := shownPart_of_bytes scheme scheme' p3 p3' _ _ hoa.2 hob.2 k3 k3' (by rw [← b4, ← b4']) e
      obtain ⟨e, -, -, h4, h5⟩ := time_inj (by rw [← b2, ← b2']) (by rw [← b1, ← b1']) e
      exact ⟨e, by rw [shownRec, shownRec, h1, h2, h3, h4, h5]⟩
  | .mapped _, _, _, _, _, _, _, _, ha, _, _ => by rw [CRec.encode] at ha; simp at ha

/-- Lists of records that are written alike. -/
theorem shownRecs_of_bytes : ∀ (l m : List CRec) (w : Bytes), ownKeysRecs l = true → ownKeysRecs m = true → encodeRecs l = .ok w →
    encodeRecs m = .ok w → shownRecs l = shownRecs m
  | [], m, w, _, _, h, h' => by
    rw [encodeRecs] at h
    cases h
    cases m with
    | nil => rfl
    | cons a m =>
      rw [encodeRecs] at h'
      obtain ⟨x, h1, h'⟩ := Res.bind_eq_ok.mp h'
      obtain ⟨y, h2, h'⟩ := Res.bind_eq_ok.mp h'
      simp only [Res.ok.injEq, List.append_eq_nil_iff] at h'
      exact absurd h'.1 (record_ne_nil h1)
  | a :: l, m, w, hl, hm, h, h' => by
    rw [encodeRecs] at h
    obtain ⟨x, h1, h⟩ := Res.bind_eq_ok.mp h
    obtain ⟨y, h2, h⟩ := Res.bind_eq_ok.mp h
    cases h
    cases m with
    | nil =>
      rw [encodeRecs] at h'
      simp only [Res.ok.injEq] at h'
      have := h'.symm
      simp only [List.append_eq_nil_iff] at this
      exact absurd this.1 (record_ne_nil h1)
    | cons b m =>
      rw [encodeRecs] at h'
      obtain ⟨x', h1', h'⟩ := Res.bind_eq_ok.mp h'
      obtain ⟨y', h2', h'⟩ := Res.bind_eq_ok.mp h'
      simp only [Res.ok.injEq] at h'
      rw [ownKeysRecs, Bool.and_eq_true] at hl hm
      obtain ⟨e1, e2⟩ := shownRec_of_bytes a b x x' y y' hl.1 hm.1 h1 h1' h'.symm
      subst e1
      rw [shownRecs, shownRecs, e2, shownRecs_of_bytes l m y hl.2 hm.2 h2 h2']
end

theorem keyBytes_congr {l m : List Slice} (h : l.map Slice.bytes = m.map Slice.bytes) : keyBytes l = keyBytes m := by
  have h1 : l.length = m.length := by simpa using congrArg List.length h
  have h2 : ∀ l : List Slice, flatKeys l = ((l.map Slice.bytes).map encodeVarchar).flatten := fun l => by
    rw [flatKeys, List.map_map]; rfl
  rw [keyBytes, keyBytes, h1, h2, h2, h]

theorem keyPart_same {k k' : Option KeyObj} {o o' : Option Bytes} (hk : ownKey k = true) (hk' : ownKey k' = true) (h : IsKeyPart k o)
    (h' : IsKeyPart k' o') (e : shownKey k = shownKey k') : o = o' := by
  rcases keyPart_cases hk h with ⟨rfl, h1⟩ | ⟨key, key2, rfl, -, w, -, rfl, rfl, h1⟩ <;>
    rcases keyPart_cases hk' h' with ⟨rfl, h2⟩ | ⟨key', key2', rfl, -, w', -, rfl, rfl, h2⟩ <;> rw [h1, h2] at e
  · simp at e
  · simp at e
  · rw [keyBytes_congr (Option.some.inj e)]

theorem time_eq {t t' r s r' s' : Option Int} (ht : (t.map fun t => (t % 2 ^ 64).toNat) = (t'.map fun t => (t % 2 ^ 64).toNat))
    (hs : shownSignature t r s = shownSignature t' r' s') :
    t.map timeToBytes = t'.map timeToBytes ∧ signaturePart t r s = signaturePart t' r' s' := by
  cases t with
  | none =>
    cases t' with
    | none => simp [signaturePart]
    | some _ => simp at ht
  | some t =>
    cases t' with
    | none => simp at ht
    | some t' =>
      simp only [Option.map_some, Option.some.injEq] at ht
      refine ⟨by rw [Option.map_some, Option.map_some, (timeToBytes_iff t t').mpr ht], ?_⟩
      cases r <;> cases s <;> cases r' <;> cases s' <;> simp [shownSignature] at hs <;> simp [signaturePart]
      rw [bigIntToByteArray_of_mod hs.1, bigIntToByteArray_of_mod hs.2]

theorem shown_isSome {v : CVal} {w : Bytes} (h : v.encode = .ok w) (hn : v ≠ .prim none) : ∃ s, shownVal v = some s := by
  cases v with
  | prim s =>
    cases s with
    | none => exact absurd rfl hn
    | some d => exact ⟨_, by rw [shownVal]⟩
  | array es => exact ⟨_, by rw [shownVal]⟩
  | records es => exact ⟨_, by rw [shownVal]⟩
  | simple _ _ => rw [CVal.encode] at h; simp at h
  | std _ => rw [CVal.encode] at h; simp at h

theorem shown_empty {v : CVal} {w : Bytes} (h : v.encode = .ok w) (hs : shownVal v = some .empty) : w = [0] := by
  cases v with
  | prim s =>
    cases s with
    | none => simp [shownVal] at hs
    | some d =>
      simp only [shownVal, Option.some.injEq] at hs
      by_cases hd : d = []
      · subst hd
        rw [CVal.encode] at h
        cases h; rfl
      · rw [if_neg hd] at hs; simp at hs
  | array es =>
    simp only [shownVal, Option.some.injEq] at hs
    by_cases hd : es = []
    · obtain ⟨c, -, -, -, -, -, h2⟩ := wireOf_array h
      exact h2 hd
    · rw [if_neg hd] at hs; simp at hs
  | records es =>
    simp only [shownVal, Option.some.injEq] at hs
    by_cases hd : es = []
    · obtain ⟨c, -, -, -, -, -, h2⟩ := wireOf_records h
      exact h2 hd
    · rw [if_neg hd] at hs; simp at hs
  | simple _ _ => simp [shownVal] at hs
  | std _ => simp [shownVal] at hs

mutual
/-- What is shown determines what is written. -/
theorem bytes_of_shown : ∀ (a b : CVal) (w w' : Bytes), ownKeys a = true → ownKeys b = true → a.encode = .ok w → b.encode = .ok w' →
    shownVal a = shownVal b → w = w'
  | .prim none, b, w, w', _, _, ha, hb, e => by
    by_cases hn : b = .prim none
    · subst hn
      rw [ha] at hb
      exact Res.ok.inj hb
    · obtain ⟨s, hs⟩ := shown_isSome hb hn
      rw [hs] at e
      simp [shownVal] at e
  | .prim (some d), b, w, w', _, _, ha, hb, e => by
    by_cases hd : d = []
    · have e1 : shownVal (.prim (some d)) = some .empty := by simp [shownVal, hd]
      rw [shown_empty ha e1, shown_empty hb (by rw [← e, e1])]
    · have e1 : shownVal (.prim (some d)) = some (.bytes d) := by simp [shownVal, hd]
      rw [e1] at e
      cases b with
      | prim s =>
        cases s with
        | none => simp [shownVal] at e
        | some d' =>
          simp only [shownVal, Option.some.injEq] at e
          by_cases hd' : d' = []
          · rw [if_pos hd'] at e; simp at e
          · rw [if_neg hd'] at e
            simp only [Shown.bytes.injEq] at e
            subst e
            rw [ha] at hb
            exact Res.ok.inj hb
      | array es =>
        simp only [shownVal, Option.some.injEq] at e
        split at e <;> simp at e
      | records es =>
        simp only [shownVal, Option.some.injEq] at e
        split at e <;> simp at e
      | simple _ _ => simp [shownVal] at e
      | std _ => simp [shownVal] at e
  | .array es, b, w, w', hoa, hob, ha, hb, e => by
    by_cases hd : es = []
    · have e1 : shownVal (.array es) = some .empty := by simp [shownVal, hd]
      rw [shown_empty ha e1, shown_empty hb (by rw [← e, e1])]
    · have e1 : shownVal (.array es) = some (.array es.length (showns es)) := by simp [shownVal, hd]
      rw [e1] at e
      cases b with
      | prim s =>
        cases s with
        | none => simp [shownVal] at e
        | some d' =>
          simp only [shownVal, Option.some.injEq] at e
          split at e <;> simp at e
      | array es' =>
        simp only [shownVal, Option.some.injEq] at e
        by_cases hd' : es' = []
        · rw [if_pos hd'] at e; simp at e
        · rw [if_neg hd'] at e
          simp only [Shown.array.injEq] at e
          rw [CVal.encode] at ha hb
          obtain ⟨⟨m, c⟩, h1, ha⟩ := Res.bind_eq_ok.mp ha
          obtain ⟨content, h2, ha⟩ := Res.bind_eq_ok.mp ha
          obtain ⟨⟨m', c'⟩, h1', hb⟩ := Res.bind_eq_ok.mp hb
          obtain ⟨content', h2', hb⟩ := Res.bind_eq_ok.mp hb
          rw [e.1, h1'] at h1
          cases h1
          have := vals_of_showns es es' content content' (by simpa [ownKeys] using hoa) (by simpa [ownKeys] using hob) h2 h2' e.2
          subst this
          rw [ha] at hb
          exact Res.ok.inj hb
      | records es =>
        simp only [shownVal, Option.some.injEq] at e
        split at e <;> simp at e
      | simple _ _ => simp [shownVal] at e
      | std _ => simp [shownVal] at e
  | .records rs, b, w, w', hoa, hob, ha, hb, e => by
    by_cases hd : rs = []
    · have e1 : shownVal (.records rs) = some .empty := by simp [shownVal, hd]
      rw [shown_empty ha e1, shown_empty hb (by rw [← e, e1])]
    · have e1 : shownVal (.records rs) = some (.records (shownRecs rs)) := by simp [shownVal, hd]
      rw [e1] at e
      cases b with
      | prim s =>
        cases s with
        | none => simp [shownVal] at e
        | some d' =>
          simp only [shownVal, Option.some.injEq] at e
          split at e <;> simp at e
      | records rs' =>
        simp only [shownVal, Option.some.injEq] at e
        by_cases hd' : rs' = []
        · rw [if_pos hd'] at e; simp at e
        · rw [if_neg hd'] at e
          simp only [Shown.records.injEq] at e
          rw [CVal.encode] at ha hb
          obtain ⟨⟨m, c⟩, h1, ha⟩ := Res.bind_eq_ok.mp ha
          obtain ⟨content, h2, ha⟩ := Res.bind_eq_ok.mp ha
          obtain ⟨⟨m', c'⟩, h1', hb⟩ := Res.bind_eq_ok.mp hb
          obtain ⟨content', h2', hb⟩ := Res.bind_eq_ok.mp hb
          obtain ⟨h3, h4⟩ := recs_of_showns rs rs' content content' (by simpa [ownKeys] using hoa) (by simpa [ownKeys] using hob) h2 h2' e
          rw [h3, h1'] at h1
          cases h1
          subst h4
          rw [ha] at hb
          exact Res.ok.inj hb
      | array es =>
        simp only [shownVal, Option.some.injEq] at e
        split at e <;> simp at e
      | simple _ _ => simp [shownVal] at e
      | std _ => simp [shownVal] at e
  | .simple _ _, _, _, _, _, _, ha, _, _ => by rw [CVal.encode] at ha; simp at ha
  | .std _, _, _, _, _, _, ha, _, _ => by rw [CVal.encode] at ha; simp at ha

/-- Elements that show the same. -/
theorem vals_of_showns : ∀ (l m : List CVal) (w w' : Bytes), ownKeysAll l = true → ownKeysAll m = true → encodeVals l = .ok w →
    encodeVals m = .ok w' → showns l = showns m → w = w'
  | [], m, w, w', _, hm, h, h', e => by
    rw [encodeVals] at h
    cases h
    rcases first_value hm h' with ⟨h, -⟩ | ⟨v, m', x, y, h1, h2, -, -, -, -, h3⟩
    · exact h.symm
    · obtain ⟨s, hs⟩ := shown_isSome h1 h2
      rw [h3, hs] at e
      simp [showns] at e
  | v :: l, m, w, w', hl, hm, h, h', e => by
    rw [encodeVals] at h
    obtain ⟨x, h1, h⟩ := Res.bind_eq_ok.mp h
    obtain ⟨y, h2, h⟩ := Res.bind_eq_ok.mp h
    cases h
    rw [ownKeysAll, Bool.and_eq_true] at hl
    by_cases hv : v = .prim none
    · subst hv
      rw [CVal.encode] at h1
      cases h1
      have e1 : showns (.prim none :: l) = showns l := by rw [showns, shownVal]; rfl
      rw [e1] at e
      simpa using vals_of_showns l m y w' hl.2 hm h2 h' e
    · obtain ⟨s, hs⟩ := shown_isSome h1 hv
      rcases first_value hm h' with ⟨-, h⟩ | ⟨v', m', x', y', h1', hv', hk', hm', h2', rfl, h3⟩
      · rw [h, showns, hs] at e
        simp at e
      · obtain ⟨s', hs'⟩ := shown_isSome h1' hv'
        rw [h3, showns, hs, hs'] at e
        simp only [Option.toList_some, List.cons_append, List.nil_append, List.cons.injEq] at e
        rw [bytes_of_shown v v' x x' hl.1 hk' h1 h1' (by rw [hs, hs', e.1]), vals_of_showns l m' y y' hl.2 hm' h2 h2' e.2]

/-- Parts of records that show the same. -/
theorem part_of_shown : ∀ (a b : Option CVal) (o o' : Option Bytes), ownKeysPart a = true → ownKeysPart b = true →
    IsValuePart a o → IsValuePart b o' → shownPart a = shownPart b → o = o'
  | none, b, o, o', _, _, ha, hb, e => by
    simp only [IsValuePart] at ha
    subst ha
    cases b with
    | none =>
      simp only [IsValuePart] at hb
      exact hb.symm
    | some v =>
      simp only [IsValuePart] at hb
      by_cases hn : v.isNil = true
      · rw [if_pos hn] at hb
        exact hb.symm
      · rw [if_neg hn] at hb
        obtain ⟨w, hw, rfl⟩ := hb
        obtain ⟨s, hs⟩ := shown_isSome hw (not_nilPrim hn)
        rw [shownPart, shownPart, if_neg hn, hs] at e
        simp at e
  | some u, b, o, o', hoa, hob, ha, hb, e => by
    simp only [IsValuePart] at ha
    by_cases hu : u.isNil = true
    · rw [if_pos hu] at ha
      subst ha
      rw [shownPart, if_pos hu] at e
      cases b with
      | none =>
        simp only [IsValuePart] at hb
        exact hb.symm
      | some v =>
        simp only [IsValuePart] at hb
        by_cases hn : v.isNil = true
        · rw [if_pos hn] at hb
          exact hb.symm
        · rw [if_neg hn] at hb
          obtain ⟨w, hw, rfl⟩ := hb
          obtain ⟨s, hs⟩ := shown_isSome hw (not_nilPrim hn)
          rw [shownPart, if_neg hn, hs] at e
          simp at e
    · rw [if_neg hu] at ha
      obtain ⟨w, hw, rfl⟩ := ha
      obtain ⟨s, hs⟩ := shown_isSome hw (not_nilPrim hu)
      rw [shownPart, if_neg hu, hs] at e
      cases b with
      | none => rw [shownPart] at e; simp at e
      | some v =>
        simp only [IsValuePart] at hb
        by_cases hn : v.isNil = true
        · rw [shownPart, if_pos hn] at e
          simp at e
        · rw [if_neg hn] at hb
          obtain ⟨w', hw', rfl⟩ := hb
          rw [shownPart, if_neg hn] at e
          rw [bytes_of_shown u v w w' (by simpa [ownKeysPart] using hoa) (by simpa [ownKeysPart] using hob) hw hw' (by rw [hs, e])]

/-- Records that show the same. -/
theorem rec_of_shown : ∀ (a b : CRec) (w w' : Bytes), ownKeysRec a = true → ownKeysRec b = true → a.encode = .ok w →
    b.encode = .ok w' → shownRec a = shownRec b → w = w'
  | .record key value scheme t x y, b, w, w', hoa, hob, ha, hb, e => by
    cases b with
    | mapped _ => rw [CRec.encode] at hb; simp at hb
    | record key' value' scheme' t' x' y' =>
      simp only [shownRec, ShownRec.mk.injEq] at e
      obtain ⟨e1, e2, e3, e4, e5⟩ := e
      simp only [ownKeysRec, Bool.and_eq_true] at hoa hob
      rw [CRec.encode] at ha hb
      obtain ⟨⟨m1, b1⟩, h1, ha⟩ := Res.bind_eq_ok.mp ha
      obtain ⟨⟨m2, b2⟩, h2, ha⟩ := Res.bind_eq_ok.mp ha
      obtain ⟨⟨m3, b3⟩, h3, ha⟩ := Res.bind_eq_ok.mp ha
      obtain ⟨⟨m1', b1'⟩, h1', hb⟩ := Res.bind_eq_ok.mp hb
      obtain ⟨⟨m2', b2'⟩, h2', hb⟩ := Res.bind_eq_ok.mp hb
      obtain ⟨⟨m3', b3'⟩, h3', hb⟩ := Res.bind_eq_ok.mp hb
      obtain ⟨o1, p1, rfl, rfl⟩ := recKeyPart_ok h1
      obtain ⟨o2, p2, rfl, rfl⟩ := recValuePart_ok h2
      obtain ⟨o3, p3, rfl, rfl⟩ := recValuePart_ok h3
      obtain ⟨o1', p1', rfl, rfl⟩ := recKeyPart_ok h1'
      obtain ⟨o2', p2', rfl, rfl⟩ := recValuePart_ok h2'
      obtain ⟨o3', p3', rfl, rfl⟩ := recValuePart_ok h3'
      have q1 := keyPart_same hoa.1.1 hob.1.1 p1 p1' e1
      have q2 := part_of_shown value value' o2 o2' hoa.1.2 hob.1.2 p2 p2' e2
      have q3 := part_of_shown scheme scheme' o3 o3' hoa.2 hob.2 p3 p3' e3
      obtain ⟨q4, q5⟩ := time_eq e4 e5
      have q6 : t.isSome = t'.isSome := by
        have := congrArg Option.isSome q4
        simpa using this
      subst q1 q2 q3
      simp only [timePart_eq, q4, q5, q6] at ha hb
      rw [ha] at hb
      exact Res.ok.inj hb
  | .mapped _, _, _, _, _, _, ha, _, _ => by rw [CRec.encode] at ha; simp at ha

/-- Lists of records that show the same. -/
theorem recs_of_showns : ∀ (l m : List CRec) (w w' : Bytes), ownKeysRecs l = true → ownKeysRecs m = true → encodeRecs l = .ok w →
    encodeRecs m = .ok w' → shownRecs l = shownRecs m → l.length = m.length ∧ w = w'
  | [], m, w, w', _, _, h, h', e => by
    cases m with
    | nil => rw [h] at h'; exact ⟨rfl, Res.ok.inj h'⟩
    | cons a m => simp [shownRecs] at e
  | a :: l, m, w, w', hl, hm, h, h', e => by
    cases m with
    | nil => simp [shownRecs] at e
    | cons b m =>
      rw [encodeRecs] at h h'
      obtain ⟨x, h1, h⟩ := Res.bind_eq_ok.mp h
      obtain ⟨y, h2, h⟩ := Res.bind_eq_ok.mp h
      obtain ⟨x', h1', h'⟩ := Res.bind_eq_ok.mp h'
      obtain ⟨y', h2', h'⟩ := Res.bind_eq_ok.mp h'
      cases h; cases h'
      rw [ownKeysRecs, Bool.and_eq_true] at hl hm
      rw [shownRecs, shownRecs, List.cons.injEq] at e
      obtain ⟨h3, h4⟩ := recs_of_showns l m y y' hl.2 hm.2 h2 h2' e.2
      exact ⟨by rw [List.length_cons, List.length_cons, h3], by rw [rec_of_shown a b x x' hl.1 hm.1 h1 h1' e.1, h4]⟩
end

/-- The claim C211 (false of the code): values, and records, with the same encoding are the same. -/
def EncodingsAreDistinct : Prop :=
  (∀ (a b : CVal) (w : Bytes), a.encode = .ok w → b.encode = .ok w → a = b) ∧
    ∀ (a b : CRec) (w : Bytes), a.encode = .ok w → b.encode = .ok w → a = b

/-- C211 is false: the empty array and the empty byte string are written alike, and so are arrays with a nil element at different places, and
records signed with a number and with its negative. -/
theorem C211_refuted : ¬ EncodingsAreDistinct ∧
    (CVal.array []).encode = (CVal.prim (some [])).encode ∧
    (CVal.array [.prim none, .prim (some [7])]).encode = (CVal.array [.prim (some [7]), .prim none]).encode ∧
    (CRec.record none none none (some 5) (some 7) (some 8)).encode = (CRec.record none none none (some 5) (some (-7)) (some 8)).encode := by
  refine ⟨fun h => ?_, by decide +kernel, by decide +kernel, by decide +kernel⟩
  have := h.1 (.array []) (.prim (some [])) [0] (by decide +kernel) (by decide +kernel)
  simp at this

/-- C211 is false for records whose key was decoded from a buffer with something behind the key: the record with this key and the value
[9, 9] has the bytes, and hence the signature, of the record with an equal key and another value. -/
theorem C211_decoded_key_refuted : newMappedKey [1, 1, 5, 1, 4] = .ok (⟨[some [5]], [1, 1, 5, 1, 4]⟩, 3) ∧
    (KeyObj.mapped ⟨[some [5]], [1, 1, 5, 1, 4]⟩).equal? (.key (newSimpleKey (some [5]))) = some true ∧
    ∃ w, (CRec.record (some (.mapped ⟨[some [5]], [1, 1, 5, 1, 4]⟩)) (some (.prim (some [9, 9]))) none none none none).encode = .ok w ∧
      (CRec.record (some (.key (newSimpleKey (some [5])))) (some (.prim (some [1, 2, 9, 9]))) none none none none).encode = .ok w :=
  ⟨by decide +kernel, by decide +kernel, [0x60, 1, 1, 5, 1, 4, 1, 2, 9, 9], by decide +kernel, by decide +kernel⟩

/-- C211, exact for values without decoded keys: they have the same encoding if and only if they show the same: the same bytes, or the same
number of elements and the same elements up to nil ones, or the same records; empty values of all kinds show the same. -/
theorem C211_values_partial (a b : CVal) (w w' : Bytes) (ha : a.encode = .ok w) (hb : b.encode = .ok w') (hoa : ownKeys a = true)
    (hob : ownKeys b = true) : w = w' ↔ shownVal a = shownVal b := by
  refine ⟨fun e => ?_, bytes_of_shown a b w w' hoa hob ha hb⟩
  subst e
  by_cases hna : a = .prim none
  · subst hna
    rw [CVal.encode] at ha
    cases ha
    rcases encode_wire hb with ⟨rfl, -⟩ | ⟨d, hd, hw⟩
    · rfl
    · exact absurd hd hw.1.ne_nil
  · by_cases hnb : b = .prim none
    · subst hnb
      rw [CVal.encode] at hb
      cases hb
      rcases encode_wire ha with ⟨h, -⟩ | ⟨d, hd, hw⟩
      · exact absurd h hna
      · exact absurd hd hw.1.ne_nil
    · obtain ⟨-, -, d, hd, hd'⟩ := wire_unique (r := []) (r' := []) ha hb hna hnb rfl
      exact shown_of_wire a b d hoa hob hd hd'

/-- C211, prefixes: no encoding is a strict prefix of another one, so that the same holds if anything follows. -/
theorem C211_prefix_free (a b : CVal) (w w' r r' : Bytes) (ha : a.encode = .ok w) (hb : b.encode = .ok w') (hna : a ≠ .prim none)
    (hnb : b ≠ .prim none) (e : w ++ r = w' ++ r') : w = w' :=
  (wire_unique ha hb hna hnb e).1

/-- C211, exact for records without decoded keys, whatever follows them. -/
theorem C211_records_partial (a b : CRec) (w w' : Bytes) (ha : a.encode = .ok w) (hb : b.encode = .ok w') (hoa : ownKeysRec a = true)
    (hob : ownKeysRec b = true) : (w = w' ↔ shownRec a = shownRec b) ∧ ∀ r r', w ++ r = w' ++ r' → w = w' ∧ r = r' := by
  refine ⟨⟨fun e => ?_, rec_of_shown a b w w' hoa hob ha hb⟩, fun r r' e => ?_⟩
  · exact (shownRec_of_bytes a b w w' [] [] hoa hob ha hb (by rw [e])).2
  · obtain ⟨h, -⟩ := shownRec_of_bytes a b w w' r r' hoa hob ha hb e
    subst h
    exact ⟨List.append_cancel_right e, rfl⟩

example := C211_values_partial (.array [.prim none, .prim (some [7])]) (.array [.prim (some [7]), .prim none]) [0x41, 2, 3, 0x01, 1, 7]
  [0x41, 2, 3, 0x01, 1, 7] (by decide +kernel) (by decide +kernel) rfl rfl

example := C211_prefix_free (.prim (some [7])) (.array [.prim (some [7])]) [0x01, 1, 7] [0x41, 1, 3, 0x01, 1, 7] [8] []
  (by decide +kernel) (by decide +kernel) (by simp) (by simp)

example : ([0x40, 1, 1, 7] : Bytes) ≠ [0x44, 1, 1, 7, 0, 0, 0, 0, 0, 0, 0, 5] ∧
    shownRec (.record (some (.key (newSimpleKey (some [7])))) none none none none none) ≠
      shownRec (.record (some (.key (newSimpleKey (some [7])))) none none (some 5) none none) :=
  ⟨by decide, fun h => absurd ((C211_records_partial (.record (some (.key (newSimpleKey (some [7])))) none none none none none)
    (.record (some (.key (newSimpleKey (some [7])))) none none (some 5) none none) [0x40, 1, 1, 7] [0x44, 1, 1, 7, 0, 0, 0, 0, 0, 0, 0, 5]
    (by decide +kernel) (by decide +kernel) rfl rfl).1.mpr h) (by decide)⟩

end Poodle.Props
