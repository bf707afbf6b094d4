import Verif.Spec.CopyConstruct
import Verif.Props.Decoded
import Verif.Props.ValueCopy
import Verif.Props.Value

/-
Property C113: constructed copies of values and records that may contain decoded parts (/repo/src/util/value_util.go,
/repo/src/util/record_util.go).
-/

namespace Poodle.Props
open Poodle Spec

mutual
theorem reads_built : ∀ (u : CVal) (d : StdValue), Reads u d → built u
  | .prim _, _, _ => by simp [built]
  | .array us, d, h => by
    rw [Reads] at h
    rw [built]
    exact readsVals_built us d.content 0 h.2.2
  | .records us, d, h => by
    rw [Reads] at h
    rw [built]
    exact readsRecs_built us d.content 0 h.2.2
  | .simple _ _, _, h => by rw [Reads] at h; exact h.elim
  | .std _, _, h => by rw [Reads] at h; exact h.elim

theorem readsVals_built : ∀ (us : List CVal) (c : Bytes) (i : Nat), ReadsVals us c i → builts us
  | [], _, _, _ => by simp [builts]
  | u :: us, c, i, h => by
    rw [ReadsVals] at h
    obtain ⟨⟨e, -, h2⟩, h3⟩ := h
    rw [builts]
    exact ⟨reads_built u e h2, readsVals_built us c (i + 1) h3⟩

theorem readsPart_built : ∀ (u : Option CVal) (d : StdValue), ReadsPart u d → builtPart u
  | none, _, _ => by simp [builtPart]
  | some u, d, h => by
    rw [ReadsPart] at h
    rw [builtPart]
    exact reads_built u d h

theorem readsRec_built : ∀ (u : CRec) (r : RecInfo), ReadsRec u r → builtRec u
  | .record k v s t a b, r, h => by
    rw [ReadsRec] at h
    obtain ⟨rfl, hv, hs, -⟩ := h
    rw [builtRec]
    exact ⟨by intro m hm; simp at hm, readsPart_built v _ hv, readsPart_built s _ hs⟩
  | .mapped _, _, h => by rw [ReadsRec] at h; exact h.elim

theorem readsRecs_built : ∀ (us : List CRec) (c : Bytes) (i : Nat), ReadsRecs us c i → builtRecs us
  | [], _, _, _ => by simp [builtRecs]
  | u :: us, c, i, h => by
    rw [ReadsRecs] at h
    obtain ⟨⟨e, -, h2⟩, h3⟩ := h
    rw [builtRecs]
    exact ⟨readsRec_built u e h2, readsRecs_built us c (i + 1) h3⟩
end

/-- The heap used for a decoded value on its own. -/
theorem fresh_std {d : StdValue} {b : Bytes} {n : Nat} (hd : decodeStd b = .ok (d, n)) : Coherent [freshVal d] ∧ RepV [freshVal d] 0 d := by
  obtain ⟨ext, p', e1, e2, e3⟩ := allocStd_spec.onOk [] _ _ _ coherent_nil hd
  unfold allocStd at e1
  rw [hd] at e1
  simp only [List.nil_append, List.length_nil, Prod.mk.injEq, Res.ok.injEq] at e1
  obtain ⟨rfl, rfl⟩ := e1
  exact ⟨e2, e3⟩

/-- The heap used for a decoded record on its own. -/
theorem fresh_rec {r : RecInfo} {b : Bytes} {n : Nat} (hd : decodeRecord b = .ok (r, n)) :
    Coherent [freshVal r.value, freshVal r.scheme, .record r 0 1] ∧ RepR [freshVal r.value, freshVal r.scheme, .record r 0 1] 2 r := by
  obtain ⟨ext, p', e1, e2, e3⟩ := allocRec_spec.onOk [] _ _ _ coherent_nil hd
  unfold allocRec at e1
  rw [hd] at e1
  simp only [List.nil_append, List.length_nil, Prod.mk.injEq, Res.ok.injEq] at e1
  obtain ⟨rfl, rfl⟩ := e1
  exact ⟨e2, e3⟩

theorem constructStd_iff {d : StdValue} {b : Bytes} {n : Nat} (hd : decodeStd b = .ok (d, n)) (u : CVal) :
    (CVal.std d).copyConstruct = .ok u ↔ Reads u d := by
  obtain ⟨h1, h2⟩ := fresh_std hd
  obtain ⟨rest, -, -, hw⟩ := (decodeStd_ok_iff _ _ _).mp hd
  rw [CVal.copyConstruct]
  constructor
  · intro he
    exact ((copy_inv _).1 _ (copyVal (d.buf.length + 1) [freshVal d] 0).1 0 d u h1 h2 (by rw [← he])).1
  · intro hu
    obtain ⟨h', q, -⟩ := copyVal_reads u d (d.buf.length + 1) _ 0 hu (Nat.lt_succ_of_le (reads_depth u d hu hw)) h1 h2
    rw [q]

theorem constructMapped_iff {r : RecInfo} {b : Bytes} {n : Nat} (hd : decodeRecord b = .ok (r, n)) (u : CRec) :
    (CRec.mapped r).copyConstruct = .ok u ↔ ReadsRec u r := by
  obtain ⟨h1, h2⟩ := fresh_rec hd
  have hk := C50_decoded_key_empty_partial b r n hd
  rw [CRec.copyConstruct]
  constructor
  · intro he
    exact ((copy_inv _).2 _ (copyRec (r.buf.length + 2) [freshVal r.value, freshVal r.scheme, .record r 0 1] 2).1 2 r u h1 h2 hk
      (by rw [← he])).1
  · intro hu
    have := readsRec_depth u r hu ⟨_, _, hd⟩
    obtain ⟨h', q, -⟩ := copyRec_reads u r (r.buf.length + 2) _ 2 hu hk (by omega) h1 h2
    rw [q]

/-- Keys are copied sub key by sub key. -/
theorem constructKey_spec {k k' : Option KeyObj} (hb : builtKey k') (hs : k'.map KeyObj.subKeys = k.map KeyObj.subKeys) :
    (fullKey k → ∃ c, constructKeyPart k = .ok c ∧ builtKey c ∧ recKeyPart c = recKeyPart k') ∧
      (¬ fullKey k → constructKeyPart k = .panic) := by
  have main : ∀ (ks : List Slice) (o : KeyObj), o.subKeys = ks → o.copyConstruct = (addAll newKey ks >>= fun k' => .ok (.key k')) →
      k = some o → (fullKey k → ∃ c, constructKeyPart k = .ok c ∧ builtKey c ∧ recKeyPart c = recKeyPart k') ∧
        (¬ fullKey k → constructKeyPart k = .panic) := by
    rintro ks o rfl hc rfl
    rcases addAll_eq o.subKeys newKey with ⟨⟨s, h0, h1⟩, h2⟩ | ⟨h1, c', h2, h3⟩
    · refine ⟨fun h => absurd h1 (h o rfl s h0), fun _ => ?_⟩
      rw [constructKeyPart, hc, h2]; rfl
    · refine ⟨fun _ => ⟨some (.key c'), by rw [constructKeyPart, hc, h2]; rfl, by intro m hm; simp at hm, ?_⟩, fun h => absurd ?_ h⟩
      · cases k' with
        | none => simp at hs
        | some k' =>
          simp only [Option.map_some, Option.some.injEq] at hs
          have e : c'.keys = o.subKeys := by simp [h3, newKey]
          cases k' with
          | mapped m => exact absurd rfl (hb m)
          | empty =>
            have : c'.keys = [] := by rw [e, ← hs]; rfl
            simp [recKeyPart, KeyObj.isEmpty, this]
          | key q =>
            have : c'.keys = q.keys := by rw [e, ← hs]; rfl
            simp only [recKeyPart, KeyObj.isEmpty, keyPartBytes_key, this]
      · intro d hd s hs
        simp only [Option.some.injEq] at hd
        subst hd
        exact h1 s hs
  cases k with
  | none =>
    have : k' = none := by simpa using hs
    subst this
    exact ⟨fun _ => ⟨none, rfl, by intro m hm; simp at hm, rfl⟩, fun h => absurd (by intro c hc; simp at hc) h⟩
  | some o =>
    cases o with
    | mapped m => exact main m.keys _ rfl rfl rfl
    | key q => exact main q.keys _ rfl rfl rfl
    | empty =>
      refine ⟨fun _ => ⟨some .empty, rfl, by intro m hm; simp at hm, ?_⟩, fun h => absurd (by
        intro c hc s hs
        simp only [Option.some.injEq] at hc
        subst hc
        simp [KeyObj.subKeys] at hs) h⟩
      cases k' with
      | none => simp at hs
      | some k' =>
        simp only [Option.map_some, Option.some.injEq, KeyObj.subKeys] at hs
        cases k' with
        | mapped m => exact absurd rfl (hb m)
        | empty => rfl
        | key q =>
          have : q.keys = [] := hs
          simp [recKeyPart, KeyObj.isEmpty, this]

mutual
theorem constructVal_spec : ∀ v u : CVal, realVal v → rebuilt v u →
    (fullKeys v → ∃ c, v.copyConstruct = .ok c ∧ c.encode = u.encode ∧ c.isNil = u.isNil ∧ built c) ∧
      (¬ fullKeys v → v.copyConstruct = .panic)
  | .prim d, u, _, h => by
    rw [rebuilt] at h
    subst h
    exact ⟨fun _ => ⟨.prim d, rfl, rfl, rfl, by simp [built]⟩, fun h => absurd (by simp [fullKeys]) h⟩
  | .array es, u, hr, h => by
    rw [realVal] at hr
    rw [rebuilt] at h
    obtain ⟨l, rfl, h⟩ := h
    rw [fullKeys, CVal.copyConstruct]
    obtain ⟨h1, h2⟩ := constructVals_spec es l hr h
    refine ⟨fun hc => ?_, fun hc => by rw [h2 hc]; rfl⟩
    obtain ⟨l', q1, q2, q3, q4⟩ := h1 hc
    refine ⟨.array l', by rw [q1]; rfl, ?_, ?_, by rw [built]; exact q4⟩
    · rw [CVal.encode, CVal.encode, q2, q3]
    · simp only [CVal.isNil, q3]
  | .records rs, u, hr, h => by
    rw [realVal] at hr
    rw [rebuilt] at h
    obtain ⟨l, rfl, h⟩ := h
    rw [fullKeys, CVal.copyConstruct]
    obtain ⟨h1, h2⟩ := constructRecs_spec rs l hr h
    refine ⟨fun hc => ?_, fun hc => by rw [h2 hc]; rfl⟩
    obtain ⟨l', q1, q2, q3, q4⟩ := h1 hc
    refine ⟨.records l', by rw [q1]; rfl, ?_, ?_, by rw [built]; exact q4⟩
    · rw [CVal.encode, CVal.encode, q2, q3]
    · simp only [CVal.isNil, q3]
  | .simple c b, u, _, h => by
    rw [rebuilt] at h
    subst h
    exact ⟨fun _ => ⟨.prim (some c), rfl, rfl, rfl, by simp [built]⟩, fun h => absurd (by simp [fullKeys]) h⟩
  | .std d, u, hr, h => by
    rw [realVal] at hr
    obtain ⟨b, n, hd⟩ := hr
    rw [rebuilt] at h
    exact ⟨fun _ => ⟨u, (constructStd_iff hd u).mpr h, rfl, rfl, reads_built u d h⟩, fun h => absurd (by simp [fullKeys]) h⟩

theorem constructVals_spec : ∀ es us : List CVal, realVals es → rebuilts es us →
    (fullKeysVals es → ∃ l, constructVals es = .ok l ∧ encodeVals l = encodeVals us ∧ l.length = us.length ∧ builts l) ∧
      (¬ fullKeysVals es → constructVals es = .panic)
  | [], us, _, h => by
    rw [rebuilts] at h
    subst h
    exact ⟨fun _ => ⟨[], rfl, rfl, rfl, by simp [builts]⟩, fun h => absurd (by simp [fullKeysVals]) h⟩
  | v :: l, us, hr, h => by
    rw [realVals] at hr
    rw [rebuilts] at h
    obtain ⟨u, us, rfl, h1, h2⟩ := h
    rw [fullKeysVals, constructVals]
    obtain ⟨a1, a2⟩ := constructVal_spec v u hr.1 h1
    obtain ⟨b1, b2⟩ := constructVals_spec l us hr.2 h2
    constructor
    · rintro ⟨c1, c2⟩
      obtain ⟨v', p1, p2, -, p4⟩ := a1 c1
      obtain ⟨l', q1, q2, q3, q4⟩ := b1 c2
      refine ⟨v' :: l', by rw [p1, q1]; rfl, ?_, by simp [q3], by rw [builts]; exact ⟨p4, q4⟩⟩
      rw [encodeVals, encodeVals, p2, q2]
    · intro hc
      by_cases c1 : fullKeys v
      · obtain ⟨v', p1, -⟩ := a1 c1
        rw [p1, b2 (fun c2 => hc ⟨c1, c2⟩)]
        rfl
      · rw [a2 c1]; rfl

theorem constructPart_spec : ∀ (bit : UInt8) (o p : Option CVal), realPart o → rebuiltPart o p →
    (fullKeysPart o → ∃ c, constructValuePart o = .ok c ∧ recValuePart bit c = recValuePart bit p ∧ builtPart c) ∧
      (¬ fullKeysPart o → constructValuePart o = .panic)
  | _, none, p, _, h => by
    rw [rebuiltPart] at h
    subst h
    exact ⟨fun _ => ⟨none, rfl, rfl, by simp [builtPart]⟩, fun h => absurd (by simp [fullKeysPart]) h⟩
  | bit, some v, p, hr, h => by
    rw [realPart] at hr
    rw [rebuiltPart] at h
    obtain ⟨u, rfl, h⟩ := h
    rw [fullKeysPart, constructValuePart]
    obtain ⟨a1, a2⟩ := constructVal_spec v u hr h
    refine ⟨fun hc => ?_, fun hc => by rw [a2 hc]; rfl⟩
    obtain ⟨v', p1, p2, p3, p4⟩ := a1 hc
    refine ⟨some v', by rw [p1]; rfl, ?_, by rw [builtPart]; exact p4⟩
    rw [recValuePart, recValuePart, p2, p3]

theorem constructRec_spec : ∀ r u : CRec, realRec r → rebuiltRec r u →
    (fullKeysRec r → ∃ c, r.copyConstruct = .ok c ∧ c.encode = u.encode ∧ builtRec c) ∧ (¬ fullKeysRec r → r.copyConstruct = .panic)
  | .record key value scheme t a b, u, hr, h => by
    rw [realRec] at hr
    rw [rebuiltRec] at h
    obtain ⟨k', v', s', rfl, hb, hk, hv, hs⟩ := h
    rw [fullKeysRec, CRec.copyConstruct]
    obtain ⟨k1, k2⟩ := constructKey_spec hb hk
    obtain ⟨v1, v2⟩ := constructPart_spec 5 value v' hr.2.1 hv
    obtain ⟨s1, s2⟩ := constructPart_spec 4 scheme s' hr.2.2 hs
    constructor
    · rintro ⟨c1, c2, c3⟩
      obtain ⟨k'', p1, p2, p3⟩ := k1 c1
      obtain ⟨v'', q1, q2, q3⟩ := v1 c2
      obtain ⟨s'', r1, r2, r3⟩ := s1 c3
      refine ⟨.record k'' v'' s'' t a b, by rw [p1, q1, r1]; rfl, ?_, by rw [builtRec]; exact ⟨p2, q3, r3⟩⟩
      rw [CRec.encode, CRec.encode, p3, q2, r2]
    · intro hc
      by_cases c1 : fullKey key
      · obtain ⟨k', p1, -⟩ := k1 c1
        by_cases c2 : fullKeysPart value
        · obtain ⟨v', q1, -⟩ := v1 c2
          rw [p1, q1, s2 (fun c3 => hc ⟨c1, c2, c3⟩)]
          rfl
        · rw [p1, v2 c2]; rfl
      · rw [k2 c1]; rfl
  | .mapped r, u, hr, h => by
    rw [realRec] at hr
    obtain ⟨b, n, -, hd⟩ := hr
    rw [rebuiltRec] at h
    exact ⟨fun _ => ⟨u, (constructMapped_iff hd u).mpr h, rfl, readsRec_built u r h⟩, fun h => absurd (by simp [fullKeysRec]) h⟩

theorem constructRecs_spec : ∀ rs us : List CRec, realRecs rs → rebuiltRecs rs us →
    (fullKeysRecs rs → ∃ l, constructRecs rs = .ok l ∧ encodeRecs l = encodeRecs us ∧ l.length = us.length ∧ builtRecs l) ∧
      (¬ fullKeysRecs rs → constructRecs rs = .panic)
  | [], us, _, h => by
    rw [rebuiltRecs] at h
    subst h
    exact ⟨fun _ => ⟨[], rfl, rfl, rfl, by simp [builtRecs]⟩, fun h => absurd (by simp [fullKeysRecs]) h⟩
  | v :: l, us, hr, h => by
    rw [realRecs] at hr
    rw [rebuiltRecs] at h
    obtain ⟨u, us, rfl, h1, h2⟩ := h
    rw [fullKeysRecs, constructRecs]
    obtain ⟨a1, a2⟩ := constructRec_spec v u hr.1 h1
    obtain ⟨b1, b2⟩ := constructRecs_spec l us hr.2 h2
    constructor
    · rintro ⟨c1, c2⟩
      obtain ⟨v', p1, p2, p4⟩ := a1 c1
      obtain ⟨l', q1, q2, q3, q4⟩ := b1 c2
      refine ⟨v' :: l', by rw [p1, q1]; rfl, ?_, by simp [q3], by rw [builtRecs]; exact ⟨p4, q4⟩⟩
      rw [encodeRecs, encodeRecs, p2, q2]
    · intro hc
      by_cases c1 : fullKeysRec v
      · obtain ⟨v', p1, -⟩ := a1 c1
        rw [p1, b2 (fun c2 => hc ⟨c1, c2⟩)]
        rfl
      · rw [a2 c1]; rfl
end

/-- A copied key has the same sub keys, none of them empty. -/
theorem constructKey_inv {k c : Option KeyObj} (h : constructKeyPart k = .ok c) :
    fullKey k ∧ builtKey c ∧ c.map KeyObj.subKeys = k.map KeyObj.subKeys := by
  have main : ∀ (o : KeyObj), o.copyConstruct = (addAll newKey o.subKeys >>= fun k' => .ok (.key k')) → k = some o →
      fullKey k ∧ builtKey c ∧ c.map KeyObj.subKeys = k.map KeyObj.subKeys := by
    rintro o hc rfl
    rcases addAll_eq o.subKeys newKey with ⟨-, h2⟩ | ⟨h1, c', h2, h3⟩
    · rw [constructKeyPart, hc, h2] at h
      exact absurd h (by simp [bind, Res.bind])
    · rw [constructKeyPart, hc, h2] at h
      simp only [Res.bind_ok, Res.ok.injEq] at h
      subst h
      refine ⟨?_, by intro m hm; simp at hm, ?_⟩
      · intro d hd s hs
        simp only [Option.some.injEq] at hd
        subst hd
        exact h1 s hs
      · simp [KeyObj.subKeys, h3, newKey]
  cases k with
  | none =>
    simp only [constructKeyPart, Res.ok.injEq] at h
    subst h
    exact ⟨by intro c hc; simp at hc, by intro m hm; simp at hm, rfl⟩
  | some o =>
    cases o with
    | mapped m => exact main _ rfl rfl
    | key q => exact main _ rfl rfl
    | empty =>
      have : c = some .empty := by
        rw [constructKeyPart] at h
        simpa [KeyObj.copyConstruct] using h.symm
      subst this
      refine ⟨?_, by intro m hm; simp at hm, rfl⟩
      intro d hd s hs
      simp only [Option.some.injEq] at hd
      subst hd
      simp [KeyObj.subKeys] at hs

mutual
/-- Whatever copy is constructed, it says what the value says. -/
theorem constructVal_inv : ∀ v c : CVal, realVal v → v.copyConstruct = .ok c → fullKeys v ∧ rebuilt v c
  | .prim d, c, _, h => by
    simp only [CVal.copyConstruct, Res.ok.injEq] at h
    rw [fullKeys, rebuilt]
    exact ⟨trivial, h.symm⟩
  | .array es, c, hr, h => by
    rw [realVal] at hr
    rw [CVal.copyConstruct] at h
    obtain ⟨l, h1, h⟩ := Res.bind_eq_ok.mp h
    simp only [Res.ok.injEq] at h
    rw [fullKeys, rebuilt]
    obtain ⟨q1, q2⟩ := constructVals_inv es l hr h1
    exact ⟨q1, l, h.symm, q2⟩
  | .records rs, c, hr, h => by
    rw [realVal] at hr
    rw [CVal.copyConstruct] at h
    obtain ⟨l, h1, h⟩ := Res.bind_eq_ok.mp h
    simp only [Res.ok.injEq] at h
    rw [fullKeys, rebuilt]
    obtain ⟨q1, q2⟩ := constructRecs_inv rs l hr h1
    exact ⟨q1, l, h.symm, q2⟩
  | .simple d b, c, _, h => by
    simp only [CVal.copyConstruct, Res.ok.injEq] at h
    rw [fullKeys, rebuilt]
    exact ⟨trivial, h.symm⟩
  | .std d, c, hr, h => by
    rw [realVal] at hr
    obtain ⟨b, n, hd⟩ := hr
    rw [fullKeys, rebuilt]
    exact ⟨trivial, (constructStd_iff hd c).mp h⟩

theorem constructVals_inv : ∀ es l : List CVal, realVals es → constructVals es = .ok l → fullKeysVals es ∧ rebuilts es l
  | [], l, _, h => by
    simp only [constructVals, Res.ok.injEq] at h
    rw [fullKeysVals, rebuilts]
    exact ⟨trivial, h.symm⟩
  | v :: es, l, hr, h => by
    rw [realVals] at hr
    rw [constructVals] at h
    obtain ⟨v', h1, h⟩ := Res.bind_eq_ok.mp h
    obtain ⟨l', h2, h⟩ := Res.bind_eq_ok.mp h
    simp only [Res.ok.injEq] at h
    rw [fullKeysVals, rebuilts]
    obtain ⟨p1, p2⟩ := constructVal_inv v v' hr.1 h1
    obtain ⟨q1, q2⟩ := constructVals_inv es l' hr.2 h2
    exact ⟨⟨p1, q1⟩, v', l', h.symm, p2, q2⟩

theorem constructPart_inv : ∀ o c : Option CVal, realPart o → constructValuePart o = .ok c → fullKeysPart o ∧ rebuiltPart o c
  | none, c, _, h => by
    simp only [constructValuePart, Res.ok.injEq] at h
    rw [fullKeysPart, rebuiltPart]
    exact ⟨trivial, h.symm⟩
  | some v, c, hr, h => by
    rw [realPart] at hr
    rw [constructValuePart] at h
    obtain ⟨v', h1, h⟩ := Res.bind_eq_ok.mp h
    simp only [Res.ok.injEq] at h
    rw [fullKeysPart, rebuiltPart]
    obtain ⟨p1, p2⟩ := constructVal_inv v v' hr h1
    exact ⟨p1, v', h.symm, p2⟩

theorem constructRec_inv : ∀ r c : CRec, realRec r → r.copyConstruct = .ok c → fullKeysRec r ∧ rebuiltRec r c
  | .record key value scheme t a b, c, hr, h => by
    rw [realRec] at hr
    rw [CRec.copyConstruct] at h
    obtain ⟨k', h1, h⟩ := Res.bind_eq_ok.mp h
    obtain ⟨v', h2, h⟩ := Res.bind_eq_ok.mp h
    obtain ⟨s', h3, h⟩ := Res.bind_eq_ok.mp h
    simp only [Res.ok.injEq] at h
    obtain ⟨a1, a2, a3⟩ := constructKey_inv h1
    obtain ⟨b1, b2⟩ := constructPart_inv value v' hr.2.1 h2
    obtain ⟨c1, c2⟩ := constructPart_inv scheme s' hr.2.2 h3
    rw [fullKeysRec, rebuiltRec]
    exact ⟨⟨a1, b1, c1⟩, k', v', s', h.symm, a2, a3, b2, c2⟩
  | .mapped r, c, hr, h => by
    rw [realRec] at hr
    obtain ⟨b, n, -, hd⟩ := hr
    rw [fullKeysRec, rebuiltRec]
    exact ⟨trivial, (constructMapped_iff hd c).mp h⟩

theorem constructRecs_inv : ∀ rs l : List CRec, realRecs rs → constructRecs rs = .ok l → fullKeysRecs rs ∧ rebuiltRecs rs l
  | [], l, _, h => by
    simp only [constructRecs, Res.ok.injEq] at h
    rw [fullKeysRecs, rebuiltRecs]
    exact ⟨trivial, h.symm⟩
  | v :: es, l, hr, h => by
    rw [realRecs] at hr
    rw [constructRecs] at h
    obtain ⟨v', h1, h⟩ := Res.bind_eq_ok.mp h
    obtain ⟨l', h2, h⟩ := Res.bind_eq_ok.mp h
    simp only [Res.ok.injEq] at h
    rw [fullKeysRecs, rebuiltRecs]
    obtain ⟨p1, p2⟩ := constructRec_inv v v' hr.1 h1
    obtain ⟨q1, q2⟩ := constructRecs_inv es l' hr.2 h2
    exact ⟨⟨p1, q1⟩, v', l', h.symm, p2, q2⟩
end

/-- The full claim of C113: every value has a constructed copy, nothing in the copy is decoded, and it is encoded to the same bytes if
the value can be encoded. -/
def CopyConstructs : Prop :=
  ∀ v : CVal, realVal v → ∃ c, v.copyConstruct = .ok c ∧ built c ∧ ∀ w, v.encode = .ok w → c.encode = .ok w

/-- C113: a value has a constructed copy exactly if everything decoded in it is well formed and no key in it has an empty sub key; the
copy says what the value says, nothing in it is decoded, and it is encoded like any other value that says the same. -/
theorem C113_value_partial (v : CVal) (hr : realVal v) :
    ((∃ c, v.copyConstruct = .ok c) ↔ fullKeys v ∧ ∃ u, rebuilt v u) ∧
      (∀ c, v.copyConstruct = .ok c → built c ∧ rebuilt v c ∧ ∀ u, rebuilt v u → c.encode = u.encode) ∧
      (∀ u, rebuilt v u → ¬ fullKeys v → v.copyConstruct = .panic) := by
  refine ⟨⟨?_, ?_⟩, ?_, fun u hu hf => (constructVal_spec v u hr hu).2 hf⟩
  · rintro ⟨c, hc⟩
    obtain ⟨h1, h2⟩ := constructVal_inv v c hr hc
    exact ⟨h1, c, h2⟩
  · rintro ⟨hf, u, hu⟩
    obtain ⟨c, q, -⟩ := (constructVal_spec v u hr hu).1 hf
    exact ⟨c, q⟩
  · intro c hc
    obtain ⟨h1, h2⟩ := constructVal_inv v c hr hc
    refine ⟨?_, h2, fun u hu => ?_⟩
    · obtain ⟨c', q1, -, -, q4⟩ := (constructVal_spec v c hr h2).1 h1
      rw [hc] at q1
      cases q1
      exact q4
    · obtain ⟨c', q1, q2, -⟩ := (constructVal_spec v u hr hu).1 h1
      rw [hc] at q1
      cases q1
      exact q2

/-- An array of a primitive and a decoded value. -/
def exC113 : CVal := .array [.prim (some [1]), .std ⟨[0x01, 1, 0x61], .prim, 0, [0x61]⟩]

theorem exC113_real : realVal exC113 := by
  simp only [exC113, realVal, realVals]
  exact ⟨trivial, ⟨[0x01, 1, 0x61], 3, by decide +kernel⟩, trivial⟩

theorem exC113_rebuilt : rebuilt exC113 (.array [.prim (some [1]), .prim (some [0x61])]) := by
  simp [exC113, rebuilt, rebuilts, Reads]

example : realVal exC113 ∧ rebuilt exC113 (.array [.prim (some [1]), .prim (some [0x61])]) ∧ fullKeys exC113 ∧ exC113.encode = .err :=
  ⟨exC113_real, exC113_rebuilt, by simp [exC113, fullKeys, fullKeysVals], rfl⟩

/-- A decoded array that announces an element it does not have is not copied. -/
example : realVal (.std ⟨[0x40, 1], .array, 1, []⟩) ∧ ¬ ∃ u, rebuilt (.std ⟨[0x40, 1], .array, 1, []⟩) u := by
  constructor
  · rw [realVal]
    exact ⟨[0x40, 1], 2, by decide +kernel⟩
  · rintro ⟨u, hu⟩
    rw [rebuilt] at hu
    cases u with
    | array us =>
      rw [Reads] at hu
      cases us with
      | nil => simp at hu
      | cons u us =>
        rw [ReadsVals] at hu
        obtain ⟨-, -, ⟨e, he, -⟩, -⟩ := hu
        exact absurd he (by simp [elemOf, show decodeStd [] = .err from rfl, bind, Res.bind])
    | prim s => simp [Reads] at hu
    | records s => simp [Reads] at hu
    | simple a b => simp [Reads] at hu
    | std d => simp [Reads] at hu

/-- C113: the same for records. -/
theorem C113_record_partial (r : CRec) (hr : realRec r) :
    ((∃ c, r.copyConstruct = .ok c) ↔ fullKeysRec r ∧ ∃ u, rebuiltRec r u) ∧
      (∀ c, r.copyConstruct = .ok c → builtRec c ∧ rebuiltRec r c ∧ ∀ u, rebuiltRec r u → c.encode = u.encode) ∧
      (∀ u, rebuiltRec r u → ¬ fullKeysRec r → r.copyConstruct = .panic) := by
  refine ⟨⟨?_, ?_⟩, ?_, fun u hu hf => (constructRec_spec r u hr hu).2 hf⟩
  · rintro ⟨c, hc⟩
    obtain ⟨h1, h2⟩ := constructRec_inv r c hr hc
    exact ⟨h1, c, h2⟩
  · rintro ⟨hf, u, hu⟩
    obtain ⟨c, q, -⟩ := (constructRec_spec r u hr hu).1 hf
    exact ⟨c, q⟩
  · intro c hc
    obtain ⟨h1, h2⟩ := constructRec_inv r c hr hc
    refine ⟨?_, h2, fun u hu => ?_⟩
    · obtain ⟨c', q1, -, q4⟩ := (constructRec_spec r c hr h2).1 h1
      rw [hc] at q1
      cases q1
      exact q4
    · obtain ⟨c', q1, q2, -⟩ := (constructRec_spec r u hr hu).1 h1
      rw [hc] at q1
      cases q1
      exact q2

/-- A record with a decoded key, and in its value a decoded record. -/
def exC113rec : CRec := .record (some (.mapped ⟨[some [5]], [1, 1, 5]⟩)) (some (.records [.mapped
  ⟨[0x70, 0x00, 0x01, 1, 0x61, 0x00], ⟨[], [0x00, 0x01, 1, 0x61, 0x00]⟩, ⟨[0x01, 1, 0x61], .prim, 0, [0x61]⟩, ⟨[0x00], .prim, 0, []⟩,
    none, none⟩])) none (some 7) none none

example : realRec exC113rec ∧ fullKeysRec exC113rec ∧ rebuiltRec exC113rec
    (.record (some (.key (newSimpleKey (some [5])))) (some (.records [.record (some (.key newKey)) (some (.prim (some [0x61])))
      (some (.prim (some []))) none none none])) none (some 7) none none) := by
  refine ⟨?_, ?_, ?_⟩
  · simp only [exC113rec, realRec, realKey, realPart, realVal, realRecs]
    exact ⟨fun m hm => ⟨[1, 1, 5], 3, by cases hm; decide +kernel⟩, ⟨⟨[0x70, 0x00, 0x01, 1, 0x61, 0x00], 6, by decide, by decide +kernel⟩, trivial⟩,
      trivial⟩
  · simp [exC113rec, fullKeysRec, fullKey, fullKeysPart, fullKeys, fullKeysRecs, KeyObj.subKeys, Slice.bytes]
  · rw [exC113rec, rebuiltRec]
    refine ⟨_, _, _, rfl, by intro m hm; simp at hm, rfl, ?_, by rw [rebuiltPart]⟩
    simp [rebuiltPart, rebuilt, rebuiltRecs, rebuiltRec, ReadsRec, ReadsPart, Reads]

example : realRec (.record (some (.key (newSimpleKey (some [])))) none none none none none) ∧
    rebuiltRec (.record (some (.key (newSimpleKey (some [])))) none none none none none)
      (.record (some (.key (newSimpleKey (some [])))) none none none none none) ∧
    ¬ fullKeysRec (.record (some (.key (newSimpleKey (some [])))) none none none none none) := by
  refine ⟨by simp [realRec, realKey, realPart], ?_, by simp [fullKeysRec, fullKey, newSimpleKey, KeyObj.subKeys, Slice.bytes]⟩
  rw [rebuiltRec]
  exact ⟨_, _, _, rfl, by intro m hm; simp at hm, rfl, by rw [rebuiltPart], by rw [rebuiltPart]⟩

/-- C113 as stated does not hold: a key may have an empty sub key, and then copying panics. -/
theorem C113_refuted : ¬ CopyConstructs := by
  intro H
  obtain ⟨c, h, -⟩ := H (.records [.record (some (.key (newSimpleKey (some [])))) none none none none none]) (by
    simp [realVal, realRecs, realRec, realKey, realPart])
  exact absurd h (by
    have : (CVal.records [.record (some (.key (newSimpleKey (some [])))) none none none none none]).copyConstruct = .panic := rfl
    rw [this]
    simp)

end Poodle.Props
