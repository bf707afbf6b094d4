import Verif.Props.Decoded

/-
Properties C47 and C50: which decoded values are copied (/repo/src/util/value_util.go:528-585), and records followed by other bytes
(/repo/src/util/record_util.go:157-264).
-/

namespace Poodle.Props
open Poodle Poodle.Spec

/-- C50: nothing that a record was encoded to can be decoded again, whatever follows it. -/
theorem C50_never_decodes_before_partial (key : Option KeyObj) (value scheme : Option CVal) (t r s : Option Int) (w rest : Bytes)
    (hk : RealKey key) (h : (CRec.record key value scheme t r s).encode = .ok w) (hgo : (w ++ rest).length < 2 ^ 63) (d : RecInfo)
    (n : Nat) : decodeRecord (w ++ rest) ≠ .ok (d, n) := by
  intro hd
  have hempty := C50_decoded_key_empty_partial _ d n hd
  obtain ⟨p, ⟨m, hw, -, hb6, -⟩, hkp, -⟩ := C49_layout _ _ _ _ _ _ _ h
  rw [hw] at hd
  unfold decodeRecord at hd
  rw [if_neg (by simp), List.cons_append, goByte_head, Res.bind_ok] at hd
  by_cases hb : (m >>> 6) &&& 0x01 = 0
  · rw [if_pos hb] at hd; exact absurd hd (by simp)
  rw [if_neg hb] at hd
  obtain ⟨⟨k, kn⟩, hk', hd⟩ := Res.bind_eq_ok.mp hd
  simp only at hd
  split at hd
  · exact absurd hd (by simp)
  obtain ⟨⟨v, p1⟩, h1, hd⟩ := Res.bind_eq_ok.mp hd
  obtain ⟨⟨s', p2⟩, h2, hd⟩ := Res.bind_eq_ok.mp hd
  obtain ⟨⟨ts, p3⟩, h3, hd⟩ := Res.bind_eq_ok.mp hd
  obtain ⟨⟨sg, p4⟩, h4, hd⟩ := Res.bind_eq_ok.mp hd
  obtain ⟨b, h5, hd⟩ := Res.bind_eq_ok.mp hd
  cases hd
  simp only at hempty
  have hsome : p.key.isSome = true := by
    rw [← hb6]
    rw [bit6] at hb
    simpa using hb
  cases key with
  | none => simp [IsKeyPart] at hkp; simp [hkp] at hsome
  | some ko =>
    simp only [IsKeyPart] at hkp
    by_cases he : ko.isEmpty = true
    · rw [if_pos he] at hkp; simp [hkp] at hsome
    · rw [if_neg he] at hkp
      obtain ⟨kb, hkb, hpk⟩ := hkp
      rw [hpk] at hk' hw
      simp only [List.drop_succ_cons, List.drop_zero, Option.getD_some, List.append_assoc] at hk' hw
      refine key_not_empty hk (by simpa using he) hkb ?_ hk' hempty
      rw [hw, List.length_append, List.length_cons] at hgo
      simp only [List.length_append] at hgo ⊢
      omega

example := C50_never_decodes_before_partial (some (.key (newSimpleKey (some [0x6b])))) (some (.prim (some [0x76]))) (some (.prim (some [0x73])))
  none none none [0x70, 1, 1, 0x6b, 0x01, 1, 0x76, 0x01, 1, 0x73] [0x70, 0, 0, 0] (by simp [RealKey]) (by decide +kernel) (by decide)

/-! ### C47: which values are copied -/

mutual
/-- Somewhere in the arrays of the value is a list with records. -/
def holdsRecords : CVal → Bool
  | .array es => anyHoldsRecords es
  | .records rs => !rs.isEmpty
  | _ => false

/-- One of them. -/
def anyHoldsRecords : List CVal → Bool
  | [] => false
  | v :: l => holdsRecords v || anyHoldsRecords l
end

/-- The record has a key that can occur. -/
def hasRealKey : CRec → Prop
  | .record key _ _ _ _ _ => RealKey key
  | .mapped _ => True

mutual
/-- All records in lists in the arrays of the value have keys that can occur. -/
def realKeys : CVal → Prop
  | .array es => allRealKeys es
  | .records rs => ∀ r ∈ rs, hasRealKey r
  | _ => True

/-- In all of them. -/
def allRealKeys : List CVal → Prop
  | [] => True
  | v :: l => realKeys v ∧ allRealKeys l
end

theorem content_short {w : Bytes} {k : VKind} {n : Nat} {content : Bytes} (h : IsStdWire w k n content) : content.length < 65536 := by
  have hc : ∀ {b : UInt8} {len : Option Nat} {l : Bytes}, IsCount b len l → len.getD 0 < 65536 := by
    intro b len l h
    cases h with
    | none => simp
    | one b => have := b.toNat_lt; simp; omega
    | two a b => have := a.toNat_lt; have := b.toNat_lt; simp; omega
  cases h with
  | prim m len l content h6 h4 h12 hl hcl => rw [hcl]; exact hc hl
  | array m size len c l content h6 h4 h12 hl hcl => rw [hcl]; exact hc hl
  | records m size len c l content h6 h4 h12 hl hcl => rw [hcl]; exact hc hl

theorem records_unread {rs : List CRec} {d : StdValue} (hw : WireOf (.records rs) d) (hne : rs ≠ []) (hk : ∀ r ∈ rs, hasRealKey r)
    (u : CVal) : ¬ Reads u d := by
  rcases hw.2.2 with ⟨h, -⟩ | ⟨-, hkind, hcont⟩
  · exact absurd h hne
  have hlen : d.size = rs.length := hw.2.1
  cases rs with
  | nil => exact absurd rfl hne
  | cons r rs =>
    intro hu
    cases u with
    | prim s => rw [Reads, hkind] at hu; exact absurd hu.1 (by decide)
    | array us => rw [Reads, hkind] at hu; exact absurd hu.1 (by decide)
    | simple a b => exact hu
    | std a => exact hu
    | records us =>
      rw [Reads] at hu
      obtain ⟨-, h2, h3⟩ := hu
      rw [hlen] at h2
      cases us with
      | nil => simp at h2
      | cons x us =>
        rw [ReadsRecs] at h3
        obtain ⟨⟨e, he, -⟩, -⟩ := h3
        rw [encodeRecs] at hcont
        obtain ⟨b, hb, hcont'⟩ := Res.bind_eq_ok.mp hcont
        obtain ⟨bs, -, hcont'⟩ := Res.bind_eq_ok.mp hcont'
        have hcb : b ++ bs = d.content := by simpa using hcont'
        have hshort := content_short hw.1
        rw [elemOf, ← hcb] at he
        obtain ⟨⟨i, m⟩, hd, -⟩ := Res.bind_eq_ok.mp he
        cases r with
        | mapped i => rw [CRec.encode] at hb; exact absurd hb (by simp)
        | record key v s t a c =>
          exact C50_never_decodes_before_partial key v s t a c b bs (hk (.record key v s t a c) (by simp)) hb (by rw [hcb]; omega) i m hd

mutual
theorem unread : ∀ (v : CVal) (d : StdValue), holdsRecords v = true → realKeys v → noNil v = true → WireOf v d → ∀ u, ¬ Reads u d
  | .records rs, d, hh, hk, _, hw => by
    rw [realKeys] at hk
    refine records_unread hw ?_ hk
    rintro rfl
    simp [holdsRecords] at hh
  | .array es, d, hh, hk, hn, hw => by
    intro u hu
    rw [holdsRecords] at hh
    rw [realKeys] at hk
    rw [noNil] at hn
    rcases hw.2.2 with ⟨rfl, -⟩ | ⟨-, hkind, hcont⟩
    · simp [anyHoldsRecords] at hh
    cases u with
    | prim s => rw [Reads, hkind] at hu; exact absurd hu.1 (by decide)
    | records us => rw [Reads, hkind] at hu; exact absurd hu.1 (by decide)
    | simple a b => exact hu
    | std a => exact hu
    | array us =>
      rw [Reads] at hu
      exact unreads es [] es d rfl hh hk hn hcont us (by rw [hu.2.1, hw.2.1]) hu.2.2
  | .prim _, _, hh, _, _, _ => by simp [holdsRecords] at hh
  | .simple _ _, _, hh, _, _, _ => by simp [holdsRecords] at hh
  | .std _, _, hh, _, _, _ => by simp [holdsRecords] at hh

theorem unreads : ∀ (suf pre es : List CVal) (d : StdValue), es = pre ++ suf → anyHoldsRecords suf = true → allRealKeys suf →
    allNoNil es = true → encodeVals es = .ok d.content → ∀ us, us.length = suf.length → ¬ ReadsVals us d.content pre.length
  | [], _, _, _, _, hh, _, _, _ => by simp [anyHoldsRecords] at hh
  | v :: l, pre, es, d, he, hh, hk, hn, hcont => by
    intro us hl hu
    cases us with
    | nil => simp at hl
    | cons u us =>
      rw [ReadsVals] at hu
      rw [allRealKeys] at hk
      rw [anyHoldsRecords, Bool.or_eq_true] at hh
      have hget : es[pre.length]? = some v := by rw [he]; simp
      obtain ⟨d', q1, q2, q3⟩ := elemOf_encodeVals hcont (fun e hm => by
        rintro rfl
        have := allNoNil_mem hn _ hm
        simp [noNil] at this) pre.length v hget
      obtain ⟨⟨e, r1, r2⟩, r3⟩ := hu
      rw [q1] at r1
      cases r1
      rcases hh with hh | hh
      · exact unread v d' hh hk.1 (allNoNil_mem hn v (List.mem_of_getElem? hget)) q2 u r2
      · exact unreads l (pre ++ [v]) es d (by rw [he]; simp) hh hk.2 hn hcont us (by simpa using hl) (by simpa using r3)
end

mutual
theorem reads_canon : ∀ (v : CVal) (d : StdValue), holdsRecords v = false → noNil v = true → WireOf v d → Reads (canonVal v) d
  | .prim s, d, _, _, hw => by
    show Reads (.prim s) d
    rw [Reads]; exact ⟨hw.2.1, hw.2.2.2⟩
  | .records [], d, _, _, hw => by
    rcases hw.2.2 with ⟨-, hk, hc⟩ | ⟨h, -⟩
    · rw [canonVal, Reads]; exact ⟨hk, by rw [hc]⟩
    · exact absurd rfl h
  | .records (_ :: _), _, hh, _, _ => by simp [holdsRecords] at hh
  | .array [], d, _, _, hw => by
    rcases hw.2.2 with ⟨-, hk, hc⟩ | ⟨h, -⟩
    · rw [canonVal, Reads]; exact ⟨hk, by rw [hc]⟩
    · exact absurd rfl h
  | .array (v :: l), d, hh, hn, hw => by
    rcases hw.2.2 with ⟨h, -⟩ | ⟨-, hk, hc⟩
    · simp at h
    rw [holdsRecords] at hh
    rw [noNil] at hn
    have := readsVals_canon (v :: l) [] (v :: l) d rfl hh hn hc
    rw [canonVals] at this
    rw [canonVal, Reads]
    exact ⟨hk, by rw [hw.2.1]; simp [canonVals_length], this⟩
  | .simple _ _, _, _, _, hw => hw.2.elim
  | .std _, _, _, _, hw => hw.2.elim

theorem readsVals_canon : ∀ (suf pre es : List CVal) (d : StdValue), es = pre ++ suf → anyHoldsRecords suf = false →
    allNoNil es = true → encodeVals es = .ok d.content → ReadsVals (canonVals suf) d.content pre.length
  | [], _, _, _, _, _, _, _ => by rw [canonVals, ReadsVals]; trivial
  | v :: l, pre, es, d, he, hh, hn, hcont => by
    rw [anyHoldsRecords, Bool.or_eq_false_iff] at hh
    have hget : es[pre.length]? = some v := by rw [he]; simp
    obtain ⟨d', q1, q2, q3⟩ := elemOf_encodeVals hcont (fun e hm => by
      rintro rfl
      have := allNoNil_mem hn _ hm
      simp [noNil] at this) pre.length v hget
    rw [canonVals, ReadsVals]
    refine ⟨⟨d', q1, reads_canon v d' hh.1 (allNoNil_mem hn v (List.mem_of_getElem? hget)) q2⟩, ?_⟩
    have := readsVals_canon l (pre ++ [v]) es d (by rw [he]; simp) hh.2 hn hcont
    simpa using this
end

/-- C47, exactly: a constructed value that round trips, after decoding and after any accesses, is copied and the copy encoded to the same
bytes, if there is no list with records in its arrays; if there is one, it is not copied. -/
theorem C47_exact_partial (v : CVal) (w : Bytes) (he : v.encode = .ok w) (hr : RoundTrips v w) (hk : realKeys v) (rest : Bytes) :
    ∃ h root, allocStd [] (w ++ rest) = (h, .ok root) ∧ ∀ l : List Access,
      (holdsRecords v = false → ∃ d, ∀ fuel, d < fuel → ∃ h' v', copyVal fuel (history h l) root = (h', .ok v') ∧ v'.encode = .ok w) ∧
      (holdsRecords v = true → ∀ fuel h' v', copyVal fuel (history h l) root ≠ (h', .ok v')) := by
  have hn := noNil_of_roundTrips he hr
  rcases encode_wire he with ⟨rfl, rfl⟩ | ⟨d, rfl, hd⟩
  · simp [noNil] at hn
  have hdec := decodeStd_of_wire (rest := rest) hd.1
  obtain ⟨ext, p', e1, e2, e3⟩ := allocStd_spec.onOk [] _ _ _ coherent_nil hdec
  refine ⟨_, p', e1, ?_⟩
  intro l
  obtain ⟨c1, c2⟩ := history_coherent e2 l
  refine ⟨fun hh => ⟨depthV (canonVal v), fun fuel hf => ?_⟩, fun hh fuel h' v' hc => ?_⟩
  · obtain ⟨h', q, -⟩ := copyVal_reads (canonVal v) d fuel _ p' (reads_canon v d hh hn hd) hf c1 (e3.mono c2)
    exact ⟨h', _, q, by rw [canonVal_encode]; exact he⟩
  · exact unread v d hh hk hn hd v' ((copy_inv fuel).1 _ _ _ d _ c1 (e3.mono c2) hc).1

example := C47_exact_partial (.records [.record (some (.key (newSimpleKey (some [0x6b])))) (some (.prim (some [7]))) none none none none])
  [17, 1, 7, 0x60, 1, 1, 0x6b, 1, 1, 7] (by decide +kernel) (records_roundTrip (by decide +kernel) (by decide))
  (by simp [realKeys, hasRealKey, RealKey])

example : holdsRecords (.array [.prim (some [0x61]), .records []]) = false ∧ holdsRecords (.array [.records [.record none none none none none none]]) = true ∧
    (CVal.array [.prim (some [0x61]), .records []]).encode = .ok [0x41, 2, 4, 0x01, 1, 0x61, 0x00] := by
  decide +kernel

end Poodle.Props
