import Verif.Props.Decoded
import Verif.Lemmas.Conv

/-
Property C121: encoding of constructed copies of decoded values (/repo/src/util/value_util.go, /repo/src/util/record_util.go).
-/

namespace Poodle.Props
open Poodle Spec

theorem count_some {c : UInt8} {n : Nat} {l : Bytes} (h : IsCount c (some n) l) : n < 65536 ∧ fieldSize n ≤ l.length := by
  unfold fieldSize
  cases h with
  | one b =>
    have := b.toNat_lt
    refine ⟨by omega, ?_⟩
    simp only [List.length_cons, List.length_nil]
    repeat' split
    all_goals omega
  | two a b =>
    have := a.toNat_lt
    have := b.toNat_lt
    refine ⟨by omega, ?_⟩
    simp only [List.length_cons, List.length_nil]
    repeat' split
    all_goals omega

theorem count_getD {c : UInt8} {n : Option Nat} {l : Bytes} (h : IsCount c n l) : n.getD 0 < 65536 ∧ fieldSize (n.getD 0) ≤ l.length := by
  cases n with
  | none => simp [fieldSize]
  | some n => exact count_some h

theorem fieldSize_mono {a b : Nat} (h : a ≤ b) : fieldSize a ≤ fieldSize b := by
  unfold fieldSize
  repeat' split
  all_goals omega

/-- The fields of a value take at least their shortest form. -/
theorem stdWire_min {w : Bytes} {k : VKind} {n : Nat} {c : Bytes} (h : IsStdWire w k n c) :
    n < 65536 ∧ c.length < 65536 ∧ 1 + fieldSize n + fieldSize c.length + c.length ≤ w.length := by
  cases h with
  | prim m len l c h1 h2 h3 h4 h5 =>
    obtain ⟨a, b⟩ := count_getD h4
    rw [← h5] at a b
    refine ⟨by omega, a, ?_⟩
    simp only [fieldSize, if_true, List.length_cons, List.length_append] at b ⊢
    omega
  | array m size len c l content h1 h2 h3 h4 h5 =>
    obtain ⟨a, b⟩ := count_getD h4
    obtain ⟨a', b'⟩ := count_some h1
    rw [← h5] at a b
    refine ⟨a', a, ?_⟩
    simp only [List.length_cons, List.length_append]
    omega
  | records m size len c l content h1 h2 h3 h4 h5 =>
    obtain ⟨a, b⟩ := count_getD h4
    obtain ⟨a', b'⟩ := count_some h2
    rw [← h5] at a b
    refine ⟨a', a, ?_⟩
    simp only [List.length_cons, List.length_append]
    omega

theorem countHeader_min (shift : UInt8) {n : Nat} (h : n < 65536) : ∃ m c, countHeader shift n = .ok (m, c) ∧ c.length = fieldSize n := by
  unfold countHeader fieldSize
  repeat' split
  all_goals exact ⟨_, _, rfl, rfl⟩

theorem withContent_min (m : UInt8) (c : Bytes) {content : Bytes} (h : content.length < 65536) :
    ∃ w, withContent m c content = .ok w ∧ w.length = 1 + c.length + fieldSize content.length + content.length := by
  unfold withContent fieldSize
  repeat' split
  all_goals first
    | omega
    | refine ⟨_, rfl, ?_⟩
      simp only [List.length_cons, List.length_append, List.length_nil]
      omega

theorem encodePrimitive_min {c : Bytes} (h : c.length < 65536) :
    ∃ w, encodePrimitive (some c) = .ok w ∧ w.length = 1 + fieldSize c.length + c.length := by
  unfold encodePrimitive fieldSize
  simp only
  repeat' split
  all_goals first
    | omega
    | refine ⟨_, rfl, ?_⟩
      simp only [List.length_cons, List.length_append, List.length_nil]
      omega

/-- Reading on after the first item. -/
theorem readsVals_shift : ∀ (us : List CVal) {c : Bytes} {x : StdValue} {n i : Nat}, decodeStd c = .ok (x, n) → ReadsVals us c (i + 1) →
    ReadsVals us (c.drop n) i
  | [], _, _, _, _, _, _ => by simp [ReadsVals]
  | u :: us, c, x, n, i, h, hu => by
    rw [ReadsVals, elemOf, h, Res.bind_ok] at hu
    rw [ReadsVals]
    exact ⟨hu.1, readsVals_shift us h hu.2⟩

theorem readsRecs_shift : ∀ (us : List CRec) {c : Bytes} {x : RecInfo} {n i : Nat}, decodeRecord c = .ok (x, n) →
    ReadsRecs us c (i + 1) → ReadsRecs us (c.drop n) i
  | [], _, _, _, _, _, _ => by simp [ReadsRecs]
  | u :: us, c, x, n, i, h, hu => by
    rw [ReadsRecs, elemOf, h, Res.bind_ok] at hu
    rw [ReadsRecs]
    exact ⟨hu.1, readsRecs_shift us h hu.2⟩

/-- The sizes of the parts of a decoded record. -/
theorem decodeRecord_parts {buf : Bytes} {r : RecInfo} {n : Nat} (h : decodeRecord buf = .ok (r, n)) :
    1 + r.value.buf.length + r.scheme.buf.length + (if r.timestamp.isSome then 8 else 0) + (if r.signature.isSome then 64 else 0) ≤
      r.buf.length := by
  obtain ⟨h1, h2, h3, -⟩ := decodeRecord_ok h
  have hl : r.buf.length = n := by rw [h3, List.length_take]; omega
  rw [hl]
  clear h1 h2 h3 hl
  unfold decodeRecord at h
  split at h
  · exact absurd h (by simp)
  obtain ⟨m, -, h⟩ := Res.bind_eq_ok.mp h
  split at h
  · exact absurd h (by simp)
  obtain ⟨k, -, h⟩ := Res.bind_eq_ok.mp h
  split at h
  · exact absurd h (by simp)
  obtain ⟨v, hv, h⟩ := Res.bind_eq_ok.mp h
  obtain ⟨s, hs, h⟩ := Res.bind_eq_ok.mp h
  obtain ⟨t, ht, h⟩ := Res.bind_eq_ok.mp h
  obtain ⟨g, hg, h⟩ := Res.bind_eq_ok.mp h
  obtain ⟨b, -, h⟩ := Res.bind_eq_ok.mp h
  simp only [Res.ok.injEq, Prod.mk.injEq] at h
  obtain ⟨rfl, rfl⟩ := h
  obtain ⟨-, -, -, -, -, v1, -⟩ := decodeRecPart_ok hv
  obtain ⟨-, -, -, -, -, s1, -⟩ := decodeRecPart_ok hs
  have t1 : s.2 + (if t.1.isSome then 8 else 0) ≤ t.2 := by
    unfold decodeRecTime at ht
    split at ht
    · split at ht
      · exact absurd ht (by simp)
      · obtain ⟨x, -, ht⟩ := Res.bind_eq_ok.mp ht
        cases ht; simp
    · cases ht; simp
  have g1 : t.2 + (if g.1.isSome then 64 else 0) ≤ g.2 := by
    unfold decodeRecSig at hg
    split at hg
    · split at hg
      · exact absurd hg (by simp)
      · split at hg
        · cases hg; simp
        · obtain ⟨x, -, hg⟩ := Res.bind_eq_ok.mp hg
          obtain ⟨y, -, hg⟩ := Res.bind_eq_ok.mp hg
          cases hg; simp
    · cases hg; simp
  simp only
  omega

theorem timePart_length (t : Option Int) (g : Option (Int × Int)) :
    (timePart t (g.map Prod.fst) (g.map Prod.snd)).2.length ≤ (if t.isSome then 8 else 0) + (if g.isSome then 64 else 0) := by
  cases t with
  | none => simp [timePart]
  | some t =>
    have : (timeToBytes t).length = 8 := beBytes_length _ _
    cases g with
    | none => simp [timePart, this]
    | some g => simp [timePart, this, bigIntToByteArray_length]

mutual
theorem reencode_val : ∀ (u : CVal) (d : StdValue), Reads u d → IsStdWire d.buf d.kind d.size d.content →
    ∃ w, u.encode = .ok w ∧ w.length ≤ d.buf.length
  | .prim s, d, h, hw => by
    rw [Reads] at h
    obtain ⟨-, h2, h3⟩ := stdWire_min hw
    obtain ⟨w, q1, q2⟩ := encodePrimitive_min h2
    refine ⟨w, by rw [CVal.encode, h.2]; exact q1, ?_⟩
    omega
  | .array us, d, h, hw => by
    rw [Reads] at h
    obtain ⟨h1, h2, h3⟩ := stdWire_min hw
    obtain ⟨c, a1, a2⟩ := reencode_vals us d.content h.2.2
    obtain ⟨m, k, b1, b2⟩ := countHeader_min 6 h1
    obtain ⟨w, c1, c2⟩ := withContent_min m k (content := c) (by omega)
    refine ⟨w, by rw [CVal.encode, h.2.1, b1, a1]; exact c1, ?_⟩
    have := fieldSize_mono a2
    omega
  | .records us, d, h, hw => by
    rw [Reads] at h
    obtain ⟨h1, h2, h3⟩ := stdWire_min hw
    obtain ⟨c, a1, a2⟩ := reencode_recs us d.content h.2.2
    obtain ⟨m, k, b1, b2⟩ := countHeader_min 4 h1
    obtain ⟨w, c1, c2⟩ := withContent_min m k (content := c) (by omega)
    refine ⟨w, by rw [CVal.encode, h.2.1, b1, a1]; exact c1, ?_⟩
    have := fieldSize_mono a2
    omega
  | .simple _ _, _, h, _ => by rw [Reads] at h; exact h.elim
  | .std _, _, h, _ => by rw [Reads] at h; exact h.elim

theorem reencode_vals : ∀ (us : List CVal) (c : Bytes), ReadsVals us c 0 → ∃ w, encodeVals us = .ok w ∧ w.length ≤ c.length
  | [], _, _ => ⟨[], rfl, by simp⟩
  | u :: us, c, h => by
    rw [ReadsVals] at h
    obtain ⟨⟨e, h1, h2⟩, h3⟩ := h
    rw [elemOf] at h1
    obtain ⟨⟨x, n⟩, h5, h4⟩ := Res.bind_eq_ok.mp h1
    simp only [Res.ok.injEq] at h4
    subst h4
    clear h1
    obtain ⟨rest, q1, q2, q3⟩ := (decodeStd_ok_iff _ _ _).mp h5
    obtain ⟨w, a1, a2⟩ := reencode_val u x h2 q3
    obtain ⟨w', b1, b2⟩ := reencode_vals us (c.drop n) (readsVals_shift us h5 h3)
    refine ⟨w ++ w', by rw [encodeVals, a1, b1]; rfl, ?_⟩
    have : c.length = x.buf.length + rest.length := by rw [q1]; simp
    rw [List.length_drop] at b2
    rw [List.length_append]
    omega

theorem reencode_part : ∀ (bit : UInt8) (u : Option CVal) (d : StdValue), ReadsPart u d → IsStdWire d.buf d.kind d.size d.content →
    ∃ m w, recValuePart bit u = .ok (m, w) ∧ w.length ≤ d.buf.length
  | _, none, _, h, _ => by rw [ReadsPart] at h; exact h.elim
  | bit, some u, d, h, hw => by
    rw [ReadsPart] at h
    obtain ⟨w, a1, a2⟩ := reencode_val u d h hw
    rw [recValuePart]
    split
    · exact ⟨_, _, rfl, by simp⟩
    · exact ⟨_, w, by rw [a1]; rfl, a2⟩

theorem reencode_rec : ∀ (u : CRec) (r : RecInfo), ReadsRec u r → (∃ b n, decodeRecord b = .ok (r, n)) →
    ∃ w, u.encode = .ok w ∧ w.length ≤ r.buf.length
  | .record k v s t a b, r, h, ⟨buf, n, hd⟩ => by
    rw [ReadsRec] at h
    obtain ⟨rfl, hv, hs, rfl, rfl, rfl⟩ := h
    obtain ⟨-, -, -, w1, w2⟩ := decodeRecord_ok hd
    have hp := decodeRecord_parts hd
    obtain ⟨m2, b2, p1, p2⟩ := reencode_part 5 v r.value hv w1
    obtain ⟨m3, b3, q1, q2⟩ := reencode_part 4 s r.scheme hs w2
    have ht := timePart_length r.timestamp r.signature
    refine ⟨_, by
      rw [CRec.encode, p1, q1]
      simp only [recKeyPart, KeyObj.isEmpty, newKey, Res.bind_ok]
      rfl, ?_⟩
    simp only [List.length_cons, List.length_append, List.length_nil]
    omega
  | .mapped _, _, h, _ => by rw [ReadsRec] at h; exact h.elim

theorem reencode_recs : ∀ (us : List CRec) (c : Bytes), ReadsRecs us c 0 → ∃ w, encodeRecs us = .ok w ∧ w.length ≤ c.length
  | [], _, _ => ⟨[], rfl, by simp⟩
  | u :: us, c, h => by
    rw [ReadsRecs] at h
    obtain ⟨⟨e, h1, h2⟩, h3⟩ := h
    rw [elemOf] at h1
    obtain ⟨⟨x, n⟩, h5, h4⟩ := Res.bind_eq_ok.mp h1
    simp only [Res.ok.injEq] at h4
    subst h4
    obtain ⟨-, -, l1, l2⟩ := decodeRecord_lengths h5
    obtain ⟨w, a1, a2⟩ := reencode_rec u x h2 ⟨_, _, h5⟩
    obtain ⟨w', b1, b2⟩ := reencode_recs us (c.drop n) (readsRecs_shift us h5 h3)
    refine ⟨w ++ w', by rw [encodeRecs, a1, b1]; rfl, ?_⟩
    rw [List.length_drop] at b2
    rw [List.length_append]
    omega
end

mutual
theorem reads_noNil : ∀ (u : CVal) (d : StdValue), Reads u d → noNil u = true
  | .prim s, d, h => by rw [Reads] at h; rw [h.2, noNil]
  | .array us, d, h => by
    rw [Reads] at h
    rw [noNil]
    exact readsVals_noNil us d.content 0 h.2.2
  | .records us, d, h => by simp [noNil]
  | .simple _ _, _, h => by rw [Reads] at h; exact h.elim
  | .std _, _, h => by rw [Reads] at h; exact h.elim

theorem readsVals_noNil : ∀ (us : List CVal) (c : Bytes) (i : Nat), ReadsVals us c i → allNoNil us = true
  | [], _, _, _ => by simp [allNoNil]
  | u :: us, c, i, h => by
    rw [ReadsVals] at h
    obtain ⟨⟨e, -, h2⟩, h3⟩ := h
    rw [allNoNil, reads_noNil u e h2, readsVals_noNil us c (i + 1) h3]
    rfl
end

/-- C121: a constructed copy of a decoded value, made after any accesses, can be encoded, and takes no more bytes than the value. -/
theorem C121_value (buf : Bytes) (d : StdValue) (n : Nat) (hd : decodeStd buf = .ok (d, n)) (h h' : Heap) (root : Nat)
    (ha : allocStd [] buf = (h, .ok root)) (l : List Access) (fuel : Nat) (u : CVal)
    (hc : copyVal fuel (history h l) root = (h', .ok u)) : ∃ w, u.encode = .ok w ∧ w.length ≤ n := by
  obtain ⟨e1, e2⟩ := allocStd_rep hd ha
  obtain ⟨c1, c2⟩ := history_coherent e1 l
  obtain ⟨rest, -, hn, hw⟩ := (decodeStd_ok_iff _ _ _).mp hd
  rw [hn]
  exact reencode_val u d ((copy_inv fuel).1 _ _ _ _ _ c1 (e2.mono c2) hc).1 hw

/-- An array whose size and content length are given two bytes each, and its copy. -/
example : ∃ d h h' u, decodeStd [0x82, 0, 1, 0, 3, 0x01, 1, 0x61] = .ok (d, 8) ∧
    allocStd [] [0x82, 0, 1, 0, 3, 0x01, 1, 0x61] = (h, .ok 0) ∧ copyVal 9 h 0 = (h', .ok u) ∧ u.encode = .ok [0x41, 1, 3, 0x01, 1, 0x61] := by
  have hd : decodeStd [0x82, 0, 1, 0, 3, 0x01, 1, 0x61] = .ok (⟨[0x82, 0, 1, 0, 3, 0x01, 1, 0x61], .array, 1, [0x01, 1, 0x61]⟩, 8) := by
    decide +kernel
  refine ⟨_, _, _, .array [.prim (some [0x61])], hd, by rw [allocStd, hd]; rfl, rfl, rfl⟩

/-- C121: the same for a decoded record. -/
theorem C121_record (buf : Bytes) (r : RecInfo) (n : Nat) (hd : decodeRecord buf = .ok (r, n)) (h h' : Heap) (root : Nat)
    (ha : allocRec [] buf = (h, .ok root)) (l : List Access) (fuel : Nat) (u : CRec)
    (hc : copyRec fuel (history h l) root = (h', .ok u)) : ∃ w, u.encode = .ok w ∧ w.length ≤ n := by
  obtain ⟨e1, e2⟩ := allocRec_root hd ha
  obtain ⟨c1, c2⟩ := history_coherent e1 l
  obtain ⟨-, -, hn, -⟩ := decodeRecord_lengths hd
  rw [← hn]
  exact reencode_rec u r ((copy_inv fuel).2 _ _ _ _ _ c1 (e2.mono c2) (C50_decoded_key_empty_partial buf r n hd) hc).1 ⟨_, _, hd⟩

example : ∃ r h h' u, decodeRecord [0x70, 0x00, 0x01, 1, 0x61, 0x00] = .ok (r, 6) ∧
    allocRec [] [0x70, 0x00, 0x01, 1, 0x61, 0x00] = (h, .ok 2) ∧ copyRec 7 h 2 = (h', .ok u) ∧ u.encode = .ok [0x20, 0x01, 1, 0x61] :=
  ⟨_, _, _, .record (some (.key newKey)) (some (.prim (some [0x61]))) (some (.prim (some []))) none none none, rfl, rfl, rfl,
    by decide +kernel⟩

/-- C121: decoding what the copy is encoded to gives a value that shows the same as the copy at every index path through arrays. -/
theorem C121_roundtrip (buf : Bytes) (d : StdValue) (n : Nat) (hd : decodeStd buf = .ok (d, n)) (h h' : Heap) (root : Nat)
    (ha : allocStd [] buf = (h, .ok root)) (l : List Access) (fuel : Nat) (u : CVal)
    (hc : copyVal fuel (history h l) root = (h', .ok u)) (w : Bytes) (he : u.encode = .ok w) : RoundTrips u w := by
  obtain ⟨e1, e2⟩ := allocStd_rep hd ha
  obtain ⟨c1, c2⟩ := history_coherent e1 l
  exact (C43_roundtrip_iff_partial u w he).mpr (reads_noNil u d ((copy_inv fuel).1 _ _ _ _ _ c1 (e2.mono c2) hc).1)

example := C121_roundtrip [0x01, 1, 0x61] ⟨[0x01, 1, 0x61], .prim, 0, [0x61]⟩ 3 (by decide +kernel) _ _ 0 rfl [.value 0 0] 9 (.prim (some [0x61])) rfl [0x01, 1, 0x61] (by decide +kernel)

end Poodle.Props
