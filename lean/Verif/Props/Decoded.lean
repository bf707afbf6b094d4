import Verif.Spec.Decoded
import Verif.Props.ValueHeap
import Verif.Props.RecordHeap
import Verif.Props.Record
import Verif.Props.Value

/-
Property C120: constructed copies of decoded values (/repo/src/util/value_util.go, /repo/src/util/record_util.go).
-/

namespace Poodle.Props
open Poodle Spec

/-! ### Nesting -/

mutual
/-- The nesting depth, with records. -/
def depthV : CVal → Nat
  | .array es => depthVs es + 1
  | .records rs => depthRs rs + 1
  | .prim _ => 0
  | .simple _ _ => 0
  | .std _ => 0

/-- The largest of them. -/
def depthVs : List CVal → Nat
  | [] => 0
  | v :: l => max (depthV v) (depthVs l)

/-- Of an optional value. -/
def depthP : Option CVal → Nat
  | none => 0
  | some v => depthV v

/-- The same for a record. -/
def depthR : CRec → Nat
  | .record _ v s _ _ _ => max (depthP v) (depthP s) + 1
  | .mapped _ => 0

/-- The largest of them. -/
def depthRs : List CRec → Nat
  | [] => 0
  | v :: l => max (depthR v) (depthRs l)
end

theorem stdWire_length {w : Bytes} {k : VKind} {n : Nat} {c : Bytes} (h : IsStdWire w k n c) : c.length + 1 ≤ w.length := by
  cases h <;> simp <;> omega

theorem decodeRecord_lengths {buf : Bytes} {r : RecInfo} {n : Nat} (h : decodeRecord buf = .ok (r, n)) :
    r.value.buf.length + 1 ≤ r.buf.length ∧ r.scheme.buf.length + 1 ≤ r.buf.length ∧ r.buf.length = n ∧ n ≤ buf.length := by
  obtain ⟨h1, h2, h3, -⟩ := decodeRecord_ok h
  have hl : r.buf.length = n := by rw [h3, List.length_take]; omega
  suffices r.value.buf.length + r.scheme.buf.length + 1 ≤ n by omega
  unfold decodeRecord at h
  split at h
  · exact absurd h (by simp)
  obtain ⟨m, -, h⟩ := Res.bind_eq_ok.mp h
  split at h
  · exact absurd h (by simp)
  obtain ⟨k, -, h⟩ := Res.bind_eq_ok.mp h
  split at h
  · exact absurd h (by simp)
  obtain ⟨v, hv, h⟩ := Res.bind_eq_ok.mp h
  obtain ⟨s, hs, h⟩ := Res.bind_eq_ok.mp h
  obtain ⟨t, ht, h⟩ := Res.bind_eq_ok.mp h
  obtain ⟨g, hg, h⟩ := Res.bind_eq_ok.mp h
  obtain ⟨b, -, h⟩ := Res.bind_eq_ok.mp h
  simp only [Res.ok.injEq, Prod.mk.injEq] at h
  obtain ⟨rfl, rfl⟩ := h
  obtain ⟨-, -, -, -, -, v1, -⟩ := decodeRecPart_ok hv
  obtain ⟨-, -, -, -, -, s1, -⟩ := decodeRecPart_ok hs
  have := decodeRecTime_ok ht
  have := decodeRecSig_ok hg
  simp only
  omega

theorem elemOf_std_length : ∀ {i : Nat} {c : Bytes} {e : StdValue}, elemOf decodeStd c i = .ok e → e.buf.length ≤ c.length ∧
    IsStdWire e.buf e.kind e.size e.content
  | 0, c, e, h => by
    rw [elemOf] at h
    obtain ⟨⟨x, n⟩, h1, h⟩ := Res.bind_eq_ok.mp h
    simp only [Res.ok.injEq] at h
    subst h
    obtain ⟨rest, q1, q2, q3⟩ := (decodeStd_ok_iff _ _ _).mp h1
    rw [q1]
    exact ⟨by simp, q3⟩
  | i + 1, c, e, h => by
    rw [elemOf] at h
    obtain ⟨⟨x, n⟩, h1, h⟩ := Res.bind_eq_ok.mp h
    obtain ⟨a, b⟩ := elemOf_std_length h
    rw [List.length_drop] at a
    exact ⟨by omega, b⟩

theorem elemOf_rec_decoded : ∀ {i : Nat} {c : Bytes} {e : RecInfo}, elemOf decodeRecord c i = .ok e →
    e.buf.length ≤ c.length ∧ ∃ b n, decodeRecord b = .ok (e, n)
  | 0, c, e, h => by
    rw [elemOf] at h
    obtain ⟨⟨x, n⟩, h1, h⟩ := Res.bind_eq_ok.mp h
    simp only [Res.ok.injEq] at h
    subst h
    obtain ⟨-, -, h2, h3⟩ := decodeRecord_lengths h1
    exact ⟨by omega, _, _, h1⟩
  | i + 1, c, e, h => by
    rw [elemOf] at h
    obtain ⟨⟨x, n⟩, h1, h⟩ := Res.bind_eq_ok.mp h
    obtain ⟨a, b⟩ := elemOf_rec_decoded h
    rw [List.length_drop] at a
    exact ⟨by omega, b⟩

mutual
theorem reads_depth : ∀ (u : CVal) (d : StdValue), Reads u d → IsStdWire d.buf d.kind d.size d.content → depthV u ≤ d.buf.length
  | .prim _, _, _, _ => by simp [depthV]
  | .array us, d, h, hw => by
    rw [Reads] at h
    have := readsVals_depth us d.content 0 h.2.2
    have := stdWire_length hw
    rw [depthV]
    omega
  | .records us, d, h, hw => by
    rw [Reads] at h
    have := readsRecs_depth us d.content 0 h.2.2
    have := stdWire_length hw
    rw [depthV]
    omega
  | .simple _ _, _, h, _ => by rw [Reads] at h; exact h.elim
  | .std _, _, h, _ => by rw [Reads] at h; exact h.elim

theorem readsVals_depth : ∀ (us : List CVal) (c : Bytes) (i : Nat), ReadsVals us c i → depthVs us ≤ c.length
  | [], _, _, _ => by simp [depthVs]
  | u :: us, c, i, h => by
    rw [ReadsVals] at h
    obtain ⟨⟨e, h1, h2⟩, h3⟩ := h
    obtain ⟨a, b⟩ := elemOf_std_length h1
    have := reads_depth u e h2 b
    have := readsVals_depth us c (i + 1) h3
    rw [depthVs]
    omega

theorem readsPart_depth : ∀ (u : Option CVal) (d : StdValue), ReadsPart u d → IsStdWire d.buf d.kind d.size d.content →
    depthP u ≤ d.buf.length
  | none, _, h, _ => by rw [ReadsPart] at h; exact h.elim
  | some u, d, h, hw => by
    rw [ReadsPart] at h
    rw [depthP]
    exact reads_depth u d h hw

theorem readsRec_depth : ∀ (u : CRec) (r : RecInfo), ReadsRec u r → (∃ b n, decodeRecord b = .ok (r, n)) → depthR u ≤ r.buf.length
  | .record k v s t a b, r, h, ⟨buf, n, hd⟩ => by
    rw [ReadsRec] at h
    obtain ⟨-, -, -, w1, w2⟩ := decodeRecord_ok hd
    obtain ⟨l1, l2, -⟩ := decodeRecord_lengths hd
    have := readsPart_depth v r.value h.2.1 w1
    have := readsPart_depth s r.scheme h.2.2.1 w2
    rw [depthR]
    omega
  | .mapped _, _, h, _ => by rw [ReadsRec] at h; exact h.elim

theorem readsRecs_depth : ∀ (us : List CRec) (c : Bytes) (i : Nat), ReadsRecs us c i → depthRs us ≤ c.length
  | [], _, _, _ => by simp [depthRs]
  | u :: us, c, i, h => by
    rw [ReadsRecs] at h
    obtain ⟨⟨e, h1, h2⟩, h3⟩ := h
    obtain ⟨a, b⟩ := elemOf_rec_decoded h1
    have := readsRec_depth u e h2 b
    have := readsRecs_depth us c (i + 1) h3
    rw [depthRs]
    omega
end

/-! ### Copying reads everything -/

theorem copy_mappedKey {r : RecInfo} (h : r.key.keys = []) : (KeyObj.mapped r.key).copyConstruct = .ok (.key newKey) := by
  simp only [KeyObj.copyConstruct, h, addAll, Res.bind_ok]

/-- The state after a call: as good as before. -/
def Later (h h' : Heap) : Prop := Coherent h' ∧ Extends h h'

theorem Later.refl {h : Heap} (hc : Coherent h) : Later h h := ⟨hc, Extends.refl h⟩

theorem Later.trans {a b c : Heap} (h1 : Later a b) (h2 : Later b c) : Later a c := ⟨h2.1, h1.2.trans h2.2⟩

mutual
theorem copyVal_reads : ∀ (u : CVal) (d : StdValue) (fuel : Nat) (h : Heap) (id : Nat), Reads u d → depthV u < fuel → Coherent h →
    RepV h id d → ∃ h', copyVal fuel h id = (h', .ok u) ∧ Later h h'
  | _, _, 0, _, _, _, hf, _, _ => absurd hf (Nat.not_lt_zero _)
  | .prim s, d, fuel + 1, h, id, hu, _, hc, ⟨sl, hs⟩ => by
    rw [Reads] at hu
    refine ⟨h, ?_, Later.refl hc⟩
    rw [copyVal, hs]
    simp only [hu.1, hu.2]
  | .array us, d, fuel + 1, h, id, hu, hf, hc, hr => by
    rw [Reads] at hu
    rw [depthV] at hf
    obtain ⟨h', q1, q2⟩ := copyVals_reads us d fuel h id 0 hu.1 (by omega) hu.2.2 (by omega) hc hr
    refine ⟨h', ?_, q2⟩
    obtain ⟨sl, hs⟩ := hr
    rw [copyVal, hs]
    simp only [hu.1, ← hu.2.1, q1]
  | .records us, d, fuel + 1, h, id, hu, hf, hc, hr => by
    rw [Reads] at hu
    rw [depthV] at hf
    obtain ⟨h', q1, q2⟩ := copyRecs_reads us d fuel h id 0 hu.1 (by omega) hu.2.2 (by omega) hc hr
    refine ⟨h', ?_, q2⟩
    obtain ⟨sl, hs⟩ := hr
    rw [copyVal, hs]
    simp only [hu.1, ← hu.2.1, q1]
  | .simple _ _, _, _ + 1, _, _, hu, _, _, _ => by rw [Reads] at hu; exact hu.elim
  | .std _, _, _ + 1, _, _, hu, _, _, _ => by rw [Reads] at hu; exact hu.elim

theorem copyVals_reads : ∀ (us : List CVal) (d : StdValue) (fuel : Nat) (h : Heap) (id i : Nat), d.kind = .array →
    i + us.length ≤ d.size → ReadsVals us d.content i → depthVs us < fuel → Coherent h → RepV h id d →
    ∃ h', copyLoop Heap.valueAt (copyVal fuel) id us.length i h = (h', .ok us) ∧ Later h h'
  | [], _, _, h, _, _, _, _, _, _, hc, _ => ⟨h, rfl, Later.refl hc⟩
  | u :: us, d, fuel, h, id, i, hk, hi, hu, hf, hc, hr => by
    rw [ReadsVals] at hu
    rw [depthVs] at hf
    rw [List.length_cons] at hi
    obtain ⟨⟨e, h1, h2⟩, h3⟩ := hu
    obtain ⟨g1, p, r1, r2, r3, r4⟩ := valueAt_ok hc hr hk (by omega) h1
    obtain ⟨g2, s1, s2⟩ := copyVal_reads u e fuel g1 p h2 (by omega) r2 r4
    obtain ⟨g3, t1, t2⟩ := copyVals_reads us d fuel g2 id (i + 1) hk (by omega) h3 (by omega) s2.1 ((hr.mono r3).mono s2.2)
    refine ⟨g3, ?_, (Later.trans ⟨r2, r3⟩ s2).trans t2⟩
    rw [List.length_cons, copyLoop, r1]
    simp only [s1, t1]

theorem copyPart_reads : ∀ (u : Option CVal) (d : StdValue) (fuel : Nat) (h : Heap) (id : Nat), ReadsPart u d → depthP u < fuel →
    Coherent h → RepV h id d → ∃ h' v, u = some v ∧ copyVal fuel h id = (h', .ok v) ∧ Later h h'
  | none, _, _, _, _, hu, _, _, _ => by rw [ReadsPart] at hu; exact hu.elim
  | some u, d, fuel, h, id, hu, hf, hc, hr => by
    rw [ReadsPart] at hu
    rw [depthP] at hf
    obtain ⟨h', q1, q2⟩ := copyVal_reads u d fuel h id hu hf hc hr
    exact ⟨h', u, rfl, q1, q2⟩

theorem copyRec_reads : ∀ (u : CRec) (r : RecInfo) (fuel : Nat) (h : Heap) (id : Nat), ReadsRec u r → r.key.keys = [] →
    depthR u < fuel → Coherent h → RepR h id r → ∃ h', copyRec fuel h id = (h', .ok u) ∧ Later h h'
  | _, _, 0, _, _, _, _, hf, _, _ => absurd hf (Nat.not_lt_zero _)
  | .record k v s t a b, r, fuel + 1, h, id, hu, hkeys, hf, hc, ⟨iv, is, hr⟩ => by
    rw [ReadsRec] at hu
    rw [depthR] at hf
    obtain ⟨rfl, hv, hs, rfl, rfl, rfl⟩ := hu
    obtain ⟨rv, rs⟩ := hc id _ hr
    obtain ⟨g1, v', rfl, q1, q2⟩ := copyPart_reads v r.value fuel h iv hv (by omega) hc rv
    obtain ⟨g2, s', rfl, p1, p2⟩ := copyPart_reads s r.scheme fuel g1 is hs (by omega) q2.1 (rs.mono q2.2)
    refine ⟨g2, ?_, q2.trans p2⟩
    rw [copyRec, hr]
    simp only [copy_mappedKey hkeys, q1, p1]
  | .mapped _, _, _ + 1, _, _, hu, _, _, _, _ => by rw [ReadsRec] at hu; exact hu.elim

theorem copyRecs_reads : ∀ (us : List CRec) (d : StdValue) (fuel : Nat) (h : Heap) (id i : Nat), d.kind = .records →
    i + us.length ≤ d.size → ReadsRecs us d.content i → depthRs us < fuel → Coherent h → RepV h id d →
    ∃ h', copyLoop Heap.recordAt (copyRec fuel) id us.length i h = (h', .ok us) ∧ Later h h'
  | [], _, _, h, _, _, _, _, _, _, hc, _ => ⟨h, rfl, Later.refl hc⟩
  | u :: us, d, fuel, h, id, i, hk, hi, hu, hf, hc, hr => by
    rw [ReadsRecs] at hu
    rw [depthRs] at hf
    rw [List.length_cons] at hi
    obtain ⟨⟨e, h1, h2⟩, h3⟩ := hu
    obtain ⟨g1, p, r1, r2, r3, r4⟩ := recordAt_ok hc hr hk (by omega) h1
    obtain ⟨-, b, n, hd⟩ := elemOf_rec_decoded h1
    obtain ⟨g2, s1, s2⟩ := copyRec_reads u e fuel g1 p h2 (C50_decoded_key_empty_partial b e n hd) (by omega) r2 r4
    obtain ⟨g3, t1, t2⟩ := copyRecs_reads us d fuel g2 id (i + 1) hk (by omega) h3 (by omega) s2.1 ((hr.mono r3).mono s2.2)
    refine ⟨g3, ?_, (Later.trans ⟨r2, r3⟩ s2).trans t2⟩
    rw [List.length_cons, copyLoop, r1]
    simp only [s1, t1]
end

/-! ### Nothing else is copied -/

section
variable {α : Type} {alloc : Heap → Bytes → Heap × Res Nat} {dec : Bytes → Res (α × Nat)} {rep : Heap → Nat → α → Prop} {kind : VKind}

theorem lazyAt_inv (A : AllocSpec alloc dec rep kind) {id : Nat} {d : StdValue} (hkind : d.kind = kind) {h : Heap} {sl : List Slot}
    (hc : Coherent h) (e : h[id]? = some (.val d sl)) {idx p : Nat} {h' : Heap} (he : lazyAt alloc h id d idx = (h', .ok (some p))) :
    ∃ x, elemOf dec d.content idx = .ok x ∧ rep h' p x ∧ Later h h' := by
  have hi : idx < d.size := by
    by_contra hge
    rw [lazyAt, if_pos (by omega)] at he
    simp at he
  by_cases hx : ∃ x, elemOf dec d.content idx = .ok x
  · obtain ⟨x, hx⟩ := hx
    obtain ⟨h'', p', h1, h2, h3, h4, -⟩ := lazyAt_ok A hkind hc e hi hx
    rw [h1] at he
    simp only [Prod.mk.injEq, Res.ok.injEq, Option.some.injEq] at he
    obtain ⟨rfl, rfl⟩ := he
    exact ⟨x, hx, h4, h2, h3⟩
  · exfalso
    push Not at hx
    obtain ⟨f, hf, h1, h2⟩ := exists_first_fail hx
    obtain ⟨q1, q2, q3⟩ := lazyAt_fail A hkind hc e hi hf h1 h2
    rcases q3 with q3 | q3
    · obtain ⟨h'', r1, -⟩ := q1 q3
      rw [r1] at he
      cases hz : elemOf dec d.content f with
      | ok x => exact h1 x hz
      | err => simp [hz, failed] at he
      | panic => simp [hz, failed] at he
    · rw [q2 q3] at he
      split at he <;> simp at he
end

theorem copyLoop_inv {α β : Type} {at_ : Heap → Nat → Nat → Heap × Res (Option Nat)} {copy : Heap → Nat → Heap × Res β}
    {id : Nat} {d : StdValue} {rep : Heap → Nat → α → Prop} {elem : Nat → Res α} {R : β → α → Prop}
    (hat : ∀ h h' i p, Coherent h → RepV h id d → at_ h id i = (h', .ok (some p)) → ∃ x, elem i = .ok x ∧ rep h' p x ∧ Later h h')
    (hcopy : ∀ h h' p x v i, Coherent h → rep h p x → elem i = .ok x → copy h p = (h', .ok v) → R v x ∧ Later h h') :
    ∀ (n i : Nat) (h h' : Heap) (vs : List β), Coherent h → RepV h id d → copyLoop at_ copy id n i h = (h', .ok vs) →
      vs.length = n ∧ Later h h' ∧ ∀ j v, vs[j]? = some v → ∃ x, elem (i + j) = .ok x ∧ R v x := by
  intro n
  induction n with
  | zero =>
    intro i h h' vs hc _ he
    simp only [copyLoop, Prod.mk.injEq, Res.ok.injEq] at he
    obtain ⟨rfl, rfl⟩ := he
    exact ⟨rfl, Later.refl hc, fun j v hv => by simp at hv⟩
  | succ n ih =>
    intro i h h' vs hc hr he
    rw [copyLoop] at he
    cases h1 : at_ h id i with
    | mk g1 r1 =>
      rw [h1] at he
      rcases r1 with (_ | p) | _ | _
      · simp at he
      · simp only at he
        obtain ⟨x, q1, q2, q3⟩ := hat h g1 i p hc hr h1
        cases h2 : copy g1 p with
        | mk g2 r2 =>
          rw [h2] at he
          rcases r2 with v | _ | _
          · simp only at he
            obtain ⟨p1, p2⟩ := hcopy g1 g2 p x v i q3.1 q2 q1 h2
            cases h3 : copyLoop at_ copy id n (i + 1) g2 with
            | mk g3 r3 =>
              rw [h3] at he
              rcases r3 with vs' | _ | _
              · simp only [Prod.mk.injEq, Res.ok.injEq] at he
                obtain ⟨rfl, rfl⟩ := he
                obtain ⟨s1, s2, s3⟩ := ih (i + 1) g2 g3 vs' p2.1 ((hr.mono q3.2).mono p2.2) h3
                refine ⟨by simp [s1], (q3.trans p2).trans s2, ?_⟩
                intro j w hw
                cases j with
                | zero =>
                  simp only [List.getElem?_cons_zero, Option.some.injEq] at hw
                  subst hw
                  exact ⟨x, q1, p1⟩
                | succ j =>
                  obtain ⟨y, y1, y2⟩ := s3 j w (by simpa using hw)
                  exact ⟨y, by rw [← y1]; congr 1; omega, y2⟩
              · simp at he
              · simp at he
          · simp at he
          · simp at he
      · simp at he
      · simp at he

theorem readsVals_of : ∀ (us : List CVal) (c : Bytes) (i : Nat),
    (∀ j v, us[j]? = some v → ∃ x, elemOf decodeStd c (i + j) = .ok x ∧ Reads v x) → ReadsVals us c i
  | [], _, _, _ => by simp [ReadsVals]
  | u :: us, c, i, h => by
    rw [ReadsVals]
    refine ⟨h 0 u rfl, readsVals_of us c (i + 1) fun j v hv => ?_⟩
    obtain ⟨x, h1, h2⟩ := h (j + 1) v hv
    exact ⟨x, by rw [← h1]; congr 1; omega, h2⟩

theorem readsRecs_of : ∀ (us : List CRec) (c : Bytes) (i : Nat),
    (∀ j v, us[j]? = some v → ∃ x, elemOf decodeRecord c (i + j) = .ok x ∧ ReadsRec v x) → ReadsRecs us c i
  | [], _, _, _ => by simp [ReadsRecs]
  | u :: us, c, i, h => by
    rw [ReadsRecs]
    refine ⟨h 0 u rfl, readsRecs_of us c (i + 1) fun j v hv => ?_⟩
    obtain ⟨x, h1, h2⟩ := h (j + 1) v hv
    exact ⟨x, by rw [← h1]; congr 1; omega, h2⟩

theorem copy_inv (fuel : Nat) :
    (∀ (h h' : Heap) (id : Nat) (d : StdValue) (u : CVal), Coherent h → RepV h id d → copyVal fuel h id = (h', .ok u) →
      Reads u d ∧ Later h h') ∧
    (∀ (h h' : Heap) (id : Nat) (r : RecInfo) (u : CRec), Coherent h → RepR h id r → r.key.keys = [] → copyRec fuel h id = (h', .ok u) →
      ReadsRec u r ∧ Later h h') := by
  induction fuel with
  | zero => exact ⟨fun h h' id d u _ _ he => by simp [copyVal] at he, fun h h' id r u _ _ _ he => by simp [copyRec] at he⟩
  | succ fuel ih =>
    constructor
    · intro h h' id d u hc hr he
      obtain ⟨sl, hs⟩ := hr
      rw [copyVal, hs] at he
      simp only at he
      cases hk : d.kind with
      | prim =>
        simp only [hk, Prod.mk.injEq, Res.ok.injEq] at he
        obtain ⟨rfl, rfl⟩ := he
        exact ⟨by rw [Reads]; exact ⟨hk, rfl⟩, Later.refl hc⟩
      | array =>
        simp only [hk] at he
        cases h1 : copyLoop Heap.valueAt (copyVal fuel) id d.size 0 h with
        | mk g r1 =>
          rw [h1] at he
          rcases r1 with vs | _ | _
          · simp only [Prod.mk.injEq, Res.ok.injEq] at he
            obtain ⟨rfl, rfl⟩ := he
            obtain ⟨q1, q2, q3⟩ := copyLoop_inv (d := d) (rep := RepV) (elem := elemOf decodeStd d.content) (R := Reads) (by
              rintro h h' i p hc ⟨sl, hs⟩ he
              rw [Heap.valueAt, hs] at he
              simp only [hk, ne_eq, not_true_eq_false, if_false] at he
              exact lazyAt_inv allocStd_spec hk hc hs he) (fun h h' p x v _ hc hx _ he => ih.1 h h' p x v hc hx he) _ _ _ _ _ hc ⟨sl, hs⟩ h1
            refine ⟨?_, q2⟩
            rw [Reads]
            exact ⟨hk, q1, readsVals_of _ _ _ q3⟩
          · simp at he
          · simp at he
      | records =>
        simp only [hk] at he
        cases h1 : copyLoop Heap.recordAt (copyRec fuel) id d.size 0 h with
        | mk g r1 =>
          rw [h1] at he
          rcases r1 with vs | _ | _
          · simp only [Prod.mk.injEq, Res.ok.injEq] at he
            obtain ⟨rfl, rfl⟩ := he
            obtain ⟨q1, q2, q3⟩ := copyLoop_inv (d := d) (rep := RepR) (elem := elemOf decodeRecord d.content) (R := ReadsRec) (by
              rintro h h' i p hc ⟨sl, hs⟩ he
              rw [Heap.recordAt, hs] at he
              simp only [hk, ne_eq, not_true_eq_false, if_false] at he
              exact lazyAt_inv allocRec_spec hk hc hs he) (fun h h' p x v _ hc hx hel he => by
                obtain ⟨-, b, n, hd⟩ := elemOf_rec_decoded hel
                exact ih.2 h h' p x v hc hx (C50_decoded_key_empty_partial b x n hd) he) _ _ _ _ _ hc ⟨sl, hs⟩ h1
            refine ⟨?_, q2⟩
            rw [Reads]
            exact ⟨hk, q1, readsRecs_of _ _ _ q3⟩
          · simp at he
          · simp at he
    · rintro h h' id r u hc ⟨iv, is, hr⟩ hkeys he
      obtain ⟨rv, rs⟩ := hc id _ hr
      rw [copyRec, hr] at he
      simp only [copy_mappedKey hkeys] at he
      cases h1 : copyVal fuel h iv with
      | mk g1 r1 =>
        rw [h1] at he
        rcases r1 with v | _ | _
        · simp only at he
          obtain ⟨q1, q2⟩ := ih.1 h g1 iv r.value v hc rv h1
          cases h2 : copyVal fuel g1 is with
          | mk g2 r2 =>
            rw [h2] at he
            rcases r2 with s | _ | _
            · simp only [Prod.mk.injEq, Res.ok.injEq] at he
              obtain ⟨rfl, rfl⟩ := he
              obtain ⟨p1, p2⟩ := ih.1 g1 g2 is r.scheme s q2.1 (rs.mono q2.2) h2
              refine ⟨?_, q2.trans p2⟩
              rw [ReadsRec, ReadsPart, ReadsPart]
              exact ⟨rfl, q1, p1, rfl, rfl, rfl⟩
            · simp at he
            · simp at he
        · simp at he
        · simp at he

/-! ### C120 -/

theorem allocRec_root {buf : Bytes} {h : Heap} {root : Nat} {r : RecInfo} {n : Nat} (hd : decodeRecord buf = .ok (r, n))
    (ha : allocRec [] buf = (h, .ok root)) : Coherent h ∧ RepR h root r := by
  obtain ⟨ext, p', e1, e2, e3⟩ := allocRec_spec.onOk [] _ _ _ coherent_nil hd
  rw [e1] at ha
  simp only [Prod.mk.injEq, Res.ok.injEq] at ha
  obtain ⟨rfl, rfl⟩ := ha
  exact ⟨e2, e3⟩

theorem allocStd_rep {buf : Bytes} {h : Heap} {root : Nat} {d : StdValue} {n : Nat} (hd : decodeStd buf = .ok (d, n))
    (ha : allocStd [] buf = (h, .ok root)) : Coherent h ∧ RepV h root d := by
  obtain ⟨ext, p', e1, e2, e3⟩ := allocStd_spec.onOk [] _ _ _ coherent_nil hd
  rw [e1] at ha
  simp only [Prod.mk.injEq, Res.ok.injEq] at ha
  obtain ⟨rfl, rfl⟩ := ha
  exact ⟨e2, e3⟩

/-- C120: whatever was accessed before, `CopyConstruct` of a decoded value returns exactly what the bytes of the value say, and fails if
they are not all well formed. -/
theorem C120_value (buf : Bytes) (d : StdValue) (n : Nat) (hd : decodeStd buf = .ok (d, n)) (h : Heap) (root : Nat)
    (ha : allocStd [] buf = (h, .ok root)) (l : List Access) (fuel : Nat) (hf : d.buf.length < fuel) (u : CVal) :
    (copyVal fuel (history h l) root).2 = .ok u ↔ Reads u d := by
  obtain ⟨hc, hr⟩ := allocStd_rep hd ha
  obtain ⟨c1, c2⟩ := history_coherent hc l
  obtain ⟨rest, -, -, hw⟩ := (decodeStd_ok_iff _ _ _).mp hd
  constructor
  · intro he
    exact ((copy_inv fuel).1 _ (copyVal fuel (history h l) root).1 root d u c1 (hr.mono c2) (by rw [← he])).1
  · intro hu
    obtain ⟨h', q, -⟩ := copyVal_reads u d fuel _ root hu (Nat.lt_of_le_of_lt (reads_depth u d hu hw) hf) c1 (hr.mono c2)
    rw [q]

/-- An array of a primitive and a list of one record. -/
def exC120 : Bytes := [0x41, 2, 12, 0x01, 1, 0x61, 0x11, 1, 6, 0x70, 0x00, 0x01, 1, 0x61, 0x00, 0xff]

example : ∃ d u, decodeStd exC120 = .ok (d, 15) ∧ Reads u d := by
  refine ⟨⟨exC120.take 15, .array, 2, (exC120.drop 3).take 12⟩, .array [.prim (some [0x61]), .records [.record (some (.key newKey))
    (some (.prim (some [0x61]))) (some (.prim (some []))) none none none]], by decide +kernel, ?_⟩
  simp only [Reads, ReadsVals, ReadsRecs, ReadsRec, ReadsPart]
  refine ⟨by trivial, rfl, ⟨⟨[0x01, 1, 0x61], .prim, 0, [0x61]⟩, by decide +kernel, rfl, rfl⟩,
    ⟨⟨[0x11, 1, 6, 0x70, 0x00, 0x01, 1, 0x61, 0x00], .records, 1, [0x70, 0x00, 0x01, 1, 0x61, 0x00]⟩, by decide +kernel, rfl, rfl,
      ⟨⟨[0x70, 0x00, 0x01, 1, 0x61, 0x00], ⟨[], [0x00, 0x01, 1, 0x61, 0x00]⟩, ⟨[0x01, 1, 0x61], .prim, 0, [0x61]⟩,
        ⟨[0x00], .prim, 0, []⟩, none, none⟩, by decide +kernel, ?_⟩, trivial⟩, trivial⟩
  simp

/-- C120: the same for decoded records. -/
theorem C120_record (buf : Bytes) (r : RecInfo) (n : Nat) (hd : decodeRecord buf = .ok (r, n)) (h : Heap) (root : Nat)
    (ha : allocRec [] buf = (h, .ok root)) (l : List Access) (fuel : Nat) (hf : r.buf.length < fuel) (u : CRec) :
    (copyRec fuel (history h l) root).2 = .ok u ↔ ReadsRec u r := by
  obtain ⟨hc, hr⟩ := allocRec_root hd ha
  obtain ⟨c1, c2⟩ := history_coherent hc l
  have hk := C50_decoded_key_empty_partial buf r n hd
  constructor
  · intro he
    exact ((copy_inv fuel).2 _ (copyRec fuel (history h l) root).1 root r u c1 (hr.mono c2) hk (by rw [← he])).1
  · intro hu
    obtain ⟨h', q, -⟩ := copyRec_reads u r fuel _ root hu hk (Nat.lt_of_le_of_lt (readsRec_depth u r hu ⟨_, _, hd⟩) hf) c1 (hr.mono c2)
    rw [q]

example : ∃ r u, decodeRecord [0x70, 0x00, 0x01, 1, 0x61, 0x00] = .ok (r, 6) ∧ ReadsRec u r := by
  refine ⟨⟨[0x70, 0x00, 0x01, 1, 0x61, 0x00], ⟨[], [0x00, 0x01, 1, 0x61, 0x00]⟩, ⟨[0x01, 1, 0x61], .prim, 0, [0x61]⟩,
    ⟨[0x00], .prim, 0, []⟩, none, none⟩, .record (some (.key newKey)) (some (.prim (some [0x61]))) (some (.prim (some []))) none none none,
    by decide +kernel, ?_⟩
  simp [ReadsRec, ReadsPart, Reads]

/-- C120: what is encoded from a value built from primitives and arrays, without nil slices, can be read, and what is read is encoded to
the same bytes. -/
theorem C120_encoded (v : CVal) (w : Bytes) (hp : isPlain v = true) (hn : noNil v = true) (he : v.encode = .ok w) (rest : Bytes) :
    ∃ d u, decodeStd (w ++ rest) = .ok (d, w.length) ∧ Reads u d ∧ u.encode = .ok w := by
  rcases encode_wire he with ⟨rfl, rfl⟩ | ⟨d, rfl, hd⟩
  · simp [noNil] at hn
  have hdec := decodeStd_of_wire (rest := rest) hd.1
  obtain ⟨ext, p', e1, e2, e3⟩ := allocStd_spec.onOk [] _ _ _ coherent_nil hdec
  obtain ⟨h', q1, -, -⟩ := copyVal_spec v d (depthVal v + 1) _ p' hp hn hd (Nat.lt_succ_self _) e2 e3
  exact ⟨d, canonVal v, hdec, ((copy_inv _).1 _ _ _ _ _ e2 e3 q1).1, by rw [canonVal_encode]; exact he⟩

example : isPlain (.array [.prim (some [0x61]), .array []]) = true ∧ noNil (.array [.prim (some [0x61]), .array []]) = true ∧
    (CVal.array [.prim (some [0x61]), .array []]).encode = .ok [0x41, 2, 4, 0x01, 1, 0x61, 0x00] := by decide +kernel

end Poodle.Props
