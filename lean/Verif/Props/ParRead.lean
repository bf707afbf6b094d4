import Verif.Lemmas.ValueEnc
import Verif.Spec.ParRead

namespace Poodle.Props
open Poodle Spec

/-! ### C200: decoded values read by several goroutines -/

/-- What an element of the cache may be: nothing yet, the element of the content with this number, or the mark of a failure. -/
def SlotGood (h : Heap) (record : Bool) (c : Bytes) (i : Nat) : Slot → Prop
  | .empty => True
  | .typedNil => elemOf (decodeElement record) c i = .err
  | .obj p => ∃ x, elemOf (decodeElement record) c i = .ok x ∧ ShowsElement h p x

/-- All caches are good. -/
def CachesGood (h : Heap) : Prop := ∀ (id : Nat) (d : StdValue) (sl : List Slot), h[id]? = some (.val d sl) →
  sl.length = (if d.kind = .prim then 0 else d.size) ∧
    ∀ (i : Nat) (s : Slot), sl[i]? = some s → SlotGood h (decide (d.kind = .records)) d.content i s

/-- Objects stay what they are; elements that were read may be replaced, but not by nothing. -/
def HeapLater (h h' : Heap) : Prop :=
  (∀ (id : Nat) (d : StdValue) (sl : List Slot), h[id]? = some (.val d sl) → ∃ sl', h'[id]? = some (.val d sl') ∧ sl'.length = sl.length ∧
    ∀ (i : Nat) (s : Slot), sl[i]? = some s → s ≠ .empty → ∃ s', sl'[i]? = some s' ∧ s' ≠ .empty) ∧
  (∀ (id : Nat) r v s, h[id]? = some (.record r v s) → h'[id]? = some (.record r v s))

theorem HeapLater.refl (h : Heap) : HeapLater h h := ⟨fun _ _ sl e => ⟨sl, e, rfl, fun _ s e hn => ⟨s, e, hn⟩⟩, fun _ _ _ _ e => e⟩

theorem HeapLater.trans {h h' h'' : Heap} (a : HeapLater h h') (b : HeapLater h' h'') : HeapLater h h'' := by
  constructor
  · intro id d sl e
    obtain ⟨sl', e', l', s'⟩ := a.1 id d sl e
    obtain ⟨sl'', e'', l'', s''⟩ := b.1 id d sl' e'
    refine ⟨sl'', e'', by omega, fun i s hs hne => ?_⟩
    obtain ⟨s1, h1, h2⟩ := s' i s hs hne
    exact s'' i s1 h1 h2
  · intro id r v s e
    exact b.2 id r v s (a.2 id r v s e)

theorem shows_later {h h' : Heap} (a : HeapLater h h') {p : Nat} {x : Element} (hs : ShowsElement h p x) : ShowsElement h' p x := by
  cases x with
  | inl d =>
    obtain ⟨sl, e⟩ := hs
    obtain ⟨sl', e', -⟩ := a.1 p d sl e
    exact ⟨sl', e'⟩
  | inr r =>
    obtain ⟨v, s, sl, sl', e, ev, es⟩ := hs
    obtain ⟨sv, ev', -⟩ := a.1 v _ sl ev
    obtain ⟨ss, es', -⟩ := a.1 s _ sl' es
    exact ⟨v, s, sv, ss, a.2 p r v s e, ev', es'⟩

theorem slotGood_later {h h' : Heap} (a : HeapLater h h') {record : Bool} {c : Bytes} {i : Nat} {s : Slot} (hs : SlotGood h record c i s) :
    SlotGood h' record c i s := by
  cases s with
  | empty => exact hs
  | typedNil => exact hs
  | obj p =>
    obtain ⟨x, h1, h2⟩ := hs
    exact ⟨x, h1, shows_later a h2⟩

theorem later_append (h ext : Heap) : HeapLater h (h ++ ext) := by
  have key : ∀ (id : Nat) o, h[id]? = some o → (h ++ ext)[id]? = some o := by
    intro id o e
    rw [List.getElem?_append_left (List.getElem?_eq_some_iff.mp e).1]; exact e
  exact ⟨fun id d sl e => ⟨sl, key id _ e, rfl, fun _ s e hn => ⟨s, e, hn⟩⟩, fun id r v s e => key id _ e⟩

theorem cachesGood_append {h ext : Heap} (hc : CachesGood h) (he : ∀ o ∈ ext, ∀ d sl, o = .val d sl →
    sl.length = (if d.kind = .prim then 0 else d.size) ∧ ∀ s ∈ sl, s = Slot.empty) : CachesGood (h ++ ext) := by
  intro id d sl e
  rcases Nat.lt_or_ge id h.length with hl | hl
  · rw [List.getElem?_append_left hl] at e
    obtain ⟨h1, h2⟩ := hc id d sl e
    exact ⟨h1, fun i s hs => slotGood_later (later_append h ext) (h2 i s hs)⟩
  · rw [List.getElem?_append_right hl] at e
    obtain ⟨h1, h2⟩ := he _ (List.mem_of_getElem? e) d sl rfl
    refine ⟨h1, fun i s hs => ?_⟩
    rw [h2 s (List.mem_of_getElem? hs)]
    trivial

theorem fresh_good (d : StdValue) : ∀ d' sl, freshVal d = .val d' sl →
    sl.length = (if d'.kind = .prim then 0 else d'.size) ∧ ∀ s ∈ sl, s = Slot.empty := by
  intro d' sl h
  simp only [freshVal, Obj.val.injEq] at h
  obtain ⟨rfl, rfl⟩ := h
  exact ⟨by simp, fun s hs => List.eq_of_mem_replicate hs⟩

theorem element_ok {record : Bool} {c : Bytes} {x : Element} {n : Nat} (h : decodeElement record c = .ok (x, n)) :
    (record = false ∧ ∃ d, x = .inl d ∧ decodeStd c = .ok (d, n)) ∨ (record = true ∧ ∃ r, x = .inr r ∧ decodeRecord c = .ok (r, n)) := by
  cases record with
  | false =>
    simp only [decodeElement, Bool.false_eq_true, if_false] at h
    obtain ⟨⟨d, m⟩, h1, h2⟩ := Res.bind_eq_ok.mp h
    simp only [Res.ok.injEq, Prod.mk.injEq] at h2
    obtain ⟨rfl, rfl⟩ := h2
    exact Or.inl ⟨rfl, d, rfl, h1⟩
  | true =>
    simp only [decodeElement, if_true] at h
    obtain ⟨⟨d, m⟩, h1, h2⟩ := Res.bind_eq_ok.mp h
    simp only [Res.ok.injEq, Prod.mk.injEq] at h2
    obtain ⟨rfl, rfl⟩ := h2
    exact Or.inr ⟨rfl, d, rfl, h1⟩

theorem allocFor_ok (h : Heap) {record : Bool} {c : Bytes} {x : Element} {n : Nat} (hd : decodeElement record c = .ok (x, n)) :
    ∃ ext p, allocFor record h c = (h ++ ext, .ok p) ∧ ShowsElement (h ++ ext) p x ∧ (CachesGood h → CachesGood (h ++ ext)) := by
  rcases element_ok hd with ⟨rfl, d, rfl, h1⟩ | ⟨rfl, r, rfl, h1⟩
  · refine ⟨[freshVal d], h.length, by simp [allocFor, allocStd, h1],
      ⟨List.replicate (if d.kind = .prim then 0 else d.size) .empty, ?_⟩, fun hc => cachesGood_append hc ?_⟩
    · rw [List.getElem?_append_right (Nat.le_refl _)]; simp [freshVal]
    · intro o ho d' sl e
      rw [List.mem_singleton] at ho
      subst ho
      exact fresh_good d d' sl e
  · refine ⟨[freshVal r.value, freshVal r.scheme, .record r h.length (h.length + 1)], h.length + 2, by simp [allocFor, allocRec, h1],
      ⟨h.length, h.length + 1, List.replicate (if r.value.kind = .prim then 0 else r.value.size) .empty,
        List.replicate (if r.scheme.kind = .prim then 0 else r.scheme.size) .empty, ?_, ?_, ?_⟩, fun hc => cachesGood_append hc ?_⟩
    · rw [List.getElem?_append_right (by omega)]; simp
    · rw [List.getElem?_append_right (by omega)]; simp [freshVal]
    · rw [List.getElem?_append_right (by omega)]; simp [freshVal]
    · intro o ho d' sl e
      simp only [List.mem_cons, List.not_mem_nil, or_false] at ho
      rcases ho with rfl | rfl | rfl
      · exact fresh_good _ d' sl e
      · exact fresh_good _ d' sl e
      · simp at e

theorem allocFor_err (h : Heap) {record : Bool} {c : Bytes} (hd : decodeElement record c = .err) : allocFor record h c = (h, .err) := by
  cases record with
  | false =>
    simp only [decodeElement, Bool.false_eq_true, if_false] at hd
    rcases e : decodeStd c with ⟨d, m⟩ | - | - <;> simp [e] at hd
    simp [allocFor, allocStd, e]
  | true =>
    simp only [decodeElement, if_true] at hd
    rcases e : decodeRecord c with ⟨d, m⟩ | - | - <;> simp [e] at hd
    simp [allocFor, allocRec, e]

theorem allocFor_panic (h : Heap) {record : Bool} {c : Bytes} (hd : decodeElement record c = .panic) :
    allocFor record h c = (h, .panic) := by
  cases record with
  | false =>
    simp only [decodeElement, Bool.false_eq_true, if_false] at hd
    rcases e : decodeStd c with ⟨d, m⟩ | - | - <;> simp [e] at hd
    simp [allocFor, allocStd, e]
  | true =>
    simp only [decodeElement, if_true] at hd
    rcases e : decodeRecord c with ⟨d, m⟩ | - | - <;> simp [e] at hd
    simp [allocFor, allocRec, e]

theorem element_size {h : Heap} {record : Bool} {c : Bytes} {x : Element} {n p : Nat} (hd : decodeElement record c = .ok (x, n))
    (hs : ShowsElement h p x) : n ≤ c.length ∧ ∃ o, h[p]? = some o ∧ o.bufLen = n := by
  rcases element_ok hd with ⟨rfl, d, rfl, h1⟩ | ⟨rfl, r, rfl, h1⟩
  · exact allocStd_spec.size h c d n p h1 hs
  · obtain ⟨v, s, -, -, e, -⟩ := hs
    exact allocRec_spec.size h c r n p h1 ⟨v, s, e⟩

/-- Element `i` starts at this position. -/
def PosOf (record : Bool) (c : Bytes) (i pos : Nat) : Prop := pos ≤ c.length ∧
  ∀ j, elemOf (decodeElement record) c (i + j) = elemOf (decodeElement record) (c.drop pos) j

theorem posOf_zero (record : Bool) (c : Bytes) : PosOf record c 0 0 := ⟨Nat.zero_le _, fun j => by simp⟩

theorem posOf_elem {record : Bool} {c : Bytes} {i pos : Nat} (hp : PosOf record c i pos) :
    (∃ x n, decodeElement record (c.drop pos) = .ok (x, n) ∧ elemOf (decodeElement record) c i = .ok x) ∨
    (decodeElement record (c.drop pos) = .err ∧ elemOf (decodeElement record) c i = .err) ∨
    (decodeElement record (c.drop pos) = .panic ∧ elemOf (decodeElement record) c i = .panic) := by
  have h0 := hp.2 0
  rw [Nat.add_zero, elemOf] at h0
  rcases e : decodeElement record (c.drop pos) with ⟨x, n⟩ | - | -
  · exact Or.inl ⟨x, n, rfl, by rw [h0, e]; rfl⟩
  · exact Or.inr (Or.inl ⟨rfl, by rw [h0, e]; rfl⟩)
  · exact Or.inr (Or.inr ⟨rfl, by rw [h0, e]; rfl⟩)

theorem posOf_succ {h : Heap} {record : Bool} {c : Bytes} {i pos p : Nat} (hp : PosOf record c i pos)
    (hs : SlotGood h record c i (.obj p)) : ∃ o, h[p]? = some o ∧ PosOf record c (i + 1) (pos + o.bufLen) := by
  obtain ⟨x, h1, h2⟩ := hs
  rcases posOf_elem hp with ⟨y, n, e1, e2⟩ | ⟨-, e2⟩ | ⟨-, e2⟩
  · rw [h1] at e2
    cases e2
    obtain ⟨g1, o, g2, g3⟩ := element_size e1 h2
    refine ⟨o, g2, ?_, ?_⟩
    · rw [List.length_drop] at g1
      have := hp.1
      omega
    · intro j
      have := hp.2 (j + 1)
      rw [show i + 1 + j = i + (j + 1) by omega, this, elemOf, e1]
      simp [g3, List.drop_drop]
  · rw [h1] at e2; cases e2
  · rw [h1] at e2; cases e2

/-! ### The invariant of a call -/

/-- What holds of a call at each place. -/
def PcGood (h : Heap) (t : ReadTask) (d : StdValue) : ReadPc → Prop
  | .check => t.idx < d.size
  | .hit | .last => t.idx < d.size ∧ ∃ s, h.slot t.id t.idx = some s ∧ s ≠ .empty
  | .test i pos => t.idx < d.size ∧ i ≤ t.idx ∧ PosOf t.record d.content i pos
  | .store i pos s => t.idx < d.size ∧ i ≤ t.idx ∧ PosOf t.record d.content i pos ∧ s ≠ .empty ∧ SlotGood h t.record d.content i s
  | .advance i pos => t.idx < d.size ∧ i ≤ t.idx ∧ PosOf t.record d.content i pos ∧ ∃ s, h.slot t.id i = some s ∧ s ≠ .empty
  | .done r => t.idx < d.size ∧ ((∃ s, r = .ok s ∧ s ≠ .empty ∧ SlotGood h t.record d.content t.idx s) ∨
      ((∀ x, elemOf (decodeElement t.record) d.content t.idx ≠ .ok x) ∧ (r = .err ∨ r = .panic)))

/-- What holds of a call: it was refused, or its object is of the right kind. -/
def TaskGood (h : Heap) (t : ReadTask) : Prop :=
  (t.pc = .done .err ∧ ∃ d sl, h[t.id]? = some (.val d sl) ∧ (d.kind = (if t.record then .records else .array) → d.size ≤ t.idx)) ∨
    ∃ d sl, h[t.id]? = some (.val d sl) ∧ d.kind = (if t.record then .records else .array) ∧ PcGood h t d t.pc

theorem slot_later {h h' : Heap} (a : HeapLater h h') {id : Nat} {d : StdValue} {sl : List Slot} (e : h[id]? = some (.val d sl)) {i : Nat}
    (hs : ∃ s, h.slot id i = some s ∧ s ≠ .empty) : ∃ s, h'.slot id i = some s ∧ s ≠ .empty := by
  obtain ⟨s, h1, h2⟩ := hs
  obtain ⟨sl', e', -, k⟩ := a.1 id d sl e
  rw [slot_eq e] at h1
  obtain ⟨s', g1, g2⟩ := k i s h1 h2
  exact ⟨s', by rw [slot_eq e', g1], g2⟩

theorem taskGood_later {h h' : Heap} (a : HeapLater h h') {t : ReadTask} (ht : TaskGood h t) : TaskGood h' t := by
  rcases ht with ⟨h1, d, sl, h2, h3⟩ | ⟨d, sl, h2, h3, h4⟩
  · obtain ⟨sl', e', -⟩ := a.1 _ d sl h2
    exact Or.inl ⟨h1, d, sl', e', h3⟩
  · obtain ⟨sl', e', -⟩ := a.1 _ d sl h2
    refine Or.inr ⟨d, sl', e', h3, ?_⟩
    cases hpc : t.pc with
    | check => rw [hpc] at h4; exact h4
    | hit => rw [hpc] at h4; exact ⟨h4.1, slot_later a h2 h4.2⟩
    | last => rw [hpc] at h4; exact ⟨h4.1, slot_later a h2 h4.2⟩
    | test i pos => rw [hpc] at h4; exact h4
    | store i pos s => rw [hpc] at h4; exact ⟨h4.1, h4.2.1, h4.2.2.1, h4.2.2.2.1, slotGood_later a h4.2.2.2.2⟩
    | advance i pos => rw [hpc] at h4; exact ⟨h4.1, h4.2.1, h4.2.2.1, slot_later a h2 h4.2.2.2⟩
    | done r =>
      rw [hpc] at h4
      refine ⟨h4.1, ?_⟩
      rcases h4.2 with ⟨s, q1, q2, q3⟩ | q
      · exact Or.inl ⟨s, q1, q2, slotGood_later a q3⟩
      · exact Or.inr q

theorem later_setSlot {h : Heap} {id : Nat} {d : StdValue} {sl : List Slot} (e : h[id]? = some (.val d sl)) (i : Nat) {s : Slot}
    (hs : s ≠ .empty) : HeapLater h (h.setSlot id i s) := by
  have hid := (List.getElem?_eq_some_iff.mp e).1
  rw [setSlot_eq e]
  constructor
  · intro id' d' sl' e'
    by_cases hh : id' = id
    · subst hh
      rw [e] at e'
      cases e'
      refine ⟨sl.set i s, List.getElem?_set_self hid, by simp, ?_⟩
      intro j s' hj hne
      by_cases hij : i = j
      · subst hij
        exact ⟨s, List.getElem?_set_self (List.getElem?_eq_some_iff.mp hj).1, hs⟩
      · exact ⟨s', by rw [List.getElem?_set_ne hij, hj], hne⟩
    · exact ⟨sl', by rw [List.getElem?_set_ne (fun x => hh x.symm), e'], rfl, fun j s' hj hne => ⟨s', hj, hne⟩⟩
  · intro id' r v s' e'
    by_cases hh : id' = id
    · subst hh; rw [e] at e'; cases e'
    · rw [List.getElem?_set_ne (fun x => hh x.symm), e']

theorem kind_record {k : VKind} {record : Bool} (h : k = (if record then .records else .array)) :
    decide (k = .records) = record ∧ k ≠ .prim := by
  subst h
  cases record <;> simp

theorem cachesGood_setSlot {h : Heap} (hc : CachesGood h) {id : Nat} {d : StdValue} {sl : List Slot} (e : h[id]? = some (.val d sl))
    {record : Bool} (hk : d.kind = (if record then .records else .array)) {i : Nat} {s : Slot} (hs : s ≠ .empty)
    (hg : SlotGood h record d.content i s) : CachesGood (h.setSlot id i s) := by
  have hid := (List.getElem?_eq_some_iff.mp e).1
  have hl := later_setSlot e i hs
  intro id' d' sl' e'
  rw [setSlot_eq e] at e' hl ⊢
  by_cases hh : id' = id
  · subst hh
    rw [List.getElem?_set_self hid] at e'
    simp only [Option.some.injEq, Obj.val.injEq] at e'
    obtain ⟨rfl, rfl⟩ := e'
    obtain ⟨h1, h2⟩ := hc _ _ _ e
    refine ⟨by simpa using h1, ?_⟩
    intro j s' hj
    by_cases hij : i = j
    · subst hij
      have hlt : i < sl.length := by
        have := (List.getElem?_eq_some_iff.mp hj).1
        simpa using this
      rw [List.getElem?_set_self hlt] at hj
      cases hj
      rw [(kind_record hk).1]
      exact slotGood_later hl hg
    · rw [List.getElem?_set_ne hij] at hj
      exact slotGood_later hl (h2 j s' hj)
  · rw [List.getElem?_set_ne (fun x => hh x.symm)] at e'
    obtain ⟨h1, h2⟩ := hc _ _ _ e'
    exact ⟨h1, fun j s' hj => slotGood_later hl (h2 j s' hj)⟩

/-- One step of a call. -/
theorem step_good {h : Heap} (hc : CachesGood h) {t : ReadTask} (ht : TaskGood h t) :
    CachesGood (t.step h).1 ∧ HeapLater h (t.step h).1 ∧ TaskGood (t.step h).1 (t.step h).2 := by
  rcases ht with ⟨h1, h2⟩ | ⟨d, sl, e, hk, hp⟩
  · have : t.step h = (h, t) := by rw [ReadTask.step, h1]
    rw [this]
    exact ⟨hc, HeapLater.refl h, Or.inl ⟨h1, h2⟩⟩
  obtain ⟨hlen, hgood⟩ := hc _ _ _ e
  rw [if_neg (kind_record hk).2] at hlen
  rw [(kind_record hk).1] at hgood
  have hslot : ∀ i, i < d.size → ∃ s, h.slot t.id i = some s ∧ SlotGood h t.record d.content i s := by
    intro i hi
    have : i < sl.length := by omega
    exact ⟨sl[i], by rw [slot_eq e, List.getElem?_eq_getElem this], hgood i _ (List.getElem?_eq_getElem this)⟩
  rcases t with ⟨record, id, idx, pc⟩
  simp only at hp hk e hslot hgood
  cases pc with
  | check =>
    obtain ⟨s, h1, h2⟩ := hslot idx hp
    by_cases hs : s = .empty
    · subst hs
      have : (ReadTask.mk record id idx .check).step h = (h, ⟨record, id, idx, .test 0 0⟩) := by simp [ReadTask.step, h1]
      rw [this]
      exact ⟨hc, HeapLater.refl h, Or.inr ⟨d, sl, e, hk, hp, Nat.zero_le _, posOf_zero _ _⟩⟩
    · have : (ReadTask.mk record id idx .check).step h = (h, ⟨record, id, idx, .hit⟩) := by
        simp only [ReadTask.step, h1]
      rw [this]
      exact ⟨hc, HeapLater.refl h, Or.inr ⟨d, sl, e, hk, hp, s, h1, hs⟩⟩
  | hit =>
    obtain ⟨hi, s, h1, h2⟩ := hp
    have : (ReadTask.mk record id idx .hit).step h = (h, ⟨record, id, idx, .done (.ok s)⟩) := by simp [ReadTask.step, h1]
    rw [this]
    refine ⟨hc, HeapLater.refl h, Or.inr ⟨d, sl, e, hk, hi, Or.inl ⟨s, rfl, h2, hgood idx s ?_⟩⟩⟩
    simp only at h1
    rw [← slot_eq e]; exact h1
  | last =>
    obtain ⟨hi, s, h1, h2⟩ := hp
    have : (ReadTask.mk record id idx .last).step h = (h, ⟨record, id, idx, .done (.ok s)⟩) := by simp [ReadTask.step, h1]
    rw [this]
    refine ⟨hc, HeapLater.refl h, Or.inr ⟨d, sl, e, hk, hi, Or.inl ⟨s, rfl, h2, hgood idx s ?_⟩⟩⟩
    simp only at h1
    rw [← slot_eq e]; exact h1
  | test i pos =>
    obtain ⟨hi, hle, hpos⟩ := hp
    simp only at hi hle hpos
    obtain ⟨s, h1, h2⟩ := hslot i (by omega)
    by_cases hs : s = .empty
    · subst hs
      have hfail : ∀ r, decodeElement record (d.content.drop pos) = r → (∀ y, r ≠ .ok y) →
          ∀ x, elemOf (decodeElement record) d.content idx ≠ .ok x := by
        intro r hr hne x hx
        have : ∃ y, elemOf (decodeElement record) d.content i = .ok y := by
          rcases Nat.lt_or_ge i idx with hlt | hge
          · exact elemOf_ok_lt hx i hlt
          · obtain rfl : i = idx := by omega
            exact ⟨x, hx⟩
        obtain ⟨y, hy⟩ := this
        rcases posOf_elem hpos with ⟨z, n, e1, -⟩ | ⟨-, e2⟩ | ⟨-, e2⟩
        · exact hne _ (hr ▸ e1)
        · rw [hy] at e2; cases e2
        · rw [hy] at e2; cases e2
      rcases posOf_elem hpos with ⟨x, n, e1, e2⟩ | ⟨e1, e2⟩ | ⟨e1, e2⟩
      · obtain ⟨ext, p, a1, a2, a3⟩ := allocFor_ok h e1
        have : (ReadTask.mk record id idx (.test i pos)).step h = (h ++ ext, ⟨record, id, idx, .store i pos (.obj p)⟩) := by
          simp only [ReadTask.step, h1, e, a1]
          rw [if_neg (by have := hpos.1; omega)]
        rw [this]
        have hl := later_append h ext
        obtain ⟨sl', e', -⟩ := hl.1 _ _ _ e
        exact ⟨a3 hc, hl, Or.inr ⟨d, sl', e', hk, hi, hle, hpos, by simp, x, e2, a2⟩⟩
      · have : (ReadTask.mk record id idx (.test i pos)).step h = (h, ⟨record, id, idx, .store i pos .typedNil⟩) := by
          simp only [ReadTask.step, h1, e, allocFor_err h e1]
          rw [if_neg (by have := hpos.1; omega)]
        rw [this]
        exact ⟨hc, HeapLater.refl h, Or.inr ⟨d, sl, e, hk, hi, hle, hpos, by simp, e2⟩⟩
      · have : (ReadTask.mk record id idx (.test i pos)).step h = (h, ⟨record, id, idx, .done .panic⟩) := by
          simp only [ReadTask.step, h1, e, allocFor_panic h e1]
          rw [if_neg (by have := hpos.1; omega)]
        rw [this]
        exact ⟨hc, HeapLater.refl h, Or.inr ⟨d, sl, e, hk, hi, Or.inr ⟨hfail _ e1 (by simp), Or.inr rfl⟩⟩⟩
    · have : (ReadTask.mk record id idx (.test i pos)).step h = (h, ⟨record, id, idx, .advance i pos⟩) := by
        simp only [ReadTask.step, h1, e]
        cases s <;> simp_all
      rw [this]
      exact ⟨hc, HeapLater.refl h, Or.inr ⟨d, sl, e, hk, hi, hle, hpos, s, h1, hs⟩⟩
  | store i pos s =>
    obtain ⟨hi, hle, hpos, hne, hsg⟩ := hp
    simp only at hi hle hpos hsg
    have hl := later_setSlot e i hne
    have hcg := cachesGood_setSlot hc e hk hne hsg
    obtain ⟨sl', e', -⟩ := hl.1 _ _ _ e
    have hst : (ReadTask.mk record id idx (.store i pos s)).step h =
        (h.setSlot id i s, ⟨record, id, idx, if s = .typedNil then .done .err else .advance i pos⟩) := rfl
    rw [hst]
    refine ⟨hcg, hl, Or.inr ⟨d, sl', e', hk, ?_⟩⟩
    by_cases hn : s = .typedNil
    · subst hn
      rw [if_pos rfl]
      refine ⟨hi, Or.inr ⟨fun x hx => ?_, Or.inl rfl⟩⟩
      have hfi : elemOf (decodeElement record) d.content i = .err := hsg
      rcases Nat.lt_or_ge i idx with hlt | hge
      · obtain ⟨y, hy⟩ := elemOf_ok_lt hx i hlt
        rw [hy] at hfi; cases hfi
      · obtain rfl : i = idx := by omega
        simp only at hx
        rw [hx] at hfi; cases hfi
    · rw [if_neg hn]
      refine ⟨hi, hle, hpos, s, ?_, hne⟩
      have hid := (List.getElem?_eq_some_iff.mp e).1
      simp only
      rw [setSlot_eq e, slot_eq (List.getElem?_set_self hid), List.getElem?_set_self (by omega)]
  | advance i pos =>
    obtain ⟨hi, hle, hpos, s, h1, hne⟩ := hp
    simp only at hi hle hpos h1
    have hsg : SlotGood h record d.content i s := hgood i s (by rw [← slot_eq e]; exact h1)
    cases s with
    | empty => exact absurd rfl hne
    | typedNil =>
      have : (ReadTask.mk record id idx (.advance i pos)).step h = (h, ⟨record, id, idx, .done .panic⟩) := by
        simp [ReadTask.step, h1]
      rw [this]
      refine ⟨hc, HeapLater.refl h, Or.inr ⟨d, sl, e, hk, hi, Or.inr ⟨fun x hx => ?_, Or.inr rfl⟩⟩⟩
      have hfi : elemOf (decodeElement record) d.content i = .err := hsg
      rcases Nat.lt_or_ge i idx with hlt | hge
      · obtain ⟨y, hy⟩ := elemOf_ok_lt hx i hlt
        rw [hy] at hfi; cases hfi
      · obtain rfl : i = idx := by omega
        simp only at hx
        rw [hx] at hfi; cases hfi
    | obj p =>
      obtain ⟨o, o1, o2⟩ := posOf_succ hpos hsg
      have : (ReadTask.mk record id idx (.advance i pos)).step h =
          (h, ⟨record, id, idx, if i = idx then .last else .test (i + 1) (pos + o.bufLen)⟩) := by
        simp [ReadTask.step, h1, o1]
      rw [this]
      refine ⟨hc, HeapLater.refl h, Or.inr ⟨d, sl, e, hk, ?_⟩⟩
      by_cases hii : i = idx
      · subst hii
        rw [if_pos rfl]
        exact ⟨hi, .obj p, h1, by simp⟩
      · rw [if_neg hii]
        exact ⟨hi, by simp only; omega, o2⟩
  | done r =>
    have : (ReadTask.mk record id idx (.done r)).step h = (h, ⟨record, id, idx, .done r⟩) := rfl
    rw [this]
    exact ⟨hc, HeapLater.refl h, Or.inr ⟨d, sl, e, hk, hp⟩⟩

/-! ### Executions -/

/-- What holds of the objects and all calls. -/
def WorldGood (w : ReadWorld) : Prop := CachesGood w.heap ∧ ∀ t ∈ w.tasks, TaskGood w.heap t

theorem startRead_good {h : Heap} {record : Bool} {id idx : Nat} {t : ReadTask} (hs : startRead h record id idx = some t) :
    TaskGood h t ∧ t.record = record ∧ t.id = id ∧ t.idx = idx := by
  rw [startRead] at hs
  rcases e : h[id]? with - | o
  · rw [e] at hs; simp at hs
  rcases o with ⟨d, sl⟩ | ⟨r, v, s⟩
  swap
  · rw [e] at hs; simp at hs
  rw [e] at hs
  simp only at hs
  by_cases hk : d.kind = (if record then VKind.records else VKind.array)
  · rw [if_neg (by simpa using hk)] at hs
    by_cases hi : idx ≥ d.size
    · rw [if_pos hi] at hs
      cases hs
      exact ⟨Or.inl ⟨rfl, d, sl, e, fun _ => hi⟩, rfl, rfl, rfl⟩
    · rw [if_neg hi] at hs
      cases hs
      exact ⟨Or.inr ⟨d, sl, e, hk, Nat.lt_of_not_le hi⟩, rfl, rfl, rfl⟩
  · rw [if_pos hk] at hs
    cases hs
    exact ⟨Or.inl ⟨rfl, d, sl, e, fun h => absurd h hk⟩, rfl, rfl, rfl⟩

theorem step_fields (h : Heap) (t : ReadTask) :
    (t.step h).2.record = t.record ∧ (t.step h).2.id = t.id ∧ (t.step h).2.idx = t.idx := by
  rcases t with ⟨record, id, idx, pc⟩
  cases pc <;> simp only [ReadTask.step] <;> repeat' split
  all_goals simp

theorem event_good {w : ReadWorld} (hw : WorldGood w) (e : ReadEvent) : WorldGood (e.run w) ∧ HeapLater w.heap (e.run w).heap := by
  obtain ⟨hc, ht⟩ := hw
  cases e with
  | start record id idx =>
    simp only [ReadEvent.run]
    rcases hs : startRead w.heap record id idx with - | t
    · exact ⟨⟨hc, ht⟩, HeapLater.refl _⟩
    · refine ⟨⟨hc, fun u hu => ?_⟩, HeapLater.refl _⟩
      rcases List.mem_append.mp hu with hu | hu
      · exact ht u hu
      · rw [List.mem_singleton] at hu
        subst hu
        exact (startRead_good hs).1
  | step k =>
    simp only [ReadEvent.run]
    rcases hk : w.tasks[k]? with - | t
    · exact ⟨⟨hc, ht⟩, HeapLater.refl _⟩
    · obtain ⟨h1, h2, h3⟩ := step_good hc (ht t (List.mem_of_getElem? hk))
      refine ⟨⟨h1, fun u hu => ?_⟩, h2⟩
      rcases List.mem_or_eq_of_mem_set hu with hu | hu
      · exact taskGood_later h2 (ht u hu)
      · subst hu; exact h3

theorem interleave_good {w : ReadWorld} (hw : WorldGood w) (l : List ReadEvent) :
    WorldGood (interleave w l) ∧ HeapLater w.heap (interleave w l).heap := by
  induction l generalizing w with
  | nil => exact ⟨hw, HeapLater.refl _⟩
  | cons e l ih =>
    obtain ⟨h1, h2⟩ := event_good hw e
    obtain ⟨h3, h4⟩ := ih h1
    exact ⟨h3, h2.trans h4⟩

theorem decodeElement_std (c : Bytes) (i : Nat) (x : StdValue) (h : elemOf decodeStd c i = .ok x) :
    elemOf (decodeElement false) c i = .ok (.inl x) := by
  induction i generalizing c with
  | zero =>
    rw [elemOf] at h
    obtain ⟨⟨y, n⟩, h1, h2⟩ := Res.bind_eq_ok.mp h
    cases h2
    simp [elemOf, decodeElement, h1]
  | succ i ih =>
    rw [elemOf] at h
    obtain ⟨⟨y, n⟩, h1, h2⟩ := Res.bind_eq_ok.mp h
    simp only at h2
    simp [elemOf, decodeElement, h1, ih _ h2]

theorem decodeElement_record (c : Bytes) (i : Nat) (x : RecInfo) (h : elemOf decodeRecord c i = .ok x) :
    elemOf (decodeElement true) c i = .ok (.inr x) := by
  induction i generalizing c with
  | zero =>
    rw [elemOf] at h
    obtain ⟨⟨y, n⟩, h1, h2⟩ := Res.bind_eq_ok.mp h
    cases h2
    simp [elemOf, decodeElement, h1]
  | succ i ih =>
    rw [elemOf] at h
    obtain ⟨⟨y, n⟩, h1, h2⟩ := Res.bind_eq_ok.mp h
    simp only at h2
    simp [elemOf, decodeElement, h1, ih _ h2]

theorem decodeElement_std_err (c : Bytes) (i : Nat) (h : elemOf decodeStd c i = .err) : elemOf (decodeElement false) c i = .err := by
  induction i generalizing c with
  | zero =>
    rw [elemOf] at h
    rcases e : decodeStd c with ⟨y, n⟩ | - | - <;> rw [e] at h <;> simp at h
    simp [elemOf, decodeElement, e]
  | succ i ih =>
    rw [elemOf] at h
    rcases e : decodeStd c with ⟨y, n⟩ | - | - <;> rw [e] at h <;> simp at h
    · simp [elemOf, decodeElement, e, ih _ h]
    · simp [elemOf, decodeElement, e]

theorem decodeElement_record_err (c : Bytes) (i : Nat) (h : elemOf decodeRecord c i = .err) :
    elemOf (decodeElement true) c i = .err := by
  induction i generalizing c with
  | zero =>
    rw [elemOf] at h
    rcases e : decodeRecord c with ⟨y, n⟩ | - | - <;> rw [e] at h <;> simp at h
    simp [elemOf, decodeElement, e]
  | succ i ih =>
    rw [elemOf] at h
    rcases e : decodeRecord c with ⟨y, n⟩ | - | - <;> rw [e] at h <;> simp at h
    · simp [elemOf, decodeElement, e, ih _ h]
    · simp [elemOf, decodeElement, e]

/-- The caches are good after any single calls. -/
theorem coherent_good {h : Heap} (hc : Coherent h) : CachesGood h := by
  intro id d sl e
  obtain ⟨hw, ho⟩ := hc id _ e
  have key : ∀ (α : Type) (dec : Bytes → Res (α × Nat)) (rep : Nat → α → Prop) (record : Bool) (f : α → Element),
      (∀ i x, elemOf dec d.content i = .ok x → elemOf (decodeElement record) d.content i = .ok (f x)) →
      (∀ i, elemOf dec d.content i = .err → elemOf (decodeElement record) d.content i = .err) →
      (∀ p x, rep p x → ShowsElement h p (f x)) → ∀ k, SlotsK dec rep d.content sl k → ∀ (i : Nat) (s : Slot), sl[i]? = some s →
        SlotGood h record d.content i s := by
    intro α dec rep record f h1 h2 h3 k hs i s hi
    have hlen := (List.getElem?_eq_some_iff.mp hi).1
    rcases Nat.lt_trichotomy i k with hlt | heq | hgt
    · obtain ⟨p, x, g1, g2, g3⟩ := hs.filled i hlt
      rw [hi] at g1
      cases g1
      exact ⟨f x, h1 i x g2, h3 p x g3⟩
    · subst heq
      rcases hs.next hlen with g | ⟨g, g'⟩ <;> rw [hi] at g <;> cases g
      · trivial
      · exact h2 i g'
    · have g := hs.empty i hgt hlen
      rw [hi] at g
      cases g
      trivial
  rcases hk : d.kind
  · rw [hk] at ho
    simp only at ho
    subst ho
    simp
  · rw [hk] at ho
    obtain ⟨hl, k, hs⟩ := ho
    refine ⟨by simpa using hl, ?_⟩
    have := key _ decodeStd (RepV h) false .inl (fun i x => decodeElement_std _ i x) (fun i => decodeElement_std_err _ i)
      (fun p x hr => hr) k hs
    simpa using this
  · rw [hk] at ho
    obtain ⟨hl, k, hs⟩ := ho
    refine ⟨by simpa using hl, ?_⟩
    have := key _ decodeRecord (RepR h) true .inr (fun i x => decodeElement_record _ i x) (fun i => decodeElement_record_err _ i)
      (fun p x hr => by
        obtain ⟨v, s, hr⟩ := hr
        obtain ⟨⟨sl1, q1⟩, sl2, q2⟩ := hc p _ hr
        exact ⟨v, s, sl1, sl2, hr, q1, q2⟩) k hs
    simpa using this

/-! ### What a call returns -/

theorem history_good {buf : Bytes} {h : Heap} {root : Nat} (ha : allocStd [] buf = (h, .ok root)) (l : List Access) :
    WorldGood ⟨history h l, []⟩ := by
  have h0 : Coherent h := by
    obtain ⟨d, n, hd⟩ : ∃ d n, decodeStd buf = .ok (d, n) := by
      rcases hd : decodeStd buf with ⟨d, n⟩ | - | -
      · exact ⟨d, n, rfl⟩
      · simp [allocStd, hd] at ha
      · simp [allocStd, hd] at ha
    obtain ⟨ext, p, e1, e2, -⟩ := allocStd_spec.onOk [] _ _ _ coherent_nil hd
    rw [e1] at ha
    cases ha
    exact e2
  exact ⟨coherent_good (history_coherent h0 l).1, by simp⟩

/-- C200, contents: whatever the interleaving with other calls, a call that has ended gave the element that the bytes have at its index, if
it is in range and well formed, and no element otherwise. -/
theorem C200_content_partial (buf : Bytes) (h : Heap) (root : Nat) (ha : allocStd [] buf = (h, .ok root)) (before : List Access)
    (l : List ReadEvent) (k : Nat) (record : Bool) (id idx : Nat) (r : Res Slot)
    (hk : Ended (interleave ⟨history h before, []⟩ l) k record id idx r) :
    (∀ e, GoodCall (interleave ⟨history h before, []⟩ l).heap record id idx e →
      ∃ p, r = .ok (.obj p) ∧ ShowsElement (interleave ⟨history h before, []⟩ l).heap p e) ∧
    ((∀ e, ¬ GoodCall (interleave ⟨history h before, []⟩ l).heap record id idx e) → r = .err ∨ r = .panic ∨ r = .ok .typedNil) := by
  obtain ⟨⟨hc, ht⟩, -⟩ := interleave_good (history_good ha before) l
  have hg := ht _ (List.mem_of_getElem? hk)
  rcases hg with ⟨h1, d, sl, h2, h3⟩ | ⟨d, sl, h2, h3, h4⟩
  · simp only [ReadPc.done.injEq] at h1 h2 h3
    subst h1
    refine ⟨?_, fun _ => Or.inl rfl⟩
    rintro e ⟨d', sl', g1, g2, g3, -⟩
    rw [h2] at g1
    cases g1
    have := h3 g2
    omega
  · obtain ⟨hi, hr⟩ := h4
    simp only at h2 h3 hi hr
    refine ⟨?_, ?_⟩
    · rintro e ⟨d', sl', g1, g2, g3, g4⟩
      rw [h2] at g1
      cases g1
      rcases hr with ⟨s, rfl, hne, hs⟩ | ⟨hne, -⟩
      · cases s with
        | empty => exact absurd rfl hne
        | typedNil => rw [SlotGood, g4] at hs; cases hs
        | obj p =>
          obtain ⟨x, hx, hp⟩ := hs
          rw [g4] at hx
          cases hx
          exact ⟨p, rfl, hp⟩
      · exact absurd g4 (hne e)
    · intro hn
      rcases hr with ⟨s, rfl, hne, hs⟩ | ⟨-, hr⟩
      · cases s with
        | empty => exact absurd rfl hne
        | typedNil => exact Or.inr (Or.inr rfl)
        | obj p =>
          obtain ⟨x, hx, hp⟩ := hs
          exact absurd ⟨d, sl, h2, h3, hi, hx⟩ (hn x)
      · rcases hr with hr | hr
        · exact Or.inl hr
        · exact Or.inr (Or.inl hr)

/-! ### Calls end -/

/-- An upper bound for the steps that a call still needs. -/
def stepsLeft (t : ReadTask) : Nat :=
  match t.pc with
  | .check => 3 * t.idx + 5
  | .hit | .last => 1
  | .test i _ => 3 * (t.idx - i) + 4
  | .store i _ _ => 3 * (t.idx - i) + 3
  | .advance i _ => 3 * (t.idx - i) + 2
  | .done _ => 0

theorem step_left {h : Heap} {t : ReadTask} (ht : TaskGood h t) : stepsLeft (t.step h).2 ≤ stepsLeft t - 1 := by
  rcases ht with ⟨h1, -⟩ | ⟨d, sl, e, hk, hp⟩
  · have : t.step h = (h, t) := by rw [ReadTask.step, h1]
    rw [this, stepsLeft, h1]
    exact Nat.le_refl _
  rcases t with ⟨record, id, idx, pc⟩
  cases pc with
  | advance i pos =>
    have hle : i ≤ idx := hp.2.1
    simp only [ReadTask.step]
    repeat' split
    all_goals simp only [stepsLeft]
    all_goals omega
  | store i pos s =>
    simp only [ReadTask.step]
    split <;> simp [stepsLeft]
  | test i pos =>
    simp only [ReadTask.step]
    repeat' split
    all_goals simp [stepsLeft]
  | check =>
    simp only [ReadTask.step]
    repeat' split
    all_goals simp [stepsLeft]
  | hit => simp only [ReadTask.step]; split <;> simp [stepsLeft]
  | last => simp only [ReadTask.step]; split <;> simp [stepsLeft]
  | done r => simp [ReadTask.step, stepsLeft]

theorem task_left (l : List ReadEvent) : ∀ {w : ReadWorld} (_ : WorldGood w) {k : Nat} {t : ReadTask} (_ : w.tasks[k]? = some t),
    ∃ t', (interleave w l).tasks[k]? = some t' ∧ t'.record = t.record ∧ t'.id = t.id ∧ t'.idx = t.idx ∧
      stepsLeft t' ≤ stepsLeft t - stepsOf k l := by
  induction l with
  | nil => intro w _ k t hk; exact ⟨t, hk, rfl, rfl, rfl, by simp [stepsOf]⟩
  | cons e l ih =>
    intro w hw k t hk
    have hlen := (List.getElem?_eq_some_iff.mp hk).1
    have hstep : ∃ t1, (e.run w).tasks[k]? = some t1 ∧ t1.record = t.record ∧ t1.id = t.id ∧ t1.idx = t.idx ∧
        stepsLeft t1 ≤ stepsLeft t - (if e = .step k then 1 else 0) := by
      cases e with
      | start record id idx =>
        refine ⟨t, ?_, rfl, rfl, rfl, by simp⟩
        simp only [ReadEvent.run]
        split
        · simp only
          rw [List.getElem?_append_left hlen, hk]
        · exact hk
      | step j =>
        by_cases hj : j = k
        · subst hj
          refine ⟨(t.step w.heap).2, ?_, ?_⟩
          · simp only [ReadEvent.run, hk]
            exact List.getElem?_set_self hlen
          · obtain ⟨f1, f2, f3⟩ := step_fields w.heap t
            exact ⟨f1, f2, f3, by rw [if_pos rfl]; exact step_left (hw.2 t (List.mem_of_getElem? hk))⟩
        · refine ⟨t, ?_, rfl, rfl, rfl, by simp [hj]⟩
          simp only [ReadEvent.run]
          split
          · simp only
            rw [List.getElem?_set_ne hj, hk]
          · exact hk
    obtain ⟨t1, g1, g2, g3, g4, g5⟩ := hstep
    obtain ⟨t2, f1, f2, f3, f4, f5⟩ := ih (event_good hw e).1 g1
    refine ⟨t2, f1, by rw [f2, g2], by rw [f3, g3], by rw [f4, g4], ?_⟩
    have : stepsOf k (e :: l) = stepsOf k l + (if e = .step k then 1 else 0) := by
      rw [stepsOf, List.countP_cons]
      simp [stepsOf]
    omega

/-- C200: no call waits for another.  A call has ended after a number of own steps that depends on its index only, whatever the other calls
do meanwhile. -/
theorem C200_ends (buf : Bytes) (h : Heap) (root : Nat) (ha : allocStd [] buf = (h, .ok root)) (before : List Access)
    (l l' : List ReadEvent) (k : Nat) (t : ReadTask) (hk : (interleave ⟨history h before, []⟩ l).tasks[k]? = some t)
    (hl : 3 * t.idx + 5 ≤ stepsOf k l') : ∃ r, Ended (interleave ⟨history h before, []⟩ (l ++ l')) k t.record t.id t.idx r := by
  have hw := (interleave_good (history_good ha before) l).1
  obtain ⟨t', h1, h2, h3, h4, h5⟩ := task_left l' hw hk
  have hmax : stepsLeft t ≤ 3 * t.idx + 5 := by
    rcases t with ⟨record, id, idx, pc⟩
    cases pc <;> simp only [stepsLeft] <;> omega
  rcases t' with ⟨record, id, idx, pc⟩
  have h0 : stepsLeft ⟨record, id, idx, pc⟩ = 0 := by omega
  simp only at h2 h3 h4
  subst h2 h3 h4
  cases pc <;> simp [stepsLeft] at h0
  rename_i r
  refine ⟨r, ?_⟩
  rw [Ended, interleave, List.foldl_append]
  exact h1

/-! ### A call made alone -/

/-- Several steps of one call. -/
def stepMany : Nat → Heap × ReadTask → Heap × ReadTask
  | 0, x => x
  | n + 1, x => stepMany n (x.2.step x.1)

theorem stepMany_add (m n : Nat) (x : Heap × ReadTask) : stepMany (m + n) x = stepMany n (stepMany m x) := by
  induction m generalizing x with
  | zero => simp [stepMany]
  | succ m ih => rw [Nat.succ_add]; simp only [stepMany]; exact ih _

theorem interleave_many (n k : Nat) : ∀ (h : Heap) (tasks : List ReadTask) (t : ReadTask), tasks[k]? = some t →
    interleave ⟨h, tasks⟩ (List.replicate n (.step k)) = ⟨(stepMany n (h, t)).1, tasks.set k (stepMany n (h, t)).2⟩ := by
  induction n with
  | zero =>
    intro h tasks t hk
    obtain ⟨hl, rfl⟩ := List.getElem?_eq_some_iff.mp hk
    simp [interleave, stepMany]
  | succ n ih =>
    intro h tasks t hk
    have hl := (List.getElem?_eq_some_iff.mp hk).1
    rw [List.replicate_succ]
    have : interleave ⟨h, tasks⟩ (.step k :: List.replicate n (.step k)) =
        interleave ⟨(t.step h).1, tasks.set k (t.step h).2⟩ (List.replicate n (.step k)) := by
      simp only [interleave, List.foldl_cons, ReadEvent.run, hk]
    rw [this, ih _ _ _ (List.getElem?_set_self hl)]
    simp [stepMany]

theorem allocFor_obj (record : Bool) (h : Heap) (c : Bytes) : ∃ ext, (allocFor record h c).1 = h ++ ext ∧
    (∀ p, (allocFor record h c).2 = .ok p → ∃ o, (h ++ ext)[p]? = some o ∧ h.length ≤ p) ∧
    ((allocFor record h c).2 = .err ∨ (allocFor record h c).2 = .panic → ext = []) := by
  rcases hd : decodeElement record c with ⟨x, n⟩ | - | -
  · rcases element_ok hd with ⟨rfl, d, rfl, h1⟩ | ⟨rfl, r, rfl, h1⟩
    · refine ⟨[freshVal d], by simp [allocFor, allocStd, h1], ?_, by simp [allocFor, allocStd, h1]⟩
      intro p hp
      simp only [allocFor, allocStd, h1, Bool.false_eq_true, if_false, Res.ok.injEq] at hp
      subst hp
      exact ⟨freshVal d, by simp, Nat.le_refl _⟩
    · refine ⟨[freshVal r.value, freshVal r.scheme, .record r h.length (h.length + 1)], by simp [allocFor, allocRec, h1], ?_,
        by simp [allocFor, allocRec, h1]⟩
      intro p hp
      simp only [allocFor, allocRec, h1, if_true, Res.ok.injEq] at hp
      subst hp
      refine ⟨.record r h.length (h.length + 1), ?_, by omega⟩
      rw [List.getElem?_append_right (by omega)]
      simp
  · refine ⟨[], by simp [allocFor_err h hd], ?_, fun _ => rfl⟩
    intro p hp
    rw [allocFor_err h hd] at hp
    cases hp
  · refine ⟨[], by simp [allocFor_panic h hd], ?_, fun _ => rfl⟩
    intro p hp
    rw [allocFor_panic h hd] at hp
    cases hp

/-- The loop in steps. -/
theorem loop_alone (record : Bool) (id idx : Nat) (d : StdValue) : ∀ (n i pos : Nat) (h : Heap), i + (n + 1) = idx + 1 →
    (∃ sl, h[id]? = some (.val d sl)) →
    ∃ m, match lazyLoop (allocFor record) d.content id (n + 1) i pos h with
      | (h', .ok ()) => stepMany m (h, ⟨record, id, idx, .test i pos⟩) = (h', ⟨record, id, idx, .last⟩) ∧
          ∃ p, h'.slot id idx = some (.obj p)
      | (h', .err) => stepMany m (h, ⟨record, id, idx, .test i pos⟩) = (h', ⟨record, id, idx, .done .err⟩)
      | (h', .panic) => stepMany m (h, ⟨record, id, idx, .test i pos⟩) = (h', ⟨record, id, idx, .done .panic⟩) := by
  intro n
  induction n with
  | zero =>
    intro i pos h hi ⟨sl, e⟩
    obtain rfl : i = idx := by omega
    rw [lazyLoop]
    rcases hs : h.slot id i with - | s
    · exact ⟨1, by simp [stepMany, ReadTask.step, hs]⟩
    · cases s with
      | typedNil => exact ⟨2, by simp [stepMany, ReadTask.step, hs]⟩
      | obj p =>
        rcases hp : h[p]? with - | o
        · exact ⟨2, by simp [stepMany, ReadTask.step, hs, hp]⟩
        · refine ⟨2, ?_⟩
          simp [stepMany, ReadTask.step, hs, hp, lazyLoop]
      | empty =>
        by_cases hc : d.content.length < pos
        · exact ⟨1, by simp [stepMany, ReadTask.step, hs, e, hc]⟩
        · obtain ⟨ext, a1, a2, a3⟩ := allocFor_obj record h (d.content.drop pos)
          rcases ha : allocFor record h (d.content.drop pos) with ⟨h1, r⟩
          rw [ha] at a1 a2 a3
          simp only at a1 a2 a3
          subst a1
          have hid := (List.getElem?_eq_some_iff.mp e).1
          have e' : (h ++ ext)[id]? = some (.val d sl) := by rw [List.getElem?_append_left hid, e]
          have hi' : i < sl.length := by
            rw [slot_eq e] at hs
            exact (List.getElem?_eq_some_iff.mp hs).1
          have hid' := (List.getElem?_eq_some_iff.mp e').1
          rcases r with p | - | -
          · obtain ⟨o, ho, hp⟩ := a2 p rfl
            have hne : id ≠ p := by omega
            have hsl : ((h ++ ext).setSlot id i (.obj p)).slot id i = some (.obj p) := by
              rw [setSlot_eq e', slot_eq (List.getElem?_set_self hid'), List.getElem?_set_self hi']
            have hpo : ((h ++ ext).setSlot id i (.obj p))[p]? = some o := by rw [setSlot_other hne, ho]
            refine ⟨3, ?_⟩
            simp [stepMany, ReadTask.step, hs, e, hc, ha, ho, hsl, hpo, lazyLoop]
          · refine ⟨2, ?_⟩
            simp [stepMany, ReadTask.step, hs, e, hc, ha]
          · refine ⟨1, ?_⟩
            simp [stepMany, ReadTask.step, hs, e, hc, ha]
  | succ n ih =>
    intro i pos h hi ⟨sl, e⟩
    have hne' : i ≠ idx := by omega
    rw [lazyLoop]
    rcases hs : h.slot id i with - | s
    · exact ⟨1, by simp [stepMany, ReadTask.step, hs]⟩
    · cases s with
      | typedNil => exact ⟨2, by simp [stepMany, ReadTask.step, hs]⟩
      | obj p =>
        rcases hp : h[p]? with - | o
        · exact ⟨2, by simp [stepMany, ReadTask.step, hs, hp]⟩
        · obtain ⟨m, hm⟩ := ih (i + 1) (pos + o.bufLen) h (by omega) ⟨sl, e⟩
          refine ⟨2 + m, ?_⟩
          rw [stepMany_add]
          have : stepMany 2 (h, ⟨record, id, idx, .test i pos⟩) = (h, ⟨record, id, idx, .test (i + 1) (pos + o.bufLen)⟩) := by
            simp [stepMany, ReadTask.step, hs, hp, hne']
          rw [this]
          simp only [hp]
          exact hm
      | empty =>
        by_cases hc : d.content.length < pos
        · exact ⟨1, by simp [stepMany, ReadTask.step, hs, e, hc]⟩
        · obtain ⟨ext, a1, a2, a3⟩ := allocFor_obj record h (d.content.drop pos)
          rcases ha : allocFor record h (d.content.drop pos) with ⟨h1, r⟩
          rw [ha] at a1 a2 a3
          simp only at a1 a2 a3
          subst a1
          have hid := (List.getElem?_eq_some_iff.mp e).1
          have e' : (h ++ ext)[id]? = some (.val d sl) := by rw [List.getElem?_append_left hid, e]
          have hi' : i < sl.length := by
            rw [slot_eq e] at hs
            exact (List.getElem?_eq_some_iff.mp hs).1
          have hid' := (List.getElem?_eq_some_iff.mp e').1
          rcases r with p | - | -
          · obtain ⟨o, ho, hp⟩ := a2 p rfl
            have hne : id ≠ p := by omega
            have hsl : ((h ++ ext).setSlot id i (.obj p)).slot id i = some (.obj p) := by
              rw [setSlot_eq e', slot_eq (List.getElem?_set_self hid'), List.getElem?_set_self hi']
            have hpo : ((h ++ ext).setSlot id i (.obj p))[p]? = some o := by rw [setSlot_other hne, ho]
            obtain ⟨m, hm⟩ := ih (i + 1) (pos + o.bufLen) ((h ++ ext).setSlot id i (.obj p)) (by omega)
              ⟨sl.set i (.obj p), by rw [setSlot_eq e']; exact List.getElem?_set_self hid'⟩
            refine ⟨3 + m, ?_⟩
            rw [stepMany_add]
            have : stepMany 3 (h, ⟨record, id, idx, .test i pos⟩) =
                ((h ++ ext).setSlot id i (.obj p), ⟨record, id, idx, .test (i + 1) (pos + o.bufLen)⟩) := by
              simp [stepMany, ReadTask.step, hs, e, hc, ha, hsl, hpo, hne']
            rw [this]
            simp only [if_neg hc, ho]
            exact hm
          · refine ⟨2, ?_⟩
            simp [stepMany, ReadTask.step, hs, e, hc, ha]
          · refine ⟨1, ?_⟩
            simp [stepMany, ReadTask.step, hs, e, hc, ha]

/-- C200: a call without others gives what the model of single calls says, in any state. -/
theorem C200_alone (h : Heap) (record : Bool) (id idx : Nat) (d : StdValue) (sl : List Slot) (e : h[id]? = some (.val d sl)) :
    ∃ n, interleave ⟨h, []⟩ (.start record id idx :: List.replicate n (.step 0)) =
      ⟨(callAlone h record id idx).1, [⟨record, id, idx, .done (asSlot (callAlone h record id idx).2)⟩]⟩ := by
  have hcall : callAlone h record id idx =
      if d.kind ≠ (if record then VKind.records else VKind.array) then (h, .err) else lazyAt (allocFor record) h id d idx := by
    cases record <;> simp [callAlone, Heap.valueAt, Heap.recordAt, e, allocFor]
  have hfirst : ∀ t, startRead h record id idx = some t → ∀ n, interleave ⟨h, []⟩ (.start record id idx :: List.replicate n (.step 0)) =
      ⟨(stepMany n (h, t)).1, [(stepMany n (h, t)).2]⟩ := by
    intro t ht n
    have : interleave ⟨h, []⟩ (.start record id idx :: List.replicate n (.step 0)) =
        interleave ⟨h, [t]⟩ (List.replicate n (.step 0)) := by
      simp only [interleave, List.foldl_cons, ReadEvent.run, ht, List.nil_append]
    rw [this, interleave_many n 0 h [t] t rfl]
    rfl
  by_cases hk : d.kind = (if record then VKind.records else VKind.array)
  swap
  · refine ⟨0, ?_⟩
    rw [hfirst ⟨record, id, idx, .done .err⟩ (by simp [startRead, e, hk]), hcall, if_pos hk]
    rfl
  rw [hcall, if_neg (by simpa using hk)]
  by_cases hi : idx ≥ d.size
  · refine ⟨0, ?_⟩
    rw [hfirst ⟨record, id, idx, .done .err⟩ (by simp [startRead, e, hk, hi]), lazyAt, if_pos hi]
    rfl
  have hst : startRead h record id idx = some ⟨record, id, idx, .check⟩ := by simp [startRead, e, hk]; omega
  rw [lazyAt, if_neg hi]
  rcases hs : h.slot id idx with - | s
  · exact ⟨1, by rw [hfirst _ hst]; simp [stepMany, ReadTask.step, hs, asSlot]⟩
  cases s with
  | obj p => exact ⟨2, by rw [hfirst _ hst]; simp [stepMany, ReadTask.step, hs, asSlot]⟩
  | typedNil => exact ⟨2, by rw [hfirst _ hst]; simp [stepMany, ReadTask.step, hs, asSlot]⟩
  | empty =>
    obtain ⟨m, hm⟩ := loop_alone record id idx d idx 0 0 h (by omega) ⟨sl, e⟩
    have h1 : stepMany 1 (h, ⟨record, id, idx, .check⟩) = (h, ⟨record, id, idx, .test 0 0⟩) := by
      simp [stepMany, ReadTask.step, hs]
    simp only
    rcases hl : lazyLoop (allocFor record) d.content id (idx + 1) 0 0 h with ⟨h', r⟩
    rw [hl] at hm
    rcases r with u | - | -
    · obtain ⟨hm, p, hp⟩ := hm
      refine ⟨1 + (m + 1), ?_⟩
      rw [hfirst _ hst, stepMany_add, h1, stepMany_add, hm]
      simp [stepMany, ReadTask.step, hp, asSlot]
    · refine ⟨1 + m, ?_⟩
      simp only at hm
      rw [hfirst _ hst, stepMany_add, h1, hm]
      simp [asSlot]
    · refine ⟨1 + m, ?_⟩
      simp only at hm
      rw [hfirst _ hst, stepMany_add, h1, hm]
      simp [asSlot]

/-! ### Elements that were read before -/

/-- A call on an element that was read before. -/
def WarmTask (h : Heap) (t : ReadTask) : Prop :=
  t.pc = .done (asSlot (callAlone h t.record t.id t.idx).2) ∨
    ((t.pc = .check ∨ t.pc = .hit) ∧ ∃ s, h.slot t.id t.idx = some s ∧ s ≠ .empty ∧
      asSlot (callAlone h t.record t.id t.idx).2 = .ok s)

theorem warm_start {h : Heap} {record : Bool} {id idx : Nat} {t : ReadTask} (hs : startRead h record id idx = some t)
    (hw : ∀ d sl, h[id]? = some (.val d sl) → d.kind = (if record then .records else .array) → idx < d.size → h.slot id idx ≠ some .empty)
    (hc : CachesGood h) : WarmTask h t := by
  rw [startRead] at hs
  rcases e : h[id]? with - | o
  · rw [e] at hs; simp at hs
  rcases o with ⟨d, sl⟩ | ⟨r, v, s⟩
  swap
  · rw [e] at hs; simp at hs
  rw [e] at hs
  simp only at hs
  have hcall : callAlone h record id idx =
      if d.kind ≠ (if record then VKind.records else VKind.array) then (h, .err) else lazyAt (allocFor record) h id d idx := by
    cases record <;> simp [callAlone, Heap.valueAt, Heap.recordAt, e, allocFor]
  by_cases hk : d.kind = (if record then VKind.records else VKind.array)
  · rw [if_neg (by simpa using hk)] at hs hcall
    by_cases hi : idx ≥ d.size
    · rw [if_pos hi] at hs
      cases hs
      exact Or.inl (by simp [hcall, lazyAt, hi, asSlot])
    · rw [if_neg hi] at hs
      cases hs
      have hne := hw d sl e hk (by omega)
      have hlen := (hc id d sl e).1
      rw [if_neg (kind_record hk).2] at hlen
      rcases hsl : h.slot id idx with - | s
      · rw [slot_eq e, List.getElem?_eq_none_iff] at hsl
        omega
      · refine Or.inr ⟨Or.inl rfl, s, hsl, fun hx => hne (by rw [hsl, hx]), ?_⟩
        simp only [hcall, lazyAt, if_neg hi, hsl]
        cases s with
        | empty => exact absurd hsl hne
        | typedNil => rfl
        | obj p => rfl
  · rw [if_pos hk] at hs hcall
    cases hs
    exact Or.inl (by simp [hcall, asSlot])

theorem warm_step {h : Heap} {t : ReadTask} (ht : WarmTask h t) : (t.step h).1 = h ∧ WarmTask h (t.step h).2 := by
  rcases t with ⟨record, id, idx, pc⟩
  rcases ht with ht | ⟨ht, s, h1, h2, h3⟩
  · simp only at ht
    subst ht
    exact ⟨rfl, Or.inl rfl⟩
  · simp only at ht h1 h3
    rcases ht with rfl | rfl
    · have : (ReadTask.mk record id idx .check).step h = (h, ⟨record, id, idx, .hit⟩) := by
        simp only [ReadTask.step, h1]
      rw [this]
      exact ⟨rfl, Or.inr ⟨Or.inr rfl, s, h1, h2, h3⟩⟩
    · have : (ReadTask.mk record id idx .hit).step h = (h, ⟨record, id, idx, .done (.ok s)⟩) := by
        simp only [ReadTask.step, h1]
      rw [this]
      exact ⟨rfl, Or.inl (by simp [h3])⟩

/-- C200: elements that were all read before can be read by any number of goroutines: nothing is written, so that there are no data races,
and each call gives what it would give alone, the same object each time. -/
theorem C200_warm (buf : Bytes) (h : Heap) (root : Nat) (ha : allocStd [] buf = (h, .ok root)) (before : List Access)
    (l : List ReadEvent) (hl : ∀ record id idx, ReadEvent.start record id idx ∈ l → ∀ d sl, (history h before)[id]? = some (.val d sl) →
      d.kind = (if record then .records else .array) → idx < d.size → (history h before).slot id idx ≠ some .empty) :
    (interleave ⟨history h before, []⟩ l).heap = history h before ∧ ¬ Racing (interleave ⟨history h before, []⟩ l) ∧
      ∀ k record id idx r, Ended (interleave ⟨history h before, []⟩ l) k record id idx r →
        r = asSlot (callAlone (history h before) record id idx).2 := by
  have hg := (history_good ha before).1
  generalize history h before = H at hl hg ⊢
  simp only at hg
  have key : ∀ (l : List ReadEvent) (tasks : List ReadTask), (∀ t ∈ tasks, WarmTask H t) →
      (∀ record id idx, ReadEvent.start record id idx ∈ l → ∀ d sl, H[id]? = some (.val d sl) →
        d.kind = (if record then .records else .array) → idx < d.size → H.slot id idx ≠ some .empty) →
      (interleave ⟨H, tasks⟩ l).heap = H ∧ ∀ t ∈ (interleave ⟨H, tasks⟩ l).tasks, WarmTask H t := by
    intro l
    induction l with
    | nil => intro tasks ht _; exact ⟨rfl, ht⟩
    | cons e l ih =>
      intro tasks ht hl
      have hl' := fun record id idx hm => hl record id idx (List.mem_cons_of_mem _ hm)
      cases e with
      | start record id idx =>
        have : interleave ⟨H, tasks⟩ (.start record id idx :: l) =
            interleave ((ReadEvent.start record id idx).run ⟨H, tasks⟩) l := rfl
        rw [this, ReadEvent.run]
        rcases hs : startRead H record id idx with - | t
        · exact ih tasks ht hl'
        · refine ih _ (fun u hu => ?_) hl'
          rcases List.mem_append.mp hu with hu | hu
          · exact ht u hu
          · rw [List.mem_singleton] at hu
            subst hu
            exact warm_start hs (hl record id idx (List.mem_cons_self ..)) hg
      | step k =>
        have : interleave ⟨H, tasks⟩ (.step k :: l) = interleave ((ReadEvent.step k).run ⟨H, tasks⟩) l := rfl
        rw [this, ReadEvent.run]
        rcases hk : tasks[k]? with - | t
        · simp only
          exact ih tasks ht hl'
        · obtain ⟨w1, w2⟩ := warm_step (ht t (List.mem_of_getElem? hk))
          simp only [hk, w1]
          refine ih _ (fun u hu => ?_) hl'
          rcases List.mem_or_eq_of_mem_set hu with hu | hu
          · exact ht u hu
          · subst hu; exact w2
  obtain ⟨k1, k2⟩ := key l [] (by simp) hl
  refine ⟨k1, ?_, ?_⟩
  · rintro ⟨j, k, t, u, id, i, b, -, ht, -, hacc, -⟩
    have hw := k2 t (List.mem_of_getElem? ht)
    rcases hw with hw | ⟨hw, -⟩
    · simp [nextAccess, hw] at hacc
    · rcases hw with hw | hw <;> simp [nextAccess, hw] at hacc
  · intro k record id idx r hr
    have hw := k2 _ (List.mem_of_getElem? hr)
    rcases hw with hw | ⟨hw, -⟩
    · simpa using hw
    · simp at hw

/-! ### Data races -/

/-- A call that has begun: `ValueAt(idx)`, or `RecordAt(idx)`, on object `id`. -/
abbrev ReadCall := Bool × Nat × Nat

/-- All these calls begin. -/
def begins (calls : List ReadCall) : List ReadEvent := calls.map (fun c => .start c.1 c.2.1 c.2.2)

theorem interleave_append (w : ReadWorld) (l l' : List ReadEvent) : interleave w (l ++ l') = interleave (interleave w l) l' := by
  rw [interleave, List.foldl_append]; rfl

theorem begins_tasks (h : Heap) : ∀ (calls : List ReadCall) (tasks : List ReadTask),
    (∀ c ∈ calls, ∃ e, GoodCall h c.1 c.2.1 c.2.2 e) → interleave ⟨h, tasks⟩ (begins calls) =
      ⟨h, tasks ++ calls.map (fun c => ⟨c.1, c.2.1, c.2.2, .check⟩)⟩ := by
  intro calls
  induction calls with
  | nil => intro tasks _; simp [begins, interleave]
  | cons c calls ih =>
    intro tasks hc
    obtain ⟨x, d, sl, e, hk, hi, -⟩ := hc c (List.mem_cons_self ..)
    have hs : startRead h c.1 c.2.1 c.2.2 = some ⟨c.1, c.2.1, c.2.2, .check⟩ := by
      simp only [startRead, e]
      rw [if_neg (by simpa using hk), if_neg (by omega)]
    have : interleave ⟨h, tasks⟩ (begins (c :: calls)) = interleave ⟨h, tasks ++ [⟨c.1, c.2.1, c.2.2, .check⟩]⟩ (begins calls) := by
      simp only [begins, List.map_cons, interleave, List.foldl_cons, ReadEvent.run, hs]
    rw [this, ih _ (fun c hm => hc c (List.mem_cons_of_mem _ hm))]
    simp

/-- What holds of a call on element `idx`, given the objects when it began. -/
def ColdTask (h : Heap) (t : ReadTask) : Prop :=
  (h.slot t.id t.idx = some .empty ∨ t.pc = .check ∨ t.pc = .hit ∨ ∃ r, t.pc = .done r) ∧
    ∀ i pos s, t.pc = .store i pos s → h.slot t.id i = some .empty

theorem slot_before {h h' : Heap} (a : HeapLater h h') {id : Nat} {d : StdValue} {sl : List Slot} (e : h[id]? = some (.val d sl)) {i : Nat}
    (hs : h'.slot id i = some .empty) : h.slot id i = some .empty := by
  obtain ⟨sl', e', hl, hk⟩ := a.1 id d sl e
  rw [slot_eq e'] at hs
  have hi := (List.getElem?_eq_some_iff.mp hs).1
  rw [slot_eq e]
  by_contra hne
  have hi' : i < sl.length := by omega
  obtain ⟨s', h1, h2⟩ := hk i sl[i] (List.getElem?_eq_getElem hi') (fun hx => hne (by rw [List.getElem?_eq_getElem hi', hx]))
  rw [hs] at h1
  cases h1
  exact h2 rfl

theorem cold_step {h g : Heap} (a : HeapLater h g) {t : ReadTask} {d : StdValue} {sl : List Slot} (e : h[t.id]? = some (.val d sl))
    (hin : ∃ s, h.slot t.id t.idx = some s) (ht : ColdTask h t) : ColdTask h (t.step g).2 := by
  obtain ⟨f1, f2, f3⟩ := step_fields g t
  obtain ⟨c1, c2⟩ := ht
  constructor
  · rw [f2, f3]
    by_cases hcold : h.slot t.id t.idx = some .empty
    · exact Or.inl hcold
    · right
      obtain ⟨s, hs⟩ := hin
      obtain ⟨s', hs', hne'⟩ := slot_later a e ⟨s, hs, fun hx => hcold (by rw [hs, hx])⟩
      rcases t with ⟨record, id, idx, pc⟩
      simp only at c1 hs' hcold
      rcases c1 with hc | rfl | rfl | ⟨r, rfl⟩
      · exact absurd hc hcold
      · right; left
        simp only [ReadTask.step, hs']
      · right; right
        exact ⟨.ok s', by simp only [ReadTask.step, hs']⟩
      · right; right
        exact ⟨r, rfl⟩
  · intro i pos s hpc
    rw [f2]
    rcases t with ⟨record, id, idx, pc⟩
    cases pc with
    | test i' pos' =>
      simp only [ReadTask.step] at hpc
      repeat' split at hpc
      all_goals simp only [ReadPc.store.injEq, reduceCtorEq] at hpc
      all_goals
        obtain ⟨rfl, rfl, -⟩ := hpc
        exact slot_before a e (by assumption)
    | check => simp only [ReadTask.step] at hpc; repeat' split at hpc <;> simp at hpc
    | hit => simp only [ReadTask.step] at hpc; repeat' split at hpc <;> simp at hpc
    | last => simp only [ReadTask.step] at hpc; repeat' split at hpc <;> simp at hpc
    | store i' pos' s' => simp only [ReadTask.step] at hpc; split at hpc <;> simp at hpc
    | advance i' pos' =>
      simp only [ReadTask.step] at hpc
      repeat' split at hpc
      all_goals simp at hpc
    | done r => simp [ReadTask.step] at hpc

/-- All elements before the first unread one are read on the way, and then it is decoded. -/
theorem reach_store {g : Heap} (hc : CachesGood g) {record : Bool} {id idx : Nat} {x : Element} (hg : GoodCall g record id idx x) {m : Nat}
    (hm : m ≤ idx) (hempty : g.slot id m = some .empty) : ∀ (n i pos : Nat), i + n = m → (∃ d sl, g[id]? = some (.val d sl) ∧
      PosOf record d.content i pos) → (∀ j, i ≤ j → j < m → g.slot id j ≠ some .empty) →
    ∃ ext pos' s, stepMany (2 * n + 1) (g, ⟨record, id, idx, .test i pos⟩) = (g ++ ext, ⟨record, id, idx, .store m pos' s⟩) := by
  obtain ⟨d, sl, e, hk, hi, hx⟩ := hg
  obtain ⟨hlen, hgood⟩ := hc _ _ _ e
  rw [if_neg (kind_record hk).2] at hlen
  rw [(kind_record hk).1] at hgood
  intro n
  induction n with
  | zero =>
    rintro i pos hin ⟨d', sl', e', hpos⟩ -
    rw [e] at e'
    cases e'
    obtain rfl : i = m := by omega
    rcases posOf_elem hpos with ⟨y, n, e1, e2⟩ | ⟨e1, e2⟩ | ⟨e1, e2⟩
    · obtain ⟨ext, p, a1, -, -⟩ := allocFor_ok g e1
      refine ⟨ext, pos, .obj p, ?_⟩
      simp only [stepMany, ReadTask.step, hempty, e, a1]
      rw [if_neg (by have := hpos.1; omega)]
    · exfalso
      rcases Nat.lt_or_ge i idx with h | h
      · obtain ⟨y, hy⟩ := elemOf_ok_lt hx i h
        rw [hy] at e2; cases e2
      · obtain rfl : i = idx := by omega
        rw [hx] at e2; cases e2
    · exfalso
      rcases Nat.lt_or_ge i idx with h | h
      · obtain ⟨y, hy⟩ := elemOf_ok_lt hx i h
        rw [hy] at e2; cases e2
      · obtain rfl : i = idx := by omega
        rw [hx] at e2; cases e2
  | succ n ih =>
    rintro i pos hin ⟨d', sl', e', hpos⟩ hfull
    rw [e] at e'
    cases e'
    have hi' : i < sl.length := by omega
    obtain ⟨y, hy⟩ := elemOf_ok_lt hx i (by omega)
    have hs : g.slot id i = some sl[i] := by rw [slot_eq e, List.getElem?_eq_getElem hi']
    have hsg := hgood i _ (List.getElem?_eq_getElem hi')
    have hne : g.slot id i ≠ some .empty := hfull i (Nat.le_refl _) (by omega)
    rcases hsl : sl[i] with - | - | p
    · rw [hs, hsl] at hne; exact absurd rfl hne
    · rw [hsl, SlotGood, hy] at hsg; cases hsg
    · rw [hsl] at hs hsg
      obtain ⟨o, o1, o2⟩ := posOf_succ hpos hsg
      obtain ⟨ext, pos', s, hr⟩ := ih (i + 1) (pos + o.bufLen) (by omega) ⟨d, sl, e, o2⟩ (fun j h1 h2 => hfull j (by omega) h2)
      refine ⟨ext, pos', s, ?_⟩
      rw [show 2 * (n + 1) + 1 = 2 + (2 * n + 1) by omega, stepMany_add]
      have : stepMany 2 (g, ⟨record, id, idx, .test i pos⟩) = (g, ⟨record, id, idx, .test (i + 1) (pos + o.bufLen)⟩) := by
        simp only [stepMany, ReadTask.step, hs, o1]
        rw [if_neg (by omega)]
      rw [this, hr]

theorem reach_first {g : Heap} (hc : CachesGood g) {record : Bool} {id idx : Nat} {x : Element} (hg : GoodCall g record id idx x) {m : Nat}
    (hm : m ≤ idx) (hempty : g.slot id m = some .empty) (hfull : ∀ j, j < m → g.slot id j ≠ some .empty)
    (hcold : g.slot id idx = some .empty) :
    ∃ n ext pos s, stepMany n (g, ⟨record, id, idx, .check⟩) = (g ++ ext, ⟨record, id, idx, .store m pos s⟩) := by
  have hg' := hg
  obtain ⟨d, sl, e, hk, hi, hx⟩ := hg'
  obtain ⟨ext, pos, s, h1⟩ := reach_store hc hg hm hempty m 0 0 (by omega) ⟨d, sl, e, posOf_zero _ _⟩ (fun j _ hj => hfull j hj)
  refine ⟨1 + (2 * m + 1), ext, pos, s, ?_⟩
  rw [stepMany_add]
  have : stepMany 1 (g, ⟨record, id, idx, .check⟩) = (g, ⟨record, id, idx, .test 0 0⟩) := by
    simp only [stepMany, ReadTask.step, hcold]
  rw [this, h1]

theorem slot_append {h ext : Heap} {id : Nat} {d : StdValue} {sl : List Slot} (e : h[id]? = some (.val d sl)) (i : Nat) :
    (h ++ ext).slot id i = h.slot id i := by
  have : (h ++ ext)[id]? = some (.val d sl) := by rw [List.getElem?_append_left (List.getElem?_eq_some_iff.mp e).1, e]
  rw [slot_eq this, slot_eq e]

/-- C200, data races: given calls for well formed elements, made at the same time after any single calls.  They can get into a data race
exactly if two of them, on the same object, ask for elements that have not been read before. -/
theorem C200_race_iff_partial (buf : Bytes) (h : Heap) (root : Nat) (ha : allocStd [] buf = (h, .ok root)) (before : List Access)
    (calls : List ReadCall) (hc : ∀ c ∈ calls, ∃ e, GoodCall (history h before) c.1 c.2.1 c.2.2 e) :
    (∃ order : List Nat, Racing (interleave ⟨history h before, []⟩ (begins calls ++ order.map .step))) ↔
      ∃ (j k : Nat) (c c' : ReadCall), j ≠ k ∧ calls[j]? = some c ∧ calls[k]? = some c' ∧ c.2.1 = c'.2.1 ∧
        (history h before).slot c.2.1 c.2.2 = some .empty ∧ (history h before).slot c'.2.1 c'.2.2 = some .empty := by
  have hg := (history_good ha before).1
  generalize history h before = H at hc hg ⊢
  simp only at hg
  have hstart := begins_tasks H calls [] hc
  rw [List.nil_append] at hstart
  have hlater : ∀ l, WorldGood (interleave ⟨H, []⟩ l) ∧ HeapLater H (interleave ⟨H, []⟩ l).heap :=
    fun l => interleave_good (w := ⟨H, []⟩) ⟨hg, by simp⟩ l
  constructor
  · rintro ⟨order, hr⟩
    have inv : ∀ (order : List Nat), (interleave ⟨H, []⟩ (begins calls ++ order.map .step)).tasks.length = calls.length ∧
        ∀ (k : Nat) (t : ReadTask), (interleave ⟨H, []⟩ (begins calls ++ order.map .step)).tasks[k]? = some t →
          (∃ c, calls[k]? = some c ∧ t.record = c.1 ∧ t.id = c.2.1 ∧ t.idx = c.2.2) ∧ ColdTask H t := by
      intro order
      induction order using List.reverseRecOn with
      | nil =>
        rw [List.map_nil, List.append_nil, hstart]
        refine ⟨by simp, fun k t hk => ?_⟩
        rw [List.getElem?_map] at hk
        rcases hck : calls[k]? with - | c
        · rw [hck] at hk; simp at hk
        · rw [hck] at hk
          simp only [Option.map_some, Option.some.injEq] at hk
          subst hk
          exact ⟨⟨c, rfl, rfl, rfl, rfl⟩, Or.inr (Or.inl rfl), fun i pos s hx => by simp at hx⟩
      | append_singleton order n ih =>
        obtain ⟨hl, ht⟩ := ih
        have hlat := (hlater (begins calls ++ order.map .step)).2
        rw [List.map_append, ← List.append_assoc, interleave_append]
        generalize interleave ⟨H, []⟩ (begins calls ++ order.map .step) = w at hl ht hlat ⊢
        have hrun : interleave w ([n].map .step) = (ReadEvent.step n).run w := rfl
        rw [hrun, ReadEvent.run]
        rcases hn : w.tasks[n]? with - | t0
        · exact ⟨hl, ht⟩
        · refine ⟨by simpa using hl, fun k t hk => ?_⟩
          by_cases hkn : n = k
          · subst hkn
            rw [List.getElem?_set_self (List.getElem?_eq_some_iff.mp hn).1] at hk
            cases hk
            obtain ⟨⟨c, g1, g2, g3, g4⟩, g5⟩ := ht n t0 hn
            obtain ⟨f1, f2, f3⟩ := step_fields w.heap t0
            refine ⟨⟨c, g1, by rw [f1, g2], by rw [f2, g3], by rw [f3, g4]⟩, ?_⟩
            obtain ⟨x, d, sl, e, hkd, hi, -⟩ := hc c (List.mem_of_getElem? g1)
            have hlen := (hg _ _ _ e).1
            rw [if_neg (kind_record hkd).2] at hlen
            refine cold_step hlat (d := d) (sl := sl) (by rw [g3]; exact e) ?_ g5
            rw [g3, g4, slot_eq e]
            exact ⟨_, List.getElem?_eq_getElem (by omega)⟩
          · rw [List.getElem?_set_ne hkn] at hk
            exact ht k t hk
    obtain ⟨j, k, t, u, id, i, b, hjk, hj, hk, ha1, ha2⟩ := hr
    obtain ⟨-, ht⟩ := inv order
    obtain ⟨⟨c, c1, c2, c3, c4⟩, cold, cst⟩ := ht j t hj
    obtain ⟨⟨c', c1', c2', c3', c4'⟩, cold', -⟩ := ht k u hk
    rcases t with ⟨r1, id1, idx1, pc1⟩
    simp only at c2 c3 c4 cold cst
    cases pc1 <;> simp only [nextAccess, Option.some.injEq, Prod.mk.injEq, reduceCtorEq, Bool.false_eq_true, and_false] at ha1
    obtain ⟨rfl, rfl, -⟩ := ha1
    have hst := cst _ _ _ rfl
    have h1 : H.slot id1 idx1 = some .empty := by
      rcases cold with h | h | h | ⟨r, h⟩
      · exact h
      all_goals simp at h
    rcases u with ⟨r2, id2, idx2, pc2⟩
    simp only at c2' c3' c4' cold'
    have hid : id2 = id1 := by
      cases pc2 <;> simp only [nextAccess, Option.some.injEq, Prod.mk.injEq, reduceCtorEq] at ha2 <;> exact ha2.1
    subst hid
    refine ⟨j, k, c, c', hjk, c1, c1', by rw [← c3, ← c3'], by rw [← c3, ← c4]; exact h1, ?_⟩
    rw [← c3', ← c4']
    rcases cold' with h | h | h | ⟨r, h⟩
    · exact h
    · subst h
      simp only [nextAccess, Option.some.injEq, Prod.mk.injEq] at ha2
      rw [ha2.2.1]; exact hst
    · subst h
      simp only [nextAccess, Option.some.injEq, Prod.mk.injEq] at ha2
      rw [ha2.2.1]; exact hst
    · subst h
      simp [nextAccess] at ha2
  · rintro ⟨j, k, ⟨r1, id1, i1⟩, ⟨r2, id2, i2⟩, hjk, hj, hk, hid, e1, e2⟩
    simp only at hid e1 e2
    subst hid
    have hex : ∃ m, H.slot id1 m = some .empty := ⟨i1, e1⟩
    obtain ⟨m, hm, hmin⟩ : ∃ m, H.slot id1 m = some .empty ∧ ∀ n, n < m → H.slot id1 n ≠ some .empty := by
      classical
      exact ⟨Nat.find hex, Nat.find_spec hex, fun n hn => Nat.find_min hex hn⟩
    have hm1 : m ≤ i1 := by
      by_contra hlt
      exact hmin i1 (by omega) e1
    have hm2 : m ≤ i2 := by
      by_contra hlt
      exact hmin i2 (by omega) e2
    obtain ⟨x1, g1⟩ := hc _ (List.mem_of_getElem? hj)
    obtain ⟨x2, g2⟩ := hc _ (List.mem_of_getElem? hk)
    simp only at g1 g2
    obtain ⟨n1, ext1, p1, s1, r1'⟩ := reach_first hg g1 hm1 hm hmin e1
    have hG : CachesGood (H ++ ext1) := by
      have := (interleave_good (w := ⟨H, []⟩) ⟨hg, by simp⟩ (.start r1 id1 i1 :: List.replicate n1 (.step 0))).1.1
      obtain ⟨d, sl, e, hkd, hi, -⟩ := g1
      have hs : startRead H r1 id1 i1 = some ⟨r1, id1, i1, .check⟩ := by
        simp only [startRead, e]
        rw [if_neg (by simpa using hkd), if_neg (by omega)]
      have h3 : interleave ⟨H, []⟩ (.start r1 id1 i1 :: List.replicate n1 (.step 0)) =
          interleave ⟨H, [⟨r1, id1, i1, .check⟩]⟩ (List.replicate n1 (.step 0)) := by
        simp only [interleave, List.foldl_cons, ReadEvent.run, hs, List.nil_append]
      rw [h3, interleave_many n1 0 H _ ⟨r1, id1, i1, .check⟩ rfl, r1'] at this
      exact this
    obtain ⟨d, sl, e, hkd, hi, hx⟩ := g2
    have e' : (H ++ ext1)[id1]? = some (.val d sl) := by rw [List.getElem?_append_left (List.getElem?_eq_some_iff.mp e).1, e]
    obtain ⟨n2, ext2, p2, s2, r2'⟩ := reach_first hG ⟨d, sl, e', hkd, hi, hx⟩ hm2 (by rw [slot_append e, hm])
      (fun n hn => by rw [slot_append e]; exact hmin n hn) (by rw [slot_append e, e2])
    refine ⟨List.replicate n1 j ++ List.replicate n2 k, ?_⟩
    rw [List.map_append, List.map_replicate, List.map_replicate, interleave_append, hstart, interleave_append,
      interleave_many n1 j H _ ⟨r1, id1, i1, .check⟩ (by rw [List.getElem?_map, hj]; rfl), r1',
      interleave_many n2 k _ _ ⟨r2, id1, i2, .check⟩ (by rw [List.getElem?_set_ne hjk, List.getElem?_map, hk]; rfl), r2']
    have lj : j < (calls.map (fun c => (⟨c.1, c.2.1, c.2.2, .check⟩ : ReadTask))).length := by
      rw [List.length_map]; exact (List.getElem?_eq_some_iff.mp hj).1
    have lk : k < (calls.map (fun c => (⟨c.1, c.2.1, c.2.2, .check⟩ : ReadTask))).length := by
      rw [List.length_map]; exact (List.getElem?_eq_some_iff.mp hk).1
    refine ⟨j, k, ⟨r1, id1, i1, .store m p1 s1⟩, ⟨r2, id1, i2, .store m p2 s2⟩, id1, m, true, hjk, ?_, ?_, rfl, rfl⟩
    · simp only
      rw [List.getElem?_set_ne (fun h => hjk h.symm), List.getElem?_set_self lj]
    · simp only
      rw [List.getElem?_set_self (by rw [List.length_set]; exact lk)]

/-! ### The claim -/

/-- The full claim of C200: no data races, and every call for the same element gives the same object. -/
def ReadersIndependent : Prop := ∀ (buf : Bytes) (h : Heap) (root : Nat), allocStd [] buf = (h, .ok root) → ∀ l : List ReadEvent,
  ¬ Racing (interleave ⟨h, []⟩ l) ∧ ∀ j k record id idx r r', Ended (interleave ⟨h, []⟩ l) j record id idx r →
    Ended (interleave ⟨h, []⟩ l) k record id idx r' → r = r'

/-- An array of the values 5 and 6. -/
def parArray : Bytes := [0x41, 2, 6, 0x01, 1, 5, 0x01, 1, 6]

/-- It is decoded. -/
def parHeap : Heap := [.val ⟨parArray, .array, 2, parArray.drop 3⟩ [.empty, .empty]]

theorem parHeap_decoded : allocStd [] parArray = (parHeap, .ok 0) := by decide +kernel

/-- Two calls of `ValueAt(0)`: both find that the element was not read, and both decode it. -/
def bothRead : List ReadEvent := [.start false 0 0, .start false 0 0] ++ List.map .step [0, 0, 1, 1]

/-- The first ends before the second assigns its element. -/
def bothEnd : List ReadEvent := bothRead ++ List.map .step [0, 0, 0, 1, 1, 1]

theorem both_race : Racing (interleave ⟨parHeap, []⟩ bothRead) :=
  ⟨0, 1, ⟨false, 0, 0, .store 0 0 (.obj 1)⟩, ⟨false, 0, 0, .store 0 0 (.obj 2)⟩, 0, 0, true, by decide, by decide +kernel, by decide +kernel,
    rfl, rfl⟩

/-- They get different objects for the same element. -/
theorem both_differ : Ended (interleave ⟨parHeap, []⟩ bothEnd) 0 false 0 0 (.ok (.obj 1)) ∧
    Ended (interleave ⟨parHeap, []⟩ bothEnd) 1 false 0 0 (.ok (.obj 2)) := by
  constructor <;> (rw [Ended]; decide +kernel)

/-- C200 as stated does not hold: there are data races, and two calls for the same element can give different objects. -/
theorem C200_refuted : ¬ ReadersIndependent ∧ Racing (interleave ⟨parHeap, []⟩ bothRead) ∧
    ∃ r r', r ≠ r' ∧ Ended (interleave ⟨parHeap, []⟩ bothEnd) 0 false 0 0 r ∧ Ended (interleave ⟨parHeap, []⟩ bothEnd) 1 false 0 0 r' :=
  ⟨fun h => (h parArray parHeap 0 parHeap_decoded bothRead).1 both_race, both_race,
    .ok (.obj 1), .ok (.obj 2), by decide, both_differ.1, both_differ.2⟩

theorem parHeap_good (i : Nat) (hi : i < 2) : ∃ e, GoodCall parHeap false 0 i e := by
  have h : i = 0 ∨ i = 1 := by omega
  rcases h with rfl | rfl
  · exact ⟨.inl ⟨[0x01, 1, 5], .prim, 0, [5]⟩, _, _, rfl, rfl, by decide, by decide +kernel⟩
  · exact ⟨.inl ⟨[0x01, 1, 6], .prim, 0, [6]⟩, _, _, rfl, rfl, by decide, by decide +kernel⟩

example := C200_content_partial parArray parHeap 0 parHeap_decoded [] bothEnd 1 false 0 0 _ both_differ.2
example := C200_alone parHeap false 0 1 _ _ rfl
example := C200_ends parArray parHeap 0 parHeap_decoded [] bothRead (List.map .step [0, 1, 1, 1, 1, 1, 0]) 1
  ⟨false, 0, 0, .store 0 0 (.obj 2)⟩ (by decide +kernel) (by decide)
/-- After the last element was read once, all can be read at the same time. -/
example := C200_warm parArray parHeap 0 parHeap_decoded [.value 0 1]
  [.start false 0 0, .start false 0 1, .start false 0 0, .step 1, .step 0, .step 2, .step 1, .step 2, .step 0] (by
    intro record id idx hm d sl e hk hi
    have : history parHeap [.value 0 1] = [.val ⟨parArray, .array, 2, parArray.drop 3⟩ [.obj 1, .obj 2],
      .val ⟨[0x01, 1, 5], .prim, 0, [5]⟩ [], .val ⟨[0x01, 1, 6], .prim, 0, [6]⟩ []] := by decide +kernel
    rw [this]
    simp only [List.mem_cons, ReadEvent.start.injEq, reduceCtorEq, List.not_mem_nil, or_false, false_or] at hm
    rcases hm with ⟨rfl, rfl, rfl⟩ | ⟨rfl, rfl, rfl⟩ | ⟨rfl, rfl, rfl⟩ <;> simp [Heap.slot])
example : (∃ order : List Nat, Racing (interleave ⟨history parHeap [], []⟩ (begins [(false, 0, 0), (false, 0, 1)] ++ order.map .step))) :=
  (C200_race_iff_partial parArray parHeap 0 parHeap_decoded [] [(false, 0, 0), (false, 0, 1)] (by
    intro c hc
    simp only [List.mem_cons, List.not_mem_nil, or_false] at hc
    rcases hc with rfl | rfl
    · exact parHeap_good 0 (by decide)
    · exact parHeap_good 1 (by decide))).mpr ⟨0, 1, _, _, by decide, rfl, rfl, rfl, by decide +kernel, by decide +kernel⟩

end Poodle.Props
