import Verif.Props.ValueHeap

namespace Poodle.Props
open Poodle Spec

/-! ### C111: the result of `RecordAt` and the history of accesses -/

/-- What the caller sees of a value object. -/
def seenVal (h : Heap) (p : Option Nat) : Option StdValue :=
  match p with
  | none => none
  | some p =>
    match h[p]? with
    | some (.val d _) => some d
    | _ => none

/-- What the caller sees of a result of `RecordAt`: the fields of the record (`none`: a nil pointer) and the values that `Value()` and
`Scheme()` of it give. -/
def seenRec (r : Heap × Res (Option Nat)) : Res (Option (RecInfo × Option StdValue × Option StdValue)) :=
  match r.2 with
  | .ok none => .ok none
  | .ok (some p) =>
    match r.1[p]? with
    | some (.record x _ _) => .ok (some (x, seenVal r.1 (r.1.recValue p), seenVal r.1 (r.1.recScheme p)))
    | _ => .panic
  | .err => .err
  | .panic => .panic

/-- The result of every `RecordAt` on the decoded value is the same after any history as on the fresh value. -/
def RecHistoryFree (h : Heap) (root : Nat) : Prop :=
  ∀ (l : List Access) (i : Nat), seenRec ((history h l).recordAt root i) = seenRec (h.recordAt root i)

/-- The full claim of C111. -/
def RecordAtIndependent : Prop :=
  ∀ (buf : Bytes) (h : Heap) (root : Nat), allocStd [] buf = (h, .ok root) → RecHistoryFree h root

theorem recordAt_ok {h : Heap} (hc : Coherent h) {id : Nat} {d : StdValue} (hr : RepV h id d) (hk : d.kind = .records) {i : Nat}
    (hi : i < d.size) {e : RecInfo} (he : elemOf decodeRecord d.content i = .ok e) :
    ∃ h' q, h.recordAt id i = (h', .ok (some q)) ∧ Coherent h' ∧ Extends h h' ∧ RepR h' q e := by
  obtain ⟨sl, hs⟩ := hr
  obtain ⟨h', q, h1, h2, h3, h4, -⟩ := lazyAt_ok allocRec_spec hk hc hs hi he
  refine ⟨h', q, ?_, h2, h3, h4⟩
  rw [Heap.recordAt, hs]
  simp only
  rw [if_neg (by simp [hk]), h1]

theorem recordAt_range {h : Heap} {id : Nat} {d : StdValue} (hr : RepV h id d) {i : Nat} (hi : d.kind ≠ .records ∨ d.size ≤ i) :
    h.recordAt id i = (h, .err) := by
  obtain ⟨sl, hs⟩ := hr
  rw [Heap.recordAt, hs]
  simp only
  by_cases hk : d.kind = .records
  · rw [if_neg (by simp [hk]), lazyAt, if_pos (by rcases hi with h | h; exact absurd hk h; exact h)]
  · rw [if_pos hk]

/-- The records of a coherent heap show their value and scheme. -/
theorem seenRec_ok {h : Heap} (hc : Coherent h) {q : Nat} {e : RecInfo} (hr : RepR h q e) :
    seenRec (h, .ok (some q)) = .ok (some (e, some e.value, some e.scheme)) := by
  obtain ⟨v, s, hq⟩ := hr
  obtain ⟨⟨sl1, h1⟩, sl2, h2⟩ := hc q _ hq
  simp only [seenRec, hq, Heap.recValue, Heap.recScheme, seenVal, h1, h2]

/-- C111: a record that is well formed is returned after any history, with the value and the scheme written in it, for the decoded value
and for every value inside it. -/
theorem C111_wellFormed_partial (buf : Bytes) (h : Heap) (root : Nat) (ha : allocStd [] buf = (h, .ok root)) (l : List Access)
    (id : Nat) (d : StdValue) (hid : RepV (history h l) id d) (hk : d.kind = .records) (i : Nat) (hi : i < d.size) (e : RecInfo)
    (he : elemOf decodeRecord d.content i = .ok e) :
    seenRec ((history h l).recordAt id i) = .ok (some (e, some e.value, some e.scheme)) := by
  obtain ⟨hc, -⟩ := history_coherent (allocStd_coherent ha) l
  obtain ⟨h', q, h1, h2, h3, h4⟩ := recordAt_ok hc hid hk hi he
  rw [h1]
  exact seenRec_ok h2 h4

/-- C111: and it is the same object every time, which keeps showing the same value and scheme. -/
theorem C111_same_object_partial (buf : Bytes) (h : Heap) (root : Nat) (ha : allocStd [] buf = (h, .ok root)) (l : List Access)
    (id i p : Nat) (h' : Heap) (hp : (history h l).recordAt id i = (h', .ok (some p))) (l' : List Access) :
    (history h' l').recordAt id i = (history h' l', .ok (some p)) ∧
      seenRec (history h' l', .ok (some p)) = seenRec (h', .ok (some p)) := by
  obtain ⟨hc, -⟩ := history_coherent (allocStd_coherent ha) l
  generalize hH : history h l = H at hc hp
  have hv := hp
  rw [Heap.recordAt] at hv
  rcases hs : H[id]? with - | o
  · rw [hs] at hv; simp at hv
  rcases o with ⟨d, sl⟩ | ⟨r, v, s⟩
  swap
  · rw [hs] at hv; simp at hv
  rw [hs] at hv
  simp only at hv
  by_cases hk : d.kind = .records
  swap
  · rw [if_pos hk] at hv; simp at hv
  rw [if_neg (by simp [hk])] at hv
  have hi : i < d.size := by
    by_contra hge
    rw [lazyAt, if_pos (by omega)] at hv
    simp at hv
  have hel : ∃ e, elemOf decodeRecord d.content i = .ok e := by
    by_contra hne
    push Not at hne
    obtain ⟨f, hf, h1, h2⟩ := exists_first_fail hne
    obtain ⟨q1, q2, q3⟩ := lazyAt_fail allocRec_spec hk hc hs hi hf h1 h2
    rcases q3 with q3 | q3
    · obtain ⟨h'', r1, -⟩ := q1 q3
      rw [hv] at r1
      rcases hx : elemOf decodeRecord d.content f with y | - | -
      · exact absurd hx (h1 y)
      · rw [hx] at r1; simp [failed] at r1
      · rw [hx] at r1; simp [failed] at r1
    · have := q2 q3
      rw [hv] at this
      by_cases hif : i = f
      · rw [if_pos hif] at this; simp at this
      · rw [if_neg hif] at this; simp at this
  obtain ⟨e, hel⟩ := hel
  obtain ⟨h'', q, h1, h2, h3, h4, h5, -⟩ := lazyAt_ok allocRec_spec hk hc hs hi hel
  rw [hv] at h1
  cases h1
  obtain ⟨sl', g1, -⟩ := h3.1 id d sl hs
  rw [slot_eq g1] at h5
  obtain ⟨hc', hx⟩ := history_coherent h2 l'
  obtain ⟨sl'', g2, g3, g4⟩ := hx.1 id d sl' g1
  have g5 := g4 i _ h5 (by simp)
  refine ⟨?_, ?_⟩
  · rw [Heap.recordAt, g2]
    simp only
    rw [if_neg (by simp [hk]), lazyAt, if_neg (by omega), slot_eq g2, g5]
  · rw [seenRec_ok hc' (h4.mono hx), seenRec_ok h2 h4]

/-- Whether a history has tried to read element `f` or a later one of the decoded value. -/
def triedRec (l : List Access) (root f size : Nat) : Prop := ∃ j, Access.record root j ∈ l ∧ f ≤ j ∧ j < size

/-- The mark in the slot of the first malformed element after a history. -/
theorem rec_history_mark {d : StdValue} (hk : d.kind = .records) {f : Nat} (hf : f < d.size) {id : Nat}
    (herr : elemOf decodeRecord d.content f = .err) (hmin : ∀ j, j < f → ∃ x, elemOf decodeRecord d.content j = .ok x) :
    ∀ (l : List Access) (h : Heap) (sl : List Slot), Coherent h → h[id]? = some (.val d sl) → sl[f]? = some .empty →
      ((triedRec l id f d.size ∧ (history h l).slot id f = some .typedNil) ∨
        (¬ triedRec l id f d.size ∧ (history h l).slot id f = some .empty)) := by
  intro l
  induction l with
  | nil =>
    intro h sl hc e hs
    right
    exact ⟨by rintro ⟨j, hj, -⟩; simp at hj, by rw [history, List.foldl_nil, slot_eq e, hs]⟩
  | cons a l ih =>
    intro h sl hc e hs
    have hid := (List.getElem?_eq_some_iff.mp e).1
    have hcoh : Coherent (a.run h) ∧ Extends h (a.run h) := by
      cases a with
      | record id' idx => exact recordAt_coherent hc id' idx
      | value id' idx => exact valueAt_coherent hc id' idx
    obtain ⟨sl', e', hl', hkeep⟩ := hcoh.2.1 id d sl e
    have hfail : ∀ x, elemOf decodeRecord d.content f ≠ .ok x := by intro x; rw [herr]; simp
    have hhist : history h (a :: l) = history (a.run h) l := rfl
    by_cases hcase : ∃ j, a = .record id j ∧ f ≤ j ∧ j < d.size
    · obtain ⟨j, rfl, hj1, hj2⟩ := hcase
      left
      refine ⟨⟨j, by simp, hj1, hj2⟩, ?_⟩
      obtain ⟨q1, -, -⟩ := lazyAt_fail allocRec_spec hk hc e hj2 hj1 hfail hmin
      obtain ⟨h', r1, r2, r3, r4⟩ := q1 hs
      have hrun : (Access.record id j).run h = h' := by
        simp only [Access.run, Heap.recordAt, e]
        rw [if_neg (by simp [hk]), r1]
      rw [hrun] at e' hhist hcoh
      rw [herr, markOf] at r4
      rw [slot_eq e'] at r4
      obtain ⟨sl'', e'', -, hk''⟩ := (history_coherent r2 l).2.1 id d sl' e'
      rw [hhist, slot_eq e'']
      exact hk'' f _ r4 (by simp)
    · have hempty : sl'[f]? = some .empty := by
        cases a with
        | value id' idx =>
          by_cases hh : id' = id
          · subst hh
            have : (Access.value id' idx).run h = h := by
              simp only [Access.run, Heap.valueAt, e]
              rw [if_pos (by simp [hk])]
            rw [this, e] at e'
            cases e'; exact hs
          · have : ((Access.value id' idx).run h)[id]? = h[id]? := valueAt_other hh idx hid
            rw [this, e] at e'
            cases e'; exact hs
        | record id' idx =>
          by_cases hh : id' = id
          · subst hh
            rcases Nat.lt_or_ge idx f with hlt | hge
            · obtain ⟨x, hx⟩ := hmin idx hlt
              obtain ⟨h', q, r1, r2, r3, r4, r5, r6⟩ := lazyAt_ok allocRec_spec hk hc e (by omega) hx
              have hrun : (Access.record id' idx).run h = h' := by
                simp only [Access.run, Heap.recordAt, e]
                rw [if_neg (by simp [hk]), r1]
              have := r6 f hlt hs
              rw [hrun] at e'
              rwa [slot_eq e'] at this
            · have hbig : d.size ≤ idx := by
                by_contra hlt
                exact hcase ⟨idx, rfl, hge, by omega⟩
              have : (Access.record id' idx).run h = h := by
                simp only [Access.run]
                rw [recordAt_range ⟨sl, e⟩ (Or.inr hbig)]
              rw [this, e] at e'
              cases e'; exact hs
          · have : ((Access.record id' idx).run h)[id]? = h[id]? := recordAt_other hh idx hid
            rw [this, e] at e'
            cases e'; exact hs
      have hiff : triedRec (a :: l) id f d.size ↔ triedRec l id f d.size := by
        constructor
        · rintro ⟨j, hj, h1, h2⟩
          rcases List.mem_cons.mp hj with hj | hj
          · exact absurd ⟨j, hj.symm, h1, h2⟩ hcase
          · exact ⟨j, hj, h1, h2⟩
        · rintro ⟨j, hj, h1, h2⟩
          exact ⟨j, by simp [hj], h1, h2⟩
      rw [hiff, hhist]
      exact ih _ sl' hcoh.1 e' hempty

theorem rec_fresh_slot (d : StdValue) (hk : d.kind = .records) {f : Nat} (hf : f < d.size) :
    ∃ sl, freshVal d = .val d sl ∧ sl[f]? = some .empty := by
  refine ⟨_, rfl, ?_⟩
  rw [if_neg (by simp [hk])]
  simp [hf]

/-- After the first malformed element nothing can be read. -/
theorem elemOf_fail_eq {α : Type} {dec : Bytes → Res (α × Nat)} : ∀ {f : Nat} {c : Bytes}, (∀ x, elemOf dec c f ≠ .ok x) →
    ∀ k, elemOf dec c f = elemOf dec c (f + k)
  | 0, c, hne, k => by
    rcases hd : dec c with ⟨y, m⟩ | - | -
    · exact absurd (by simp only [elemOf, hd, Res.bind_ok]) (hne y)
    · cases k <;> simp [elemOf, hd]
    · cases k <;> simp [elemOf, hd]
  | f + 1, c, hne, k => by
    rw [Nat.add_right_comm]
    rcases hd : dec c with ⟨y, m⟩ | - | -
    · simp only [elemOf, hd, Res.bind_ok] at hne ⊢
      exact elemOf_fail_eq hne k
    · simp [elemOf, hd]
    · simp [elemOf, hd]

/-- A slot at which decoding panics stays empty. -/
theorem rec_panic_slot {d : StdValue} (hk : d.kind = .records) {f : Nat} (hf : f < d.size)
    (hpan : elemOf decodeRecord d.content f = .panic) {h : Heap} (hc : Coherent h) {id : Nat} {sl : List Slot}
    (e : h[id]? = some (.val d sl)) : sl[f]? = some .empty := by
  obtain ⟨hw, hl, k, hs⟩ := allocRec_spec.slotsOf h d sl hk (hc id _ e)
  rcases Nat.lt_trichotomy f k with h1 | h1 | h1
  · obtain ⟨p, x, -, h2, -⟩ := hs.filled f h1
    rw [hpan] at h2; exact absurd h2 (by simp)
  · subst h1
    rcases hs.next (by omega) with h2 | ⟨-, h2⟩
    · exact h2
    · rw [hpan] at h2; exact absurd h2 (by simp)
  · exact hs.empty f h1 (by omega)

/-- C111, malformed records: let `f` be the first malformed record of the decoded list, at which decoding gives an error.  Reading it or
a later one is an error the first time; after that reading `f` gives a nil pointer without an error, and reading a later one panics. -/
theorem C111_malformed_partial (buf : Bytes) (h : Heap) (root : Nat) (ha : allocStd [] buf = (h, .ok root)) (d : StdValue)
    (hd : RepV h root d) (hk : d.kind = .records) (f : Nat) (hf : f < d.size) (herr : elemOf decodeRecord d.content f = .err)
    (hmin : ∀ j, j < f → ∃ x, elemOf decodeRecord d.content j = .ok x) (l : List Access) (i : Nat) (hi : f ≤ i) (hi' : i < d.size) :
    (¬ triedRec l root f d.size → seenRec ((history h l).recordAt root i) = .err) ∧
    (triedRec l root f d.size → seenRec ((history h l).recordAt root i) = if i = f then .ok none else .panic) := by
  have hc := allocStd_coherent ha
  have hfail : ∀ x, elemOf decodeRecord d.content f ≠ .ok x := by intro x; rw [herr]; simp
  obtain ⟨d', n, hdec, rfl, rfl⟩ := allocStd_root ha
  obtain ⟨sl0, hsl⟩ := hd
  simp only [List.getElem?_cons_zero, Option.some.injEq] at hsl
  have hdd : d' = d := by
    rw [freshVal] at hsl
    cases hsl; rfl
  subst hdd
  obtain ⟨sl, e1, e2⟩ := rec_fresh_slot d' hk hf
  have e0 : ([freshVal d'] : Heap)[0]? = some (.val d' sl) := by rw [e1]; rfl
  obtain ⟨hc', hx⟩ := history_coherent hc l
  obtain ⟨sl', g1, g2, g3⟩ := hx.1 0 d' sl e0
  have hm := rec_history_mark hk hf herr hmin l _ sl hc e0 e2
  rw [slot_eq g1] at hm
  obtain ⟨q1, q2, -⟩ := lazyAt_fail allocRec_spec hk hc' g1 hi' hi hfail hmin
  have hva : (history [freshVal d'] l).recordAt 0 i = lazyAt allocRec (history [freshVal d'] l) 0 d' i := by
    rw [Heap.recordAt, g1]
    simp only
    rw [if_neg (by simp [hk])]
  rw [hva]
  constructor
  · intro hn
    rcases hm with ⟨h1, -⟩ | ⟨-, h1⟩
    · exact absurd h1 hn
    · obtain ⟨h', r1, r2, r3, r4⟩ := q1 h1
      rw [r1, herr]; rfl
  · intro hy
    rcases hm with ⟨-, h1⟩ | ⟨h1, -⟩
    · rw [q2 h1]
      by_cases hif : i = f
      · rw [if_pos hif, if_pos hif]; rfl
      · rw [if_neg hif, if_neg hif]; rfl
    · exact absurd hy h1

/-- C111, malformed records: if decoding panics at the first malformed record, reading it or a later one panics every time. -/
theorem C111_panics_partial (buf : Bytes) (h : Heap) (root : Nat) (ha : allocStd [] buf = (h, .ok root)) (l : List Access) (id : Nat)
    (d : StdValue) (hd : RepV (history h l) id d) (hk : d.kind = .records) (f : Nat)
    (hpan : elemOf decodeRecord d.content f = .panic) (hmin : ∀ j, j < f → ∃ x, elemOf decodeRecord d.content j = .ok x)
    (i : Nat) (hi : f ≤ i) (hi' : i < d.size) : seenRec ((history h l).recordAt id i) = .panic := by
  obtain ⟨hc, -⟩ := history_coherent (allocStd_coherent ha) l
  obtain ⟨sl, hs⟩ := hd
  have hfail : ∀ x, elemOf decodeRecord d.content f ≠ .ok x := by intro x; rw [hpan]; simp
  obtain ⟨q1, -, -⟩ := lazyAt_fail allocRec_spec hk hc hs hi' hi hfail hmin
  obtain ⟨h', r1, -⟩ := q1 (rec_panic_slot hk (by omega) hpan hc hs)
  rw [Heap.recordAt, hs]
  simp only
  rw [if_neg (by simp [hk]), r1, hpan]
  rfl

/-- C111: the results are independent of the history exactly when no announced record makes decoding give an error: all are well formed,
or at the first malformed one decoding panics. -/
theorem C111_independent_iff_partial (buf : Bytes) (h : Heap) (root : Nat) (ha : allocStd [] buf = (h, .ok root)) (d : StdValue)
    (hd : RepV h root d) :
    RecHistoryFree h root ↔ (d.kind = .records → ∀ i, i < d.size → elemOf decodeRecord d.content i ≠ .err) := by
  have first : ∀ i, (∀ x, elemOf decodeRecord d.content i ≠ .ok x) → ∃ f, f ≤ i ∧
      elemOf decodeRecord d.content f = elemOf decodeRecord d.content i ∧
      ∀ j, j < f → ∃ x, elemOf decodeRecord d.content j = .ok x := by
    intro i hne
    obtain ⟨f, hfi, h1, h2⟩ := exists_first_fail hne
    exact ⟨f, hfi, by
      obtain ⟨k, rfl⟩ := Nat.exists_eq_add_of_le hfi
      exact elemOf_fail_eq h1 k, h2⟩
  constructor
  · intro hf hk i hi hne
    obtain ⟨f, hfi, h1, h2⟩ := first i (by intro x; rw [hne]; simp)
    rw [hne] at h1
    have hfs : f < d.size := by omega
    have q1 := (C111_malformed_partial buf h root ha d hd hk f hfs h1 h2 [] f (Nat.le_refl _) hfs).1 (by
      rintro ⟨j, hj, -⟩; simp at hj)
    have q2 := (C111_malformed_partial buf h root ha d hd hk f hfs h1 h2 [.record root f] f (Nat.le_refl _) hfs).2
      ⟨f, by simp, Nat.le_refl _, hfs⟩
    have q3 := hf [.record root f] f
    rw [q2, if_pos rfl] at q3
    have q4 : seenRec (h.recordAt root f) = .err := q1
    rw [q4] at q3
    exact absurd q3 (by simp)
  · intro hall l i
    obtain ⟨-, hx⟩ := history_coherent (allocStd_coherent ha) l
    have hd' := hd.mono hx
    by_cases hr : d.kind ≠ .records ∨ d.size ≤ i
    · rw [recordAt_range hd hr, recordAt_range hd' hr]; rfl
    · push Not at hr
      by_cases hok : ∃ e, elemOf decodeRecord d.content i = .ok e
      · obtain ⟨e, he⟩ := hok
        rw [C111_wellFormed_partial buf h root ha l root d hd' hr.1 i hr.2 e he]
        exact (C111_wellFormed_partial buf h root ha [] root d hd hr.1 i hr.2 e he).symm
      · push Not at hok
        obtain ⟨f, hfi, h1, h2⟩ := first i hok
        have hpan : elemOf decodeRecord d.content f = .panic := by
          rw [h1]
          rcases hx : elemOf decodeRecord d.content i with y | - | -
          · exact absurd hx (hok y)
          · exact absurd hx (hall hr.1 i hr.2)
          · rfl
        rw [C111_panics_partial buf h root ha l root d hd' hr.1 f hpan h2 i hfi hr.2]
        exact (C111_panics_partial buf h root ha [] root d hd hr.1 f hpan h2 i hfi hr.2).symm

/-- C111 as stated does not hold: a malformed record is an error once and a nil pointer afterwards. -/
theorem C111_refuted : ¬ RecordAtIndependent := by
  intro hall
  have := (C111_independent_iff_partial [0x11, 1, 0] _ 0 rfl ⟨[0x11, 1, 0], .records, 1, []⟩ ⟨_, rfl⟩).mp
    (hall [0x11, 1, 0] _ 0 rfl) rfl 0 (by decide)
  exact this (by decide +kernel)

/-- A list announcing three records, of which the second is cut off. -/
def cutRecords : Bytes := [0x11, 3, 7, 0x70, 0x00, 0x01, 1, 0x61, 0x00, 0x70]

/-- C111: the hypotheses of `C111_wellFormed_partial`. -/
example := C111_wellFormed_partial cutRecords _ 0 rfl [.value 0 1] 0 ⟨cutRecords, .records, 3, cutRecords.drop 3⟩ ⟨_, rfl⟩ rfl 0 (by decide) _ rfl

/-- A list of two records, of which the second has no key. -/
def keylessRecords : Bytes := [0x11, 2, 7, 0x70, 0x00, 0x01, 1, 0x61, 0x00, 0x00]

/-- The first record of both lists. -/
theorem firstRecord : (∃ x, elemOf decodeRecord (cutRecords.drop 3) 0 = .ok x) ∧
    ∃ x, elemOf decodeRecord (keylessRecords.drop 3) 0 = .ok x :=
  ⟨⟨⟨[0x70, 0x00, 0x01, 1, 0x61, 0x00], ⟨[], [0x00, 0x01, 1, 0x61, 0x00, 0x70]⟩, ⟨[0x01, 1, 0x61], .prim, 0, [0x61]⟩,
    ⟨[0x00], .prim, 0, []⟩, none, none⟩, by decide +kernel⟩,
   ⟨[0x70, 0x00, 0x01, 1, 0x61, 0x00], ⟨[], [0x00, 0x01, 1, 0x61, 0x00, 0x00]⟩, ⟨[0x01, 1, 0x61], .prim, 0, [0x61]⟩,
    ⟨[0x00], .prim, 0, []⟩, none, none⟩, by decide +kernel⟩

example : ∃ h root, allocStd [] cutRecords = (h, .ok root) ∧ RepV h root ⟨cutRecords, .records, 3, cutRecords.drop 3⟩ ∧
    elemOf decodeRecord (cutRecords.drop 3) 1 = .err ∧ ∀ j, j < 1 → ∃ x, elemOf decodeRecord (cutRecords.drop 3) j = .ok x := by
  refine ⟨_, 0, rfl, ⟨_, rfl⟩, by decide +kernel, ?_⟩
  intro j hj
  obtain rfl : j = 0 := by omega
  exact firstRecord.1

example : ∃ h root, allocStd [] keylessRecords = (h, .ok root) ∧ RepV h root ⟨keylessRecords, .records, 2, keylessRecords.drop 3⟩ ∧
    elemOf decodeRecord (keylessRecords.drop 3) 1 = .panic ∧
    ∀ j, j < 1 → ∃ x, elemOf decodeRecord (keylessRecords.drop 3) j = .ok x := by
  refine ⟨_, 0, rfl, ⟨_, rfl⟩, by decide +kernel, ?_⟩
  intro j hj
  obtain rfl : j = 0 := by omega
  exact firstRecord.2

example : ∃ h root, allocStd [] cutRecords = (h, .ok root) ∧ ((history h [.value 0 1]).recordAt root 0).2 = .ok (some 3) :=
  ⟨_, 0, rfl, by decide +kernel⟩

example := C111_same_object_partial cutRecords _ 0 rfl [.value 0 1] 0 0 3 _ (Prod.ext rfl (by decide +kernel)) [.record 0 2, .record 0 0]

example := C111_malformed_partial cutRecords _ 0 rfl ⟨cutRecords, .records, 3, cutRecords.drop 3⟩ ⟨_, rfl⟩ rfl 1 (by decide) (by decide +kernel)
  (fun j hj => by obtain rfl : j = 0 := (by omega); exact firstRecord.1) [.record 0 2] 2 (by decide) (by decide)

example := C111_panics_partial keylessRecords _ 0 rfl [] 0 ⟨keylessRecords, .records, 2, keylessRecords.drop 3⟩ ⟨_, rfl⟩ rfl 1 (by decide +kernel)
  (fun j hj => by obtain rfl : j = 0 := (by omega); exact firstRecord.2) 1 (by decide) (by decide)

example := C111_independent_iff_partial cutRecords _ 0 rfl ⟨cutRecords, .records, 3, cutRecords.drop 3⟩ ⟨_, rfl⟩

end Poodle.Props
