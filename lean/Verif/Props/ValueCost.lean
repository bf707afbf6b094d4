import Verif.Props.RecordHeap
import Verif.Spec.ValueCost

namespace Poodle.Props
open Poodle Spec

/-! ### The counting functions do what the others do -/

theorem lazyLoopW_res (alloc : Heap → Bytes → Heap × Res Nat) (content : Bytes) (id : Nat) :
    ∀ (n i pos : Nat) (h : Heap) (w c : Nat), (lazyLoopW alloc content id n i pos h w c).res = lazyLoop alloc content id n i pos h := by
  intro n
  induction n with
  | zero => intros; rfl
  | succ n ih =>
    intro i pos h w c
    rw [lazyLoopW, lazyLoop]
    rcases h.slot id i with - | s
    · rfl
    rcases s with - | - | p
    · simp only
      by_cases hp : content.length < pos
      · rw [if_pos hp, if_pos hp]
      · rw [if_neg hp, if_neg hp]
        rcases alloc h (content.drop pos) with ⟨h', r⟩
        rcases r with p | - | -
        · simp only
          rcases h'[p]? with - | o
          · rfl
          · exact ih _ _ _ _ _
        · rfl
        · rfl
    · rfl
    · simp only
      rcases h[p]? with - | o
      · rfl
      · exact ih _ _ _ _ _

theorem lazyAtW_res (alloc : Heap → Bytes → Heap × Res Nat) (h : Heap) (id : Nat) (d : StdValue) (idx : Nat) :
    (lazyAtW alloc h id d idx).res = lazyAt alloc h id d idx := by
  rw [lazyAtW, lazyAt]
  split
  · rfl
  · rcases h.slot id idx with - | s
    · rfl
    rcases s with - | - | p
    · simp only
      rw [← lazyLoopW_res alloc d.content id (idx + 1) 0 0 h 0 0]
      rcases lazyLoopW alloc d.content id (idx + 1) 0 0 h 0 0 with ⟨w, c, h', r⟩
      rcases r with - | - | -
      · simp only
        rcases h'.slot id idx with - | s
        · rfl
        · cases s <;> rfl
      · rfl
      · rfl
    · rfl
    · rfl

theorem valueAtW_res (h : Heap) (id idx : Nat) : (h.valueAtW id idx).res = h.valueAt id idx := by
  rw [Heap.valueAtW, Heap.valueAt]
  rcases h[id]? with - | o
  · rfl
  · rcases o with ⟨d, sl⟩ | ⟨r, v, s⟩
    · simp only
      split
      · rfl
      · exact lazyAtW_res _ _ _ _ _
    · rfl

theorem recordAtW_res (h : Heap) (id idx : Nat) : (h.recordAtW id idx).res = h.recordAt id idx := by
  rw [Heap.recordAtW, Heap.recordAt]
  rcases h[id]? with - | o
  · rfl
  · rcases o with ⟨d, sl⟩ | ⟨r, v, s⟩
    · simp only
      split
      · rfl
      · exact lazyAtW_res _ _ _ _ _
    · rfl

/-! ### Rounds and decoded elements of one read -/

theorem lazyLoopW_rounds (alloc : Heap → Bytes → Heap × Res Nat) (content : Bytes) (id : Nat) :
    ∀ (n i pos : Nat) (h : Heap) (w c : Nat), (lazyLoopW alloc content id n i pos h w c).rounds ≤ w + n ∧
      ((lazyLoop alloc content id n i pos h).2 = .ok () → (lazyLoopW alloc content id n i pos h w c).rounds = w + n) := by
  intro n
  induction n with
  | zero => intros; exact ⟨Nat.le_refl _, fun _ => rfl⟩
  | succ n ih =>
    intro i pos h w c
    rw [lazyLoopW, lazyLoop]
    rcases h.slot id i with - | s
    · exact ⟨by simp only; omega, by simp⟩
    rcases s with - | - | p
    · simp only
      by_cases hp : content.length < pos
      · rw [if_pos hp, if_pos hp]; exact ⟨by simp only; omega, by simp⟩
      · rw [if_neg hp, if_neg hp]
        rcases alloc h (content.drop pos) with ⟨h', r⟩
        rcases r with p | - | -
        · simp only
          rcases h'[p]? with - | o
          · exact ⟨by simp only; omega, by simp⟩
          · obtain ⟨h1, h2⟩ := ih (i + 1) (pos + o.bufLen) (h'.setSlot id i (.obj p)) (w + 1) (c + 1)
            exact ⟨by simp only; omega, fun e => by simp only; rw [h2 e]; omega⟩
        · exact ⟨by simp only; omega, by simp⟩
        · exact ⟨by simp only; omega, by simp⟩
    · exact ⟨by simp only; omega, by simp⟩
    · simp only
      rcases h[p]? with - | o
      · exact ⟨by simp only; omega, by simp⟩
      · obtain ⟨h1, h2⟩ := ih (i + 1) (pos + o.bufLen) h (w + 1) c
        exact ⟨by simp only; omega, fun e => by simp only; rw [h2 e]; omega⟩

/-- The number of empty slots of an object. -/
def emptySlots (h : Heap) (id : Nat) : Nat :=
  match h[id]? with
  | some (.val _ sl) => sl.countP (· = Slot.empty)
  | _ => 0

theorem emptySlots_eq {h : Heap} {id : Nat} {d : StdValue} {sl : List Slot} (e : h[id]? = some (.val d sl)) :
    emptySlots h id = sl.countP (· = Slot.empty) := by
  rw [emptySlots, e]

theorem countP_set {sl : List Slot} : ∀ {i : Nat} {s : Slot}, sl[i]? = some .empty → s ≠ .empty →
    (sl.set i s).countP (· = Slot.empty) + 1 = sl.countP (· = Slot.empty) := by
  induction sl with
  | nil => intro i s h; simp at h
  | cons a l ih =>
    intro i s h hs
    cases i with
    | zero =>
      simp only [List.getElem?_cons_zero, Option.some.injEq] at h
      subst h
      rw [List.set_cons_zero, List.countP_cons_of_neg (by simpa using hs), List.countP_cons_of_pos (by simp)]
    | succ i =>
      simp only [List.getElem?_cons_succ] at h
      rw [List.set_cons_succ, List.countP_cons, List.countP_cons, ← ih h hs]
      omega

theorem slot_obj {h : Heap} {id i : Nat} {s : Slot} (e : h.slot id i = some s) : ∃ d sl, h[id]? = some (.val d sl) ∧ sl[i]? = some s := by
  rw [Heap.slot] at e
  rcases hs : h[id]? with - | o
  · rw [hs] at e; simp at e
  · rw [hs] at e
    rcases o with ⟨d, sl⟩ | ⟨r, v, w⟩
    · exact ⟨d, sl, rfl, e⟩
    · simp at e

/-- Filling an empty slot. -/
theorem emptySlots_set {h ext : Heap} {id i : Nat} {s : Slot} (e : h.slot id i = some .empty) (hs : s ≠ .empty) :
    emptySlots ((h ++ ext).setSlot id i s) id + 1 = emptySlots h id := by
  obtain ⟨d, sl, e1, e2⟩ := slot_obj e
  have hid := (List.getElem?_eq_some_iff.mp e1).1
  have e3 : (h ++ ext)[id]? = some (.val d sl) := by rw [List.getElem?_append_left hid]; exact e1
  rw [setSlot_eq e3, emptySlots_eq (d := d) (sl := sl.set i s), emptySlots_eq e1]
  · exact countP_set e2 hs
  · rw [List.getElem?_set_self (by simp; omega)]

theorem emptySlots_append {h ext : Heap} {id : Nat} (hid : id < h.length) : emptySlots (h ++ ext) id = emptySlots h id := by
  rw [emptySlots, emptySlots, List.getElem?_append_left hid]

/-- Every element decoded fills a slot, unless decoding it panics. -/
theorem lazyLoopW_decodes {alloc : Heap → Bytes → Heap × Res Nat} (ha : ∀ h buf, ∃ ext, (alloc h buf).1 = h ++ ext) (content : Bytes)
    (id : Nat) : ∀ (n i pos : Nat) (h : Heap) (w c : Nat), id < h.length →
      (lazyLoopW alloc content id n i pos h w c).decodes + emptySlots (lazyLoop alloc content id n i pos h).1 id ≤
        c + emptySlots h id + panics (lazyLoop alloc content id n i pos h).2 ∧
      ((∀ h buf, (alloc h buf).2 ≠ .panic) →
        ((∀ h buf h' p, alloc h buf = (h', .ok p) → p < h'.length) →
        (lazyLoopW alloc content id n i pos h w c).decodes + emptySlots (lazyLoop alloc content id n i pos h).1 id =
          c + emptySlots h id)) ∧
      ((lazyLoop alloc content id n i pos h).2 = .ok () →
        (lazyLoopW alloc content id n i pos h w c).decodes + emptySlots (lazyLoop alloc content id n i pos h).1 id =
          c + emptySlots h id) := by
  intro n
  induction n with
  | zero => intros; exact ⟨by simp [lazyLoop, lazyLoopW], fun _ _ => rfl, fun _ => rfl⟩
  | succ n ih =>
    intro i pos h w c hid
    rw [lazyLoopW, lazyLoop]
    rcases hsl : h.slot id i with - | s
    · exact ⟨by simp, fun _ _ => rfl, fun _ => rfl⟩
    rcases s with - | - | p
    · simp only
      by_cases hp : content.length < pos
      · rw [if_pos hp, if_pos hp]; exact ⟨by simp, fun _ _ => rfl, fun _ => rfl⟩
      · rw [if_neg hp, if_neg hp]
        have hal := ha h (content.drop pos)
        rcases hr : alloc h (content.drop pos) with ⟨h', r⟩
        rw [hr] at hal
        obtain ⟨ext, hext⟩ := hal
        simp only at hext
        subst hext
        rcases r with p | - | -
        · simp only
          rcases hpo : (h ++ ext)[p]? with - | o
          · refine ⟨by simp only [panics]; rw [emptySlots_append hid]; omega, fun _ hin => ?_, by simp⟩
            have := hin _ _ _ _ hr
            rw [List.getElem?_eq_none_iff] at hpo
            omega
          · have hE := emptySlots_set (ext := ext) hsl (s := .obj p) (by simp)
            obtain ⟨h1, h2, h3⟩ := ih (i + 1) (pos + o.bufLen) ((h ++ ext).setSlot id i (.obj p)) (w + 1) (c + 1)
              (by rw [setSlot_length]; simp; omega)
            simp only
            exact ⟨by omega, fun g1 g2 => by have := h2 g1 g2; omega, fun g => by have := h3 g; omega⟩
        · have hE := emptySlots_set (ext := ext) hsl (s := .typedNil) (by simp)
          simp only
          exact ⟨by simp only [panics]; omega, fun g1 g2 => by omega, by simp⟩
        · simp only
          rw [emptySlots_append hid]
          exact ⟨by simp only [panics]; omega, fun g1 => absurd (by rw [hr]) (g1 h (content.drop pos)), by simp⟩
    · exact ⟨by simp, fun _ _ => rfl, fun _ => rfl⟩
    · simp only
      rcases h[p]? with - | o
      · exact ⟨by simp, fun _ _ => rfl, fun _ => rfl⟩
      · exact ih _ _ _ _ _ hid

theorem lazyAtW_rounds_le (alloc : Heap → Bytes → Heap × Res Nat) (h : Heap) (id : Nat) (d : StdValue) (idx : Nat) :
    (lazyAtW alloc h id d idx).rounds ≤ idx + 1 := by
  rw [lazyAtW]
  split
  · exact Nat.zero_le _
  · rcases h.slot id idx with - | s
    · exact Nat.zero_le _
    rcases s with - | - | p
    · simp only
      have := (lazyLoopW_rounds alloc d.content id (idx + 1) 0 0 h 0 0).1
      rcases he : lazyLoopW alloc d.content id (idx + 1) 0 0 h 0 0 with ⟨w, c, h', r⟩
      rw [he] at this
      simp only at this
      rcases r with - | - | -
      · simp only
        rcases h'.slot id idx with - | s
        · simp only; omega
        · cases s <;> (simp only; omega)
      · simp only; omega
      · simp only; omega
    · exact Nat.zero_le _
    · exact Nat.zero_le _

theorem lazyAtW_decodes {alloc : Heap → Bytes → Heap × Res Nat} (ha : ∀ h buf, ∃ ext, (alloc h buf).1 = h ++ ext) {h : Heap} {id : Nat}
    (hid : id < h.length) (d : StdValue) (idx : Nat) :
    (lazyAtW alloc h id d idx).decodes + emptySlots (lazyAt alloc h id d idx).1 id ≤
      emptySlots h id + panics (lazyAt alloc h id d idx).2 ∧
    ((∀ h buf, (alloc h buf).2 ≠ .panic) → (∀ h buf h' p, alloc h buf = (h', .ok p) → p < h'.length) →
      (lazyAtW alloc h id d idx).decodes + emptySlots (lazyAt alloc h id d idx).1 id = emptySlots h id) ∧
    (∀ p, (lazyAt alloc h id d idx).2 = .ok p →
      (lazyAtW alloc h id d idx).decodes + emptySlots (lazyAt alloc h id d idx).1 id = emptySlots h id) := by
  rw [lazyAtW, lazyAt]
  split
  · exact ⟨by simp, fun _ _ => by simp, fun _ _ => by simp⟩
  · rcases h.slot id idx with - | s
    · exact ⟨by simp, fun _ _ => by simp, fun _ _ => by simp⟩
    rcases s with - | - | p
    · simp only
      obtain ⟨h1, h2, h3⟩ := lazyLoopW_decodes ha d.content id (idx + 1) 0 0 h 0 0 hid
      have he := lazyLoopW_res alloc d.content id (idx + 1) 0 0 h 0 0
      rcases hw : lazyLoopW alloc d.content id (idx + 1) 0 0 h 0 0 with ⟨w, c, h', r⟩
      rw [hw] at he h1 h2 h3
      rw [← he] at h1 h2 h3
      rw [← he]
      rcases r with u | - | -
      · simp only at h1 h2 h3 ⊢
        have h4 := h3 trivial
        rcases h'.slot id idx with - | s
        · simp only; exact ⟨by omega, fun _ _ => by omega, fun _ _ => by omega⟩
        · cases s <;> (simp only; exact ⟨by omega, fun _ _ => by omega, fun _ _ => by omega⟩)
      · simp only at h1 h2 h3 ⊢
        exact ⟨by simp only [panics] at h1 ⊢; omega, fun g1 g2 => by have := h2 g1 g2; omega, by simp⟩
      · simp only at h1 h2 h3 ⊢
        exact ⟨by simp only [panics] at h1 ⊢; omega, fun g1 g2 => by have := h2 g1 g2; omega, by simp⟩
    · exact ⟨by simp, fun _ _ => by simp, fun _ _ => by simp⟩
    · exact ⟨by simp, fun _ _ => by simp, fun _ _ => by simp⟩

/-! ### Accesses -/

theorem allocStd_no_panic (h : Heap) (buf : Bytes) : (allocStd h buf).2 ≠ .panic := by
  rw [allocStd]
  rcases hd : decodeStd buf with ⟨d, n⟩ | - | -
  · simp
  · simp
  · exact absurd hd (decodeStd_ne_panic buf)

theorem allocStd_inside (h : Heap) (buf : Bytes) (h' : Heap) (p : Nat) (e : allocStd h buf = (h', .ok p)) : p < h'.length := by
  rw [allocStd] at e
  rcases hd : decodeStd buf with ⟨d, n⟩ | - | -
  · rw [hd] at e
    simp only [Prod.mk.injEq, Res.ok.injEq] at e
    rw [← e.1, ← e.2]; simp
  · rw [hd] at e; simp at e
  · rw [hd] at e; simp at e

theorem access_other {h : Heap} {root : Nat} (hr : root < h.length) {a : Access} {id : Nat}
    (ha : (∃ i, a = .value id i) ∨ ∃ i, a = .record id i) (hne : id ≠ root) :
    (a.run h)[root]? = h[root]? ∧ (a.work h root).rounds = 0 ∧ (a.work h root).decodes = 0 := by
  rcases ha with ⟨i, rfl⟩ | ⟨i, rfl⟩
  · exact ⟨valueAt_other hne i hr, by simp [Access.work, hne], by simp [Access.work, hne]⟩
  · exact ⟨recordAt_other hne i hr, by simp [Access.work, hne], by simp [Access.work, hne]⟩

theorem emptySlots_congr {h h' : Heap} {root : Nat} (e : h'[root]? = h[root]?) : emptySlots h' root = emptySlots h root := by
  rw [emptySlots, emptySlots, e]

/-- One access decodes at most the elements whose slots it fills, and one more if it panics; with `ValueAt` not even that. -/
theorem access_decodes {h : Heap} {root : Nat} {d : StdValue} (hr : RepV h root d) (a : Access) :
    (a.work h root).decodes + emptySlots (a.run h) root ≤ emptySlots h root + panics (a.work h root).res ∧
    (d.kind = .array → (a.work h root).decodes + emptySlots (a.run h) root = emptySlots h root) := by
  obtain ⟨sl, e⟩ := hr
  have hid := (List.getElem?_eq_some_iff.mp e).1
  cases a with
  | value id i =>
    by_cases hne : id = root
    · subst hne
      simp only [Access.work, Access.run, if_true, valueAtW_res]
      rw [Heap.valueAtW, Heap.valueAt, e]
      simp only
      by_cases hk : d.kind = .array
      · rw [if_neg (by simp [hk]), if_neg (by simp [hk])]
        obtain ⟨h1, h2, -⟩ := lazyAtW_decodes allocStd_append hid d i
        exact ⟨h1, fun _ => h2 allocStd_no_panic allocStd_inside⟩
      · rw [if_pos hk, if_pos hk]
        exact ⟨by simp, fun _ => by simp⟩
    · obtain ⟨h1, -, h3⟩ := access_other hid (a := .value id i) (Or.inl ⟨i, rfl⟩) hne
      rw [h3, emptySlots_congr h1]
      exact ⟨by omega, fun _ => by omega⟩
  | record id i =>
    by_cases hne : id = root
    · subst hne
      simp only [Access.work, Access.run, if_true, recordAtW_res]
      rw [Heap.recordAtW, Heap.recordAt, e]
      simp only
      by_cases hk : d.kind = .records
      · rw [if_neg (by simp [hk]), if_neg (by simp [hk])]
        obtain ⟨h1, h2, -⟩ := lazyAtW_decodes allocRec_append hid d i
        exact ⟨h1, fun h => absurd h (by simp [hk])⟩
      · rw [if_pos hk, if_pos hk]
        exact ⟨by simp, fun _ => by simp⟩
    · obtain ⟨h1, -, h3⟩ := access_other hid (a := .record id i) (Or.inr ⟨i, rfl⟩) hne
      rw [h3, emptySlots_congr h1]
      exact ⟨by omega, fun _ => by omega⟩

theorem run_coherent {h : Heap} (hc : Coherent h) (a : Access) : Coherent (a.run h) ∧ Extends h (a.run h) := by
  cases a with
  | value id idx => exact valueAt_coherent hc id idx
  | record id idx => exact recordAt_coherent hc id idx

theorem history_decodes {root : Nat} {d : StdValue} : ∀ (l : List Access) (h : Heap), Coherent h → RepV h root d →
    totalDecodes root h l + emptySlots (history h l) root ≤ emptySlots h root + totalPanics root h l ∧
    (d.kind = .array → totalDecodes root h l + emptySlots (history h l) root = emptySlots h root) := by
  intro l
  induction l with
  | nil => intro h _ _; exact ⟨by simp [totalDecodes, history], fun _ => by simp [totalDecodes, history]⟩
  | cons a l ih =>
    intro h hc hr
    obtain ⟨g1, g2⟩ := run_coherent hc a
    obtain ⟨q1, q2⟩ := ih _ g1 (hr.mono g2)
    obtain ⟨p1, p2⟩ := access_decodes hr a
    have hh : history h (a :: l) = history (a.run h) l := rfl
    rw [totalDecodes, totalPanics, hh]
    exact ⟨by omega, fun hk => by have := q2 hk; have := p2 hk; omega⟩

theorem emptySlots_fresh {buf : Bytes} {h : Heap} {root : Nat} (ha : allocStd [] buf = (h, .ok root)) {d : StdValue} (hd : RepV h root d) :
    emptySlots h root ≤ d.size ∧ (d.kind ≠ .prim → emptySlots h root = d.size) := by
  obtain ⟨d', n, hdec, rfl, rfl⟩ := allocStd_root ha
  obtain ⟨sl, hsl⟩ := hd
  have hdd : d' = d := by
    simp only [List.getElem?_cons_zero, Option.some.injEq] at hsl
    rw [freshVal] at hsl
    cases hsl; rfl
  subst hdd
  rw [emptySlots, freshVal]
  simp only [List.getElem?_cons_zero]
  rw [List.countP_replicate]
  simp only [decide_true, if_true]
  exact ⟨by split <;> omega, fun hk => by rw [if_neg hk]⟩

/-! ### C180: elements are decoded once -/

/-- The full claim of C180: however the elements of a decoded array or list are read, no more elements are decoded than there are. -/
def DecodedOnce : Prop := ∀ (buf : Bytes) (h : Heap) (root : Nat) (d : StdValue), allocStd [] buf = (h, .ok root) → RepV h root d →
  ∀ l : List Access, totalDecodes root h l ≤ d.size

/-- C180 for arrays of values, well formed or not. -/
theorem C180_values_partial (buf : Bytes) (h : Heap) (root : Nat) (d : StdValue) (ha : allocStd [] buf = (h, .ok root))
    (hd : RepV h root d) (hk : d.kind = .array) (l : List Access) : totalDecodes root h l ≤ d.size := by
  have h1 := (history_decodes l h (allocStd_coherent ha) hd).2 hk
  have h2 := (emptySlots_fresh ha hd).1
  omega

example := C180_values_partial [0x41, 3, 2, 0x00, 0xff] _ 0 ⟨[0x41, 3, 2, 0x00, 0xff], .array, 3, [0x00, 0xff]⟩ rfl ⟨_, rfl⟩ rfl
  [.value 0 2, .value 0 0, .value 0 1, .value 0 2]

example : totalDecodes 0 (allocStd [] [0x41, 3, 2, 0x00, 0xff]).1 [.value 0 2, .value 0 0, .value 0 1, .value 0 2] = 2 := by decide +kernel

/-- C180 for lists of records: up to one more for each read that panics. -/
theorem C180_records_partial (buf : Bytes) (h : Heap) (root : Nat) (d : StdValue) (ha : allocStd [] buf = (h, .ok root))
    (hd : RepV h root d) (l : List Access) : totalDecodes root h l ≤ d.size + totalPanics root h l := by
  have h1 := (history_decodes l h (allocStd_coherent ha) hd).1
  have h2 := (emptySlots_fresh ha hd).1
  omega

example := C180_records_partial keylessRecords _ 0 ⟨keylessRecords, .records, 2, keylessRecords.drop 3⟩ rfl ⟨_, rfl⟩
  [.record 0 1, .record 0 0, .record 0 1, .record 0 1]

example : totalDecodes 0 (allocStd [] keylessRecords).1 [.record 0 1, .record 0 0, .record 0 1, .record 0 1] = 4 ∧
    totalPanics 0 (allocStd [] keylessRecords).1 [.record 0 1, .record 0 0, .record 0 1, .record 0 1] = 3 := by decide +kernel

/-- C180 as stated does not hold: a record without a key is decoded again each time it is read. -/
theorem C180_refuted : ¬ DecodedOnce := by
  intro hall
  have := hall keylessRecords _ 0 ⟨keylessRecords, .records, 2, keylessRecords.drop 3⟩ rfl ⟨_, rfl⟩ [.record 0 1, .record 0 1]
  revert this
  decide +kernel

/-! ### C179: rounds -/

/-- Exactly the first `k` elements have been read. -/
def FilledTo (h : Heap) (root : Nat) (d : StdValue) (k : Nat) : Prop :=
  ∃ sl, h[root]? = some (.val d sl) ∧ sl.length = d.size ∧ (∀ j, j < k → ∃ p, sl[j]? = some (.obj p)) ∧
    ∀ j, k ≤ j → j < d.size → sl[j]? = some .empty

section
variable {α : Type} {alloc : Heap → Bytes → Heap × Res Nat} {dec : Bytes → Res (α × Nat)} {rep : Heap → Nat → α → Prop} {kind : VKind}

theorem lazyAt_step (A : AllocSpec alloc dec rep kind) {root : Nat} {d : StdValue} (hkind : d.kind = kind) {h : Heap} (hc : Coherent h)
    {k : Nat} (hf : FilledTo h root d k) {i : Nat} (hi : i < d.size) (hx : ∃ x, elemOf dec d.content i = .ok x) :
    (lazyAtW alloc h root d i).rounds = (if i < k then 0 else i + 1) ∧ FilledTo (lazyAt alloc h root d i).1 root d (max k (i + 1)) ∧
      ∃ p, (lazyAt alloc h root d i).2 = .ok (some p) := by
  obtain ⟨x, hx⟩ := hx
  obtain ⟨sl, e, hl, f1, f2⟩ := hf
  obtain ⟨h', p, r1, r2, r3, r4, r5, r6⟩ := lazyAt_ok A hkind hc e hi hx
  rw [r1]
  rcases Nat.lt_or_ge i k with hik | hik
  · obtain ⟨q, hq⟩ := f1 i hik
    have hh : lazyAt alloc h root d i = (h, .ok (some q)) := by rw [lazyAt, if_neg (by omega), slot_eq e, hq]
    rw [hh] at r1
    cases r1
    refine ⟨?_, ⟨sl, e, hl, ?_, ?_⟩, _, rfl⟩
    · rw [lazyAtW, if_neg (by omega), slot_eq e, hq, if_pos hik]
    · rw [Nat.max_eq_left (by omega)]; exact f1
    · rw [Nat.max_eq_left (by omega)]; exact f2
  · have hie := f2 i hik hi
    obtain ⟨sl', e', hl', hkeep⟩ := r3.1 root d sl e
    refine ⟨?_, ⟨sl', e', by omega, ?_, ?_⟩, _, rfl⟩
    · rw [if_neg (by omega), lazyAtW, if_neg (by omega), slot_eq e, hie]
      simp only
      have hr := lazyLoopW_res alloc d.content root (i + 1) 0 0 h 0 0
      have hn := (lazyLoopW_rounds alloc d.content root (i + 1) 0 0 h 0 0).2
      rw [lazyAt, if_neg (by omega), slot_eq e, hie] at r1
      simp only at r1
      rcases hlo : lazyLoop alloc d.content root (i + 1) 0 0 h with ⟨h1, r⟩
      rw [hlo] at r1 hr hn
      rcases r with u | - | -
      · have := hn rfl
        rcases hw : lazyLoopW alloc d.content root (i + 1) 0 0 h 0 0 with ⟨w, c, hr2⟩
        rw [hw] at this hr
        simp only at this hr
        subst hr
        simp only
        rcases h1.slot root i with - | s
        · simp only; omega
        · cases s <;> (simp only; omega)
      · simp at r1
      · simp at r1
    · rw [Nat.max_eq_right (by omega)]
      intro j hj
      obtain ⟨-, -, k', hs'⟩ := A.slotsOf h' d sl' hkind (r2 root _ e')
      rw [slot_eq e'] at r5
      have hjk : j < k' := by
        by_contra hge
        have hik' : k' ≤ i := by omega
        rcases Nat.lt_or_ge k' i with h1 | h1
        · rw [hs'.empty i h1 (by omega)] at r5; simp at r5
        · obtain rfl : k' = i := by omega
          rcases hs'.next (by omega) with h2 | ⟨h2, -⟩
          · rw [h2] at r5; simp at r5
          · rw [h2] at r5; simp at r5
      obtain ⟨q, y, h1, -⟩ := hs'.filled j hjk
      exact ⟨q, h1⟩
    · rw [Nat.max_eq_right (by omega)]
      intro j hj hj2
      have := r6 j (by omega) (f2 j (by omega) hj2)
      rwa [slot_eq e'] at this

end

theorem FilledTo.congr {h h' : Heap} {root : Nat} {d : StdValue} {k : Nat} (hf : FilledTo h root d k) (e : h'[root]? = h[root]?) :
    FilledTo h' root d k := by
  obtain ⟨sl, h1, h2⟩ := hf
  exact ⟨sl, by rw [e, h1], h2⟩

theorem FilledTo.rep {h : Heap} {root : Nat} {d : StdValue} {k : Nat} (hf : FilledTo h root d k) : RepV h root d := by
  obtain ⟨sl, h1, h2⟩ := hf
  exact ⟨sl, h1⟩

/-- What one access to a state with the first `k` elements read costs. -/
def roundsOf (k : Nat) : Option Nat → Nat
  | none => 0
  | some i => if i < k then 0 else i + 1

/-- How far the elements are read after it. -/
def reachOf (k : Nat) : Option Nat → Nat
  | none => k
  | some i => max k (i + 1)

theorem access_step {root : Nat} {d : StdValue} {h : Heap} (hc : Coherent h) {k : Nat} (hf : FilledTo h root d k) (a : Access)
    (hx : ∀ i, a.index d.kind root d.size = some i → Readable d i) :
    (a.work h root).rounds = roundsOf k (a.index d.kind root d.size) ∧
      FilledTo (a.run h) root d (reachOf k (a.index d.kind root d.size)) := by
  obtain ⟨sl, e⟩ := hf.rep
  have hid := (List.getElem?_eq_some_iff.mp e).1
  cases a with
  | value id i =>
    by_cases hne : id = root
    · subst hne
      by_cases hk : d.kind = .array
      · by_cases hi : i < d.size
        · have hidx : (Access.value id i).index d.kind id d.size = some i := by simp [Access.index, hk, hi]
          have hrd := hx i hidx
          rw [Readable, hk] at hrd
          obtain ⟨h1, h2, -⟩ := lazyAt_step allocStd_spec hk hc hf hi hrd
          rw [hidx]
          simp only [Access.work, Access.run, if_true, Heap.valueAtW, Heap.valueAt, e]
          rw [if_neg (by simp [hk]), if_neg (by simp [hk])]
          exact ⟨h1, h2⟩
        · have hidx : (Access.value id i).index d.kind id d.size = none := by simp [Access.index, hi]
          rw [hidx]
          simp only [Access.work, Access.run, if_true, Heap.valueAtW, Heap.valueAt, e]
          rw [if_neg (by simp [hk]), if_neg (by simp [hk]), lazyAtW, lazyAt, if_pos (by omega), if_pos (by omega)]
          exact ⟨rfl, hf⟩
      · have hidx : (Access.value id i).index d.kind id d.size = none := by simp [Access.index, hk]
        rw [hidx]
        simp only [Access.work, Access.run, if_true, Heap.valueAtW, Heap.valueAt, e]
        rw [if_pos hk, if_pos hk]
        exact ⟨rfl, hf⟩
    · obtain ⟨h1, h2, h3⟩ := access_other hid (a := .value id i) (Or.inl ⟨i, rfl⟩) hne
      have hidx : (Access.value id i).index d.kind root d.size = none := by simp [Access.index, hne]
      rw [hidx, h2]
      exact ⟨rfl, hf.congr h1⟩
  | record id i =>
    by_cases hne : id = root
    · subst hne
      by_cases hk : d.kind = .records
      · by_cases hi : i < d.size
        · have hidx : (Access.record id i).index d.kind id d.size = some i := by simp [Access.index, hk, hi]
          have hrd := hx i hidx
          rw [Readable, hk] at hrd
          obtain ⟨h1, h2, -⟩ := lazyAt_step allocRec_spec hk hc hf hi hrd
          rw [hidx]
          simp only [Access.work, Access.run, if_true, Heap.recordAtW, Heap.recordAt, e]
          rw [if_neg (by simp [hk]), if_neg (by simp [hk])]
          exact ⟨h1, h2⟩
        · have hidx : (Access.record id i).index d.kind id d.size = none := by simp [Access.index, hi]
          rw [hidx]
          simp only [Access.work, Access.run, if_true, Heap.recordAtW, Heap.recordAt, e]
          rw [if_neg (by simp [hk]), if_neg (by simp [hk]), lazyAtW, lazyAt, if_pos (by omega), if_pos (by omega)]
          exact ⟨rfl, hf⟩
      · have hidx : (Access.record id i).index d.kind id d.size = none := by simp [Access.index, hk]
        rw [hidx]
        simp only [Access.work, Access.run, if_true, Heap.recordAtW, Heap.recordAt, e]
        rw [if_pos hk, if_pos hk]
        exact ⟨rfl, hf⟩
    · obtain ⟨h1, h2, h3⟩ := access_other hid (a := .record id i) (Or.inr ⟨i, rfl⟩) hne
      have hidx : (Access.record id i).index d.kind root d.size = none := by simp [Access.index, hne]
      rw [hidx, h2]
      exact ⟨rfl, hf.congr h1⟩

theorem history_rounds {root : Nat} {d : StdValue} : ∀ (l : List Access) (h : Heap) (k : Nat), Coherent h → FilledTo h root d k →
    (∀ i ∈ indexesOf d.kind root d.size l, Readable d i) →
    totalRounds root h l = roundsFrom k (indexesOf d.kind root d.size l) ∧
      FilledTo (history h l) root d (max k (reach (indexesOf d.kind root d.size l))) := by
  intro l
  induction l with
  | nil => intro h k _ hf _; exact ⟨rfl, by simpa [indexesOf, reach, history] using hf⟩
  | cons a l ih =>
    intro h k hc hf hx
    obtain ⟨g1, -⟩ := run_coherent hc a
    have hcons : indexesOf d.kind root d.size (a :: l) =
        (a.index d.kind root d.size).toList ++ indexesOf d.kind root d.size l := by
      rw [indexesOf, indexesOf, List.filterMap_cons]
      cases a.index d.kind root d.size <;> rfl
    obtain ⟨p1, p2⟩ := access_step hc hf a (by
      intro i hi
      exact hx i (by rw [hcons, hi]; simp))
    obtain ⟨q1, q2⟩ := ih (a.run h) _ g1 p2 (fun i hi => hx i (by rw [hcons]; simp [hi]))
    have hh : history h (a :: l) = history (a.run h) l := rfl
    rw [totalRounds, p1, q1, hcons, hh]
    rcases hai : a.index d.kind root d.size with - | i <;> rw [hai] at q2
    · exact ⟨by simp [roundsOf, reachOf], by simpa [reachOf] using q2⟩
    · refine ⟨by simp [roundsOf, reachOf, roundsFrom], ?_⟩
      simp only [reachOf] at q2
      simp only [Option.toList_some, List.singleton_append, reach, List.foldr_cons] at q2 ⊢
      rwa [show max k (max (List.foldr (fun i m => max m (i + 1)) 0 (indexesOf d.kind root d.size l)) (i + 1)) =
        max (max k (i + 1)) (List.foldr (fun i m => max m (i + 1)) 0 (indexesOf d.kind root d.size l)) by omega]

theorem filledTo_fresh {buf : Bytes} {h : Heap} {root : Nat} (ha : allocStd [] buf = (h, .ok root)) {d : StdValue} (hd : RepV h root d)
    (hk : d.kind ≠ .prim) : FilledTo h root d 0 := by
  obtain ⟨d', n, hdec, rfl, rfl⟩ := allocStd_root ha
  obtain ⟨sl, hsl⟩ := hd
  have hs2 := hsl
  simp only [List.getElem?_cons_zero, Option.some.injEq] at hsl
  rw [freshVal] at hsl
  cases hsl
  refine ⟨_, hs2, by simp [hk], by simp, ?_⟩
  intro j _ hj
  simp [hk, hj]

/-- The full claim of C179: reading the elements of a decoded array or list one after the other takes one round for each. -/
def OneRoundEach : Prop := ∀ (buf : Bytes) (h : Heap) (root : Nat) (d : StdValue), allocStd [] buf = (h, .ok root) → RepV h root d →
  (∀ i, i < d.size → Readable d i) → totalRounds root h (readAll d.kind root (List.range d.size)) ≤ d.size

/-- C179: the rounds of any accesses: for each read of an element beyond all read before, as many as its place in the list. -/
theorem C179_total_partial (buf : Bytes) (h : Heap) (root : Nat) (d : StdValue) (ha : allocStd [] buf = (h, .ok root))
    (hd : RepV h root d) (hk : d.kind ≠ .prim) (l : List Access) (hx : ∀ i ∈ indexesOf d.kind root d.size l, Readable d i) :
    totalRounds root h l = roundsFrom 0 (indexesOf d.kind root d.size l) :=
  (history_rounds l h 0 (allocStd_coherent ha) (filledTo_fresh ha hd hk) hx).1

/-- C179: the rounds of one more read after any accesses: none, if it or a later element was read before; otherwise one for the element
and one for each before it, read or not. -/
theorem C179_read_partial (buf : Bytes) (h : Heap) (root : Nat) (d : StdValue) (ha : allocStd [] buf = (h, .ok root))
    (hd : RepV h root d) (hk : d.kind ≠ .prim) (l : List Access) (hx : ∀ i ∈ indexesOf d.kind root d.size l, Readable d i)
    (a : Access) (i : Nat) (hi : a.index d.kind root d.size = some i) (hix : Readable d i) :
    (a.work (history h l) root).rounds = if ∃ j ∈ indexesOf d.kind root d.size l, i ≤ j then 0 else i + 1 := by
  obtain ⟨-, hf⟩ := history_rounds l h 0 (allocStd_coherent ha) (filledTo_fresh ha hd hk) hx
  obtain ⟨hc, -⟩ := history_coherent (allocStd_coherent ha) l
  rw [(access_step hc hf a (by intro j hj; rw [hi] at hj; cases hj; exact hix)).1, hi, roundsOf]
  have hre : ∀ is : List Nat, i < reach is ↔ ∃ j ∈ is, i ≤ j := by
    intro is
    induction is with
    | nil => simp [reach]
    | cons j is ih =>
      rw [reach, List.foldr_cons]
      rw [reach] at ih
      simp only [List.mem_cons, exists_eq_or_imp]
      rw [← ih]
      omega
  simp only [Nat.zero_max, hre]

theorem indexesOf_readAll {kind : VKind} (hk : kind ≠ .prim) (root size : Nat) : ∀ is : List Nat, (∀ i ∈ is, i < size) →
    indexesOf kind root size (readAll kind root is) = is := by
  intro is
  induction is with
  | nil => intro _; rfl
  | cons i is ih =>
    intro hi
    have h1 := hi i (by simp)
    have h2 := ih (fun j hj => hi j (by simp [hj]))
    simp only [indexesOf, readAll, List.map_cons, List.filterMap_cons] at h2 ⊢
    cases kind with
    | prim => exact absurd rfl hk
    | array => simp [Access.index, h1] at h2 ⊢; exact h2
    | records => simp [Access.index, h1] at h2 ⊢; exact h2

theorem roundsFrom_range : ∀ (n m : Nat), 2 * roundsFrom m ((List.range' m n)) = n * (2 * m + n + 1) := by
  intro n
  induction n with
  | zero => intro m; rw [List.range'_zero, roundsFrom]; omega
  | succ n ih =>
    intro m
    rw [List.range'_succ, roundsFrom, if_neg (by omega), Nat.max_eq_right (by omega), Nat.mul_add, ih (m + 1)]
    ring

/-- C179: reading the first `n` elements in order takes 1 + 2 + … + n rounds, -/
theorem C179_ascending_partial (buf : Bytes) (h : Heap) (root : Nat) (d : StdValue) (ha : allocStd [] buf = (h, .ok root))
    (hd : RepV h root d) (hk : d.kind ≠ .prim) (n : Nat) (hn : n ≤ d.size) (hx : ∀ i, i < n → Readable d i) :
    2 * totalRounds root h (readAll d.kind root (List.range n)) = n * (n + 1) := by
  have hi := indexesOf_readAll hk root d.size (List.range n) (by intro i hi; rw [List.mem_range] at hi; omega)
  rw [C179_total_partial buf h root d ha hd hk _ (by
    rw [hi]; intro i hi; exact hx i (List.mem_range.mp hi)), hi]
  have := roundsFrom_range n 0
  rw [List.range_eq_range', this]
  ring

theorem roundsFrom_below : ∀ (is : List Nat) (m : Nat), (∀ i ∈ is, i < m) → roundsFrom m is = 0 := by
  intro is
  induction is with
  | nil => intro m _; rfl
  | cons i is ih =>
    intro m hi
    have h1 := hi i (by simp)
    rw [roundsFrom, if_pos h1, Nat.max_eq_left (by omega), ih m (fun j hj => hi j (by simp [hj]))]

/-- and reading the last of them first, then the others in any order and any number of times, takes `n` rounds. -/
theorem C179_last_first_partial (buf : Bytes) (h : Heap) (root : Nat) (d : StdValue) (ha : allocStd [] buf = (h, .ok root))
    (hd : RepV h root d) (hk : d.kind ≠ .prim) (n : Nat) (hn : n < d.size) (hx : Readable d n) (is : List Nat) (hi : ∀ i ∈ is, i ≤ n) :
    totalRounds root h (readAll d.kind root (n :: is)) = n + 1 := by
  have hii := indexesOf_readAll hk root d.size (n :: is) (by
    intro i hm
    rcases List.mem_cons.mp hm with hm | hm
    · omega
    · have := hi i hm; omega)
  have hr : ∀ i, i ≤ n → Readable d i := by
    intro i hin
    rcases Nat.lt_or_ge i n with hlt | hge
    · rw [Readable] at hx ⊢
      cases hkk : d.kind with
      | prim => exact absurd hkk hk
      | array => rw [hkk] at hx; obtain ⟨x, hx⟩ := hx; exact elemOf_ok_lt hx i hlt
      | records => rw [hkk] at hx; obtain ⟨x, hx⟩ := hx; exact elemOf_ok_lt hx i hlt
    · rwa [show i = n by omega]
  rw [C179_total_partial buf h root d ha hd hk _ (by
    rw [hii]
    intro i hm
    rcases List.mem_cons.mp hm with hm | hm
    · exact hr i (by omega)
    · exact hr i (hi i hm)), hii, roundsFrom, if_neg (by omega), roundsFrom_below is _ (by
      intro i hm; have := hi i hm; omega)]

/-- C179: whatever is read and however it ends, a read takes no more rounds than the place of the element. -/
theorem C179_bound_partial (h : Heap) (id i : Nat) : (h.valueAtW id i).rounds ≤ i + 1 ∧ (h.recordAtW id i).rounds ≤ i + 1 := by
  constructor
  · rw [Heap.valueAtW]
    split
    · split
      · exact Nat.zero_le _
      · exact lazyAtW_rounds_le _ _ _ _ _
    · exact Nat.zero_le _
  · rw [Heap.recordAtW]
    split
    · split
      · exact Nat.zero_le _
      · exact lazyAtW_rounds_le _ _ _ _ _
    · exact Nat.zero_le _

/-- An array of four values. -/
def fourValues : Bytes := [0x41, 4, 8, 0x01, 1, 9, 0x00, 0x01, 1, 7, 0x00]

/-- Its elements can be read. -/
theorem fourValues_readable : ∀ i, i < 4 → Readable ⟨fourValues, .array, 4, fourValues.drop 3⟩ i := by
  intro i hi
  have h3 : ∃ x, elemOf decodeStd (fourValues.drop 3) 3 = .ok x := ⟨⟨[0x00], .prim, 0, []⟩, by decide +kernel⟩
  rcases Nat.lt_or_ge i 3 with h | h
  · obtain ⟨x, hx⟩ := h3
    exact elemOf_ok_lt hx i h
  · obtain rfl : i = 3 := by omega
    exact h3

example := C179_ascending_partial fourValues _ 0 ⟨fourValues, .array, 4, fourValues.drop 3⟩ rfl ⟨_, rfl⟩ (by decide) 4 (by decide)
  fourValues_readable

example : totalRounds 0 (allocStd [] fourValues).1 (readAll .array 0 (List.range 4)) = 10 := by decide +kernel

example := C179_last_first_partial fourValues _ 0 ⟨fourValues, .array, 4, fourValues.drop 3⟩ rfl ⟨_, rfl⟩ (by decide) 3 (by decide)
  (fourValues_readable 3 (by decide)) [0, 2, 1, 2] (by decide)

example := C179_total_partial fourValues _ 0 ⟨fourValues, .array, 4, fourValues.drop 3⟩ rfl ⟨_, rfl⟩ (by decide)
  [.value 0 1, .value 1 0, .record 0 2, .value 0 3, .value 0 7, .value 0 2] (by
    intro i hi
    have : indexesOf .array 0 4 [.value 0 1, .value 1 0, .record 0 2, .value 0 3, .value 0 7, .value 0 2] = [1, 3, 2] := by decide +kernel
    rw [this] at hi
    exact fourValues_readable i (by revert i; decide))

example := C179_read_partial fourValues _ 0 ⟨fourValues, .array, 4, fourValues.drop 3⟩ rfl ⟨_, rfl⟩ (by decide)
  [.value 0 1] (by intro i hi; exact fourValues_readable i (by
    have : indexesOf .array 0 4 [.value 0 1] = [1] := by decide +kernel
    rw [this] at hi
    simp at hi; omega)) (.value 0 2) 2 rfl (fourValues_readable 2 (by decide))

/-- C179 as stated does not hold, for any array or list of at least two elements. -/
theorem C179_two_partial (buf : Bytes) (h : Heap) (root : Nat) (d : StdValue) (ha : allocStd [] buf = (h, .ok root))
    (hd : RepV h root d) (hk : d.kind ≠ .prim) (hx : ∀ i, i < d.size → Readable d i) :
    totalRounds root h (readAll d.kind root (List.range d.size)) ≤ d.size ↔ d.size ≤ 1 := by
  have h1 := C179_ascending_partial buf h root d ha hd hk d.size (Nat.le_refl _) hx
  constructor
  · intro h2
    by_contra h3
    have h4 : d.size * 3 ≤ d.size * (d.size + 1) := Nat.mul_le_mul_left _ (by omega)
    omega
  · intro h2
    have h4 : d.size * (d.size + 1) ≤ d.size * 2 := Nat.mul_le_mul_left _ (by omega)
    omega

example := C179_two_partial fourValues _ 0 ⟨fourValues, .array, 4, fourValues.drop 3⟩ rfl ⟨_, rfl⟩ (by decide) fourValues_readable

/-- C179 as stated does not hold. -/
theorem C179_refuted : ¬ OneRoundEach := by
  intro hall
  have := (C179_two_partial fourValues _ 0 ⟨fourValues, .array, 4, fourValues.drop 3⟩ rfl ⟨_, rfl⟩ (by decide) fourValues_readable).mp
    (hall fourValues _ 0 _ rfl ⟨_, rfl⟩ fourValues_readable)
  revert this
  decide

end Poodle.Props
