import Verif.Props.ValueCost
import Verif.Props.ParRead

namespace Poodle.Props
open Poodle Spec

/-! ### C180, exactly -/

theorem lazyLoopW_ge (alloc : Heap → Bytes → Heap × Res Nat) (content : Bytes) (id : Nat) : ∀ (n i pos : Nat) (h : Heap) (w c : Nat),
    c ≤ (lazyLoopW alloc content id n i pos h w c).decodes := by
  intro n
  induction n with
  | zero => intros; exact Nat.le_refl _
  | succ n ih =>
    intro i pos h w c
    rw [lazyLoopW]
    rcases h.slot id i with - | s
    · exact Nat.le_refl _
    rcases s with - | - | p
    · simp only
      split
      · exact Nat.le_refl _
      · rcases alloc h (content.drop pos) with ⟨h', p | - | -⟩
        · simp only
          rcases h'[p]? with - | o
          · exact Nat.le_succ _
          · exact Nat.le_trans (Nat.le_succ _) (ih _ _ _ _ _)
        · exact Nat.le_succ _
        · exact Nat.le_succ _
    · exact Nat.le_refl _
    · simp only
      rcases h[p]? with - | o
      · exact Nat.le_refl _
      · exact ih _ _ _ _ _

theorem decodeElement_record_panic (c : Bytes) (i : Nat) :
    elemOf (decodeElement true) c i = .panic ↔ elemOf decodeRecord c i = .panic := by
  rcases e : elemOf decodeRecord c i with x | - | -
  · rw [decodeElement_record c i x e]; simp
  · rw [decodeElement_record_err c i e]; simp
  · simp only [iff_true]
    induction i generalizing c with
    | zero =>
      rw [elemOf] at e
      rcases h : decodeRecord c with ⟨y, n⟩ | - | - <;> rw [h] at e <;> simp at e
      simp [elemOf, decodeElement, h]
    | succ i ih =>
      rw [elemOf] at e
      rcases h : decodeRecord c with ⟨y, n⟩ | - | - <;> rw [h] at e <;> simp at e
      · have := ih _ e
        simp [elemOf, decodeElement, h, this]
      · simp [elemOf, decodeElement, h]

/-- A failure at one element is a failure at all the later ones. -/
theorem elemOf_stuck {α : Type} {dec : Bytes → Res (α × Nat)} : ∀ (i j : Nat) (c : Bytes), i ≤ j →
    (elemOf dec c i = .err → elemOf dec c j = .err) ∧ (elemOf dec c i = .panic → elemOf dec c j = .panic) := by
  intro i
  induction i with
  | zero =>
    intro j c _
    cases j with
    | zero => exact ⟨id, id⟩
    | succ j =>
      rw [elemOf, elemOf]
      rcases dec c with ⟨y, n⟩ | - | - <;> simp
  | succ i ih =>
    intro j c h
    cases j with
    | zero => omega
    | succ j =>
      rw [elemOf, elemOf]
      rcases dec c with ⟨y, n⟩ | - | -
      · exact ih j _ (by omega)
      · simp
      · simp

/-- Reading an element at which decoding panics decodes something, each time. -/
theorem loop_panics_decodes {h : Heap} (hc : CachesGood h) {record : Bool} {id : Nat} {d : StdValue} {sl : List Slot}
    (e : h[id]? = some (.val d sl)) (hk : d.kind = (if record then .records else .array)) (idx : Nat) (hi : idx < d.size)
    (hp : elemOf (decodeElement record) d.content idx = .panic) : ∀ (n i pos : Nat) (w c : Nat), i + n = idx →
    PosOf record d.content i pos → c < (lazyLoopW (allocFor record) d.content id (n + 1) i pos h w c).decodes := by
  obtain ⟨hlen, hgood⟩ := hc _ _ _ e
  rw [if_neg (kind_record hk).2] at hlen
  rw [(kind_record hk).1] at hgood
  intro n
  induction n with
  | zero =>
    intro i pos w c hin hpos
    obtain rfl : i = idx := by omega
    have hl : i < sl.length := by omega
    have hs : h.slot id i = some sl[i] := by rw [slot_eq e, List.getElem?_eq_getElem hl]
    have hsg := hgood i _ (List.getElem?_eq_getElem hl)
    rcases hsl : sl[i] with - | - | p
    · rw [hsl] at hs
      rcases posOf_elem hpos with ⟨y, m, e1, e2⟩ | ⟨e1, e2⟩ | ⟨e1, e2⟩
      · rw [hp] at e2; cases e2
      · rw [hp] at e2; cases e2
      · rw [lazyLoopW, hs]
        simp only [allocFor_panic h e1]
        rw [if_neg (by have := hpos.1; omega)]
        exact Nat.lt_succ_self _
    · rw [hsl, SlotGood, hp] at hsg; cases hsg
    · rw [hsl] at hsg
      obtain ⟨x, hx, -⟩ := hsg
      rw [hp] at hx; cases hx
  | succ n ih =>
    intro i pos w c hin hpos
    have hl : i < sl.length := by omega
    have hs : h.slot id i = some sl[i] := by rw [slot_eq e, List.getElem?_eq_getElem hl]
    have hsg := hgood i _ (List.getElem?_eq_getElem hl)
    rcases hsl : sl[i] with - | - | p
    · rw [hsl] at hs
      rw [lazyLoopW, hs]
      simp only
      rw [if_neg (by have := hpos.1; omega)]
      rcases allocFor record h (d.content.drop pos) with ⟨h', p | - | -⟩
      · simp only
        rcases h'[p]? with - | o
        · exact Nat.lt_succ_self _
        · exact Nat.lt_of_lt_of_le (Nat.lt_succ_self _) (lazyLoopW_ge _ _ _ _ _ _ _ _ _)
      · exact Nat.lt_succ_self _
      · exact Nat.lt_succ_self _
    · rw [hsl, SlotGood] at hsg
      rw [(elemOf_stuck i idx d.content (by omega)).1 hsg] at hp
      cases hp
    · rw [hsl] at hs hsg
      obtain ⟨o, o1, o2⟩ := posOf_succ hpos hsg
      rw [lazyLoopW, hs]
      simp only [o1]
      exact ih (i + 1) _ _ _ (by omega) o2

theorem slot_panics {h : Heap} (hc : CachesGood h) {record : Bool} {id : Nat} {d : StdValue} {sl : List Slot}
    (e : h[id]? = some (.val d sl)) (hk : d.kind = (if record then .records else .array)) (idx : Nat) (hi : idx < d.size)
    (hp : elemOf (decodeElement record) d.content idx = .panic) : h.slot id idx = some .empty := by
  obtain ⟨hlen, hgood⟩ := hc _ _ _ e
  rw [if_neg (kind_record hk).2] at hlen
  rw [(kind_record hk).1] at hgood
  have hl : idx < sl.length := by omega
  have hsg := hgood idx _ (List.getElem?_eq_getElem hl)
  rw [slot_eq e, List.getElem?_eq_getElem hl]
  rcases hsl : sl[idx] with - | - | p
  · rfl
  · rw [hsl, SlotGood, hp] at hsg; cases hsg
  · rw [hsl] at hsg
    obtain ⟨x, hx, -⟩ := hsg
    rw [hp] at hx; cases hx

/-- If decoding panics at no element, every element decoded fills a slot. -/
theorem loop_decodes_le (record : Bool) (id : Nat) (d : StdValue) (hk : d.kind = (if record then .records else .array))
    (hn : ∀ i, i < d.size → elemOf (decodeElement record) d.content i ≠ .panic) : ∀ (n i pos : Nat) (h : Heap) (w c : Nat),
    CachesGood h → (∃ sl, h[id]? = some (.val d sl)) → i + n ≤ d.size → PosOf record d.content i pos →
    (lazyLoopW (allocFor record) d.content id n i pos h w c).decodes +
      emptySlots (lazyLoopW (allocFor record) d.content id n i pos h w c).res.1 id ≤ c + emptySlots h id := by
  intro n
  induction n with
  | zero => intros; exact Nat.le_refl _
  | succ n ih =>
    intro i pos h w c hc ⟨sl, e⟩ hin hpos
    have hid := (List.getElem?_eq_some_iff.mp e).1
    obtain ⟨hlen, hgood⟩ := hc _ _ _ e
    rw [if_neg (kind_record hk).2] at hlen
    rw [(kind_record hk).1] at hgood
    have hl : i < sl.length := by omega
    have hs : h.slot id i = some sl[i] := by rw [slot_eq e, List.getElem?_eq_getElem hl]
    have hsg := hgood i _ (List.getElem?_eq_getElem hl)
    rw [lazyLoopW, hs]
    rcases hsl : sl[i] with - | - | p
    · rw [hsl] at hs
      simp only
      rw [if_neg (by have := hpos.1; omega)]
      rcases posOf_elem hpos with ⟨y, m, e1, e2⟩ | ⟨e1, e2⟩ | ⟨e1, e2⟩
      · obtain ⟨ext, p, a1, a2, a3⟩ := allocFor_ok h e1
        have hg : SlotGood (h ++ ext) record d.content i (.obj p) := ⟨y, e2, a2⟩
        obtain ⟨o, o1, o2⟩ := posOf_succ hpos hg
        have e' : (h ++ ext)[id]? = some (.val d sl) := by rw [List.getElem?_append_left hid, e]
        have hc' := cachesGood_setSlot (a3 hc) e' hk (i := i) (s := .obj p) (by simp) hg
        have := ih (i + 1) (pos + o.bufLen) ((h ++ ext).setSlot id i (.obj p)) (w + 1) (c + 1) hc'
          (by rw [setSlot_eq e', List.getElem?_set_self (List.getElem?_eq_some_iff.mp e').1]; exact ⟨_, rfl⟩) (by omega) o2
        have hE := emptySlots_set (ext := ext) hs (s := .obj p) (by simp)
        simp only [a1, o1]
        omega
      · simp only [allocFor_err h e1]
        have hE := emptySlots_set (ext := []) hs (s := .typedNil) (by simp)
        rw [List.append_nil] at hE
        omega
      · exact absurd e2 (hn i (by omega))
    · exact Nat.le_refl _
    · rw [hsl] at hsg
      obtain ⟨o, o1, o2⟩ := posOf_succ hpos hsg
      simp only [o1]
      exact ih (i + 1) _ h _ _ hc ⟨sl, e⟩ (by omega) o2

theorem lazyAt_decodes_le {h : Heap} (hc : CachesGood h) {record : Bool} {id : Nat} {d : StdValue} {sl : List Slot}
    (e : h[id]? = some (.val d sl)) (hk : d.kind = (if record then .records else .array))
    (hn : ∀ i, i < d.size → elemOf (decodeElement record) d.content i ≠ .panic) (idx : Nat) :
    (lazyAtW (allocFor record) h id d idx).decodes + emptySlots (lazyAtW (allocFor record) h id d idx).res.1 id ≤ emptySlots h id := by
  rw [lazyAtW]
  by_cases hi : idx ≥ d.size
  · rw [if_pos hi]; simp
  rw [if_neg hi]
  rcases h.slot id idx with - | s
  · simp
  rcases s with - | - | p
  · have := loop_decodes_le record id d hk hn (idx + 1) 0 0 h 0 0 hc ⟨sl, e⟩ (by omega) (posOf_zero _ _)
    rcases hl : lazyLoopW (allocFor record) d.content id (idx + 1) 0 0 h 0 0 with ⟨w, c, h', u | - | -⟩
    · rw [hl] at this
      simp only at this ⊢
      rcases h'.slot id idx with - | s
      · simp only; omega
      · cases s <;> (simp only; omega)
    · rw [hl] at this
      simp only at this ⊢
      omega
    · rw [hl] at this
      simp only at this ⊢
      omega
  · simp
  · simp

theorem access_decodes_le {h : Heap} (hc : CachesGood h) {root : Nat} {d : StdValue} (hr : RepV h root d) (hk : d.kind ≠ .array)
    (hn : d.kind = .records → ∀ i, i < d.size → elemOf decodeRecord d.content i ≠ .panic) (a : Access) :
    (a.work h root).decodes + emptySlots (a.run h) root ≤ emptySlots h root := by
  obtain ⟨sl, e⟩ := hr
  have hid := (List.getElem?_eq_some_iff.mp e).1
  cases a with
  | value id i =>
    by_cases hne : id = root
    · subst hne
      simp only [Access.work, Access.run, if_true]
      rw [Heap.valueAtW, Heap.valueAt, e]
      simp [hk]
    · obtain ⟨h1, -, h3⟩ := access_other hid (a := .value id i) (Or.inl ⟨i, rfl⟩) hne
      rw [h3, emptySlots_congr h1]
      omega
  | record id i =>
    by_cases hne : id = root
    · subst hne
      have h2 := recordAtW_res h id i
      simp only [Access.work, Access.run, if_true]
      rw [← h2, Heap.recordAtW, e]
      simp only
      by_cases hr : d.kind = .records
      · rw [if_neg (by simp [hr])]
        exact lazyAt_decodes_le hc (record := true) e (by simpa using hr) (fun i hi h => hn hr i hi ((decodeElement_record_panic _ _).mp h)) i
      · rw [if_pos hr]; simp
    · obtain ⟨h1, -, h3⟩ := access_other hid (a := .record id i) (Or.inr ⟨i, rfl⟩) hne
      rw [h3, emptySlots_congr h1]
      omega

/-- C180, exactly: no more elements are decoded than there are, however the elements are read, unless it is a list of records and decoding
panics at one of its records. -/
theorem C180_iff_partial (buf : Bytes) (h : Heap) (root : Nat) (d : StdValue) (ha : allocStd [] buf = (h, .ok root)) (hd : RepV h root d) :
    (∀ l : List Access, totalDecodes root h l ≤ d.size) ↔
      ¬ (d.kind = .records ∧ ∃ i, i < d.size ∧ elemOf decodeRecord d.content i = .panic) := by
  have hcoh := allocStd_coherent ha
  constructor
  · rintro hall ⟨hk, i, hi, hp⟩
    have key : ∀ (n : Nat) (h : Heap), Coherent h → RepV h root d → n ≤ totalDecodes root h (List.replicate n (.record root i)) := by
      intro n
      induction n with
      | zero => intros; exact Nat.zero_le _
      | succ n ih =>
        intro h hc hd
        obtain ⟨g1, g2⟩ := run_coherent hc (.record root i)
        have := ih _ g1 (hd.mono g2)
        obtain ⟨sl, e⟩ := hd
        have hp' := (decodeElement_record_panic _ _).mpr hp
        have h0 := loop_panics_decodes (coherent_good hc) (record := true) e (by simpa using hk) i hi hp' i 0 0 0 0 (by omega) (posOf_zero _ _)
        have hw : 1 ≤ ((Access.record root i).work h root).decodes := by
          simp only [Access.work, if_true, Heap.recordAtW, e]
          rw [if_neg (by simp [hk]), lazyAtW, if_neg (by omega), slot_panics (coherent_good hc) (record := true) e (by simpa using hk) i hi hp']
          simp only [allocFor, if_true] at h0
          simp only
          rcases hl : lazyLoopW allocRec d.content root (i + 1) 0 0 h 0 0 with ⟨w, c, h', u | - | -⟩
          · rw [hl] at h0
            simp only at h0 ⊢
            rcases h'.slot root i with - | s
            · exact h0
            · cases s <;> exact h0
          · rw [hl] at h0; exact h0
          · rw [hl] at h0; exact h0
        rw [List.replicate_succ, totalDecodes]
        omega
    have h1 := key (d.size + 1) h hcoh hd
    have h2 := hall (List.replicate (d.size + 1) (.record root i))
    omega
  · intro hn l
    by_cases hk : d.kind = .array
    · exact C180_values_partial buf h root d ha hd hk l
    · have key : ∀ (l : List Access) (h : Heap), Coherent h → RepV h root d →
          totalDecodes root h l + emptySlots (history h l) root ≤ emptySlots h root := by
        intro l
        induction l with
        | nil => intro h _ _; simp [totalDecodes, history]
        | cons a l ih =>
          intro h hc hd
          obtain ⟨g1, g2⟩ := run_coherent hc a
          have q := ih _ g1 (hd.mono g2)
          have p := access_decodes_le (coherent_good hc) hd hk (fun hr i hi hp => hn ⟨hr, i, hi, hp⟩) a
          have hh : history h (a :: l) = history (a.run h) l := rfl
          rw [totalDecodes, hh]
          omega
      have h1 := key l h hcoh hd
      have h2 := (emptySlots_fresh ha hd).1
      omega

example := C180_iff_partial keylessRecords _ 0 ⟨keylessRecords, .records, 2, keylessRecords.drop 3⟩ rfl ⟨_, rfl⟩

end Poodle.Props
