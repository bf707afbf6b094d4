import Verif.Lemmas.ValueMem
import Verif.Props.RecordHeap

namespace Poodle.Props
open Poodle Spec

/-! ### C197: decoded values while the bytes they were decoded from change -/

/-- A value or a record was decoded from the slice, and nothing else so far. -/
def DecodedFrom (m : Mem) (s : Sl) (h : MHeap) (root : Nat) : Prop :=
  inside m s ∧ (allocStdM m [] s = (h, .ok root) ∨ allocRecM m [] s = (h, .ok root))

/-- C197, the claim: what `ValueAt` shows is what was in the buffer when the value was decoded. -/
def ElementsFixed : Prop := ∀ (m : Mem) (s : Sl) (h : MHeap) (root : Nat), DecodedFrom m s h root → ∀ (l : List MAct) (i : Nat),
  seen (viewCall (MAct.runs (m, h) l).1 (valueAtM (MAct.runs (m, h) l).1 (MAct.runs (m, h) l).2 root i)) =
    seen (viewCall m (valueAtM m h root i))

theorem placed_nil (s : Sl) : InPlace s [] := fun id o e => by simp at e

theorem alloc_placed {m : Mem} {s : Sl} (hi : inside m s) {alloc : MHeap → Sl → MHeap × Res Nat} {allocP : Heap → Bytes → Heap × Res Nat}
    (A : AllocM m alloc allocP) {h : MHeap} {root : Nat} (ha : alloc [] s = (h, .ok root)) : InPlace s h := by
  obtain ⟨ext, o, rfl, -, -, -, -, hx⟩ := A.onOk _ _ _ _ hi ha
  exact placed_append (placed_nil s) (within.refl s) hx

theorem DecodedFrom.placed {m : Mem} {s : Sl} {h : MHeap} {root : Nat} (hd : DecodedFrom m s h root) : InPlace s h := by
  obtain ⟨hi, ha | ha⟩ := hd
  · exact alloc_placed hi (allocStdM_ok m) ha
  · exact alloc_placed hi (allocRecM_ok m) ha

theorem act_spec {s : Sl} (x : MAct) {st : Mem × MHeap} (hi : inside st.1 s) (g : InPlace s st.2) :
    inside (x.run st).1 s ∧ InPlace s (x.run st).2 ∧ LaterM st.2 (x.run st).2 := by
  cases x with
  | value id idx =>
    obtain ⟨h1, h2, -⟩ := valueAtM_spec hi g id idx
    exact ⟨hi, h1, h2⟩
  | record id idx =>
    obtain ⟨h1, h2, -⟩ := recordAtM_spec hi g id idx
    exact ⟨hi, h1, h2⟩
  | write a i b => exact ⟨inside_write hi a i b, g, LaterM.refl _⟩

theorem acts_spec {s : Sl} : ∀ (l : List MAct) {st : Mem × MHeap}, inside st.1 s → InPlace s st.2 →
    inside (MAct.runs st l).1 s ∧ InPlace s (MAct.runs st l).2 ∧ LaterM st.2 (MAct.runs st l).2
  | [], st, hi, g => ⟨hi, g, LaterM.refl _⟩
  | x :: l, st, hi, g => by
    obtain ⟨h1, h2, h3⟩ := act_spec x hi g
    obtain ⟨k1, k2, k3⟩ := acts_spec l h1 h2
    exact ⟨k1, k2, h3.trans k3⟩

/-- Assignments outside the slice are not seen. -/
theorem write_unseen {m : Mem} {s : Sl} {h : MHeap} (hi : inside m s) (g : InPlace s h) {a i : Nat} {b : UInt8} (hc : ¬ covers s a i) :
    viewHeap (m.write a i b) h = viewHeap m h := by
  rw [viewHeap, viewHeap]
  refine List.map_congr_left fun o ho => ?_
  obtain ⟨id, hid⟩ := List.mem_iff_getElem?.mp ho
  rw [viewObj_iff]
  intro t ht
  have hw := (g id o hid).1 t ht
  exact (read_write (hw.inside hi) a i b).mpr fun h => absurd (hw.covers h) hc

theorem unseen_runs {s : Sl} : ∀ (l : List MAct) {st : Mem × MHeap}, inside st.1 s → InPlace s st.2 → MAct.Avoids s l →
    viewHeap (MAct.runs st l).1 (MAct.runs st l).2 = history (viewHeap st.1 st.2) (MAct.accesses l)
  | [], st, hi, g, ha => rfl
  | x :: l, st, hi, g, ha => by
    obtain ⟨h1, h2, -⟩ := act_spec x hi g
    have ih := unseen_runs l h1 h2 fun a i b hm => ha a i b (List.mem_cons_of_mem _ hm)
    show viewHeap (MAct.runs (x.run st) l).1 (MAct.runs (x.run st) l).2 = _
    rw [ih]
    cases x with
    | value id idx =>
      obtain ⟨-, -, h3⟩ := valueAtM_spec hi g id idx
      show history _ _ = history ((viewHeap st.1 st.2).valueAt id idx).1 _
      rw [← h3]
      rfl
    | record id idx =>
      obtain ⟨-, -, h3⟩ := recordAtM_spec hi g id idx
      show history _ _ = history ((viewHeap st.1 st.2).recordAt id idx).1 _
      rw [← h3]
      rfl
    | write a i b =>
      show history (viewHeap (st.1.write a i b) st.2) _ = _
      rw [write_unseen hi g (ha a i b (by simp))]
      rfl

/-- C197: as long as no byte of the slice handed in is assigned, every access gives what it would give if no byte were assigned at
all, whatever was accessed before. -/
theorem C197_outside_partial (m : Mem) (s : Sl) (h : MHeap) (root : Nat) (hd : DecodedFrom m s h root) (l : List MAct)
    (hl : MAct.Avoids s l) :
    (allocStd [] (m.read s) = (viewHeap m h, .ok root) ∨ allocRec [] (m.read s) = (viewHeap m h, .ok root)) ∧
    ∀ id idx,
      viewCall (MAct.runs (m, h) l).1 (valueAtM (MAct.runs (m, h) l).1 (MAct.runs (m, h) l).2 id idx) =
        (history (viewHeap m h) (MAct.accesses l)).valueAt id idx ∧
      viewCall (MAct.runs (m, h) l).1 (recordAtM (MAct.runs (m, h) l).1 (MAct.runs (m, h) l).2 id idx) =
        (history (viewHeap m h) (MAct.accesses l)).recordAt id idx := by
  refine ⟨?_, fun id idx => ?_⟩
  · obtain ⟨hi, ha | ha⟩ := hd
    · have := (allocStdM_ok m).sim [] s hi
      rw [ha] at this
      exact .inl this.symm
    · have := (allocRecM_ok m).sim [] s hi
      rw [ha] at this
      exact .inr this.symm
  · obtain ⟨h1, h2, -⟩ := acts_spec l (st := (m, h)) hd.1 hd.placed
    have hv := unseen_runs l (st := (m, h)) hd.1 hd.placed hl
    obtain ⟨-, -, h3⟩ := valueAtM_spec h1 h2 id idx
    obtain ⟨-, -, h4⟩ := recordAtM_spec h1 h2 id idx
    rw [h3, h4, hv]
    exact ⟨rfl, rfl⟩

/-- C197: whatever was assigned and accessed before, an access works on the bytes as they are now and on the elements decoded so far. -/
theorem C197_now_partial (m : Mem) (s : Sl) (h : MHeap) (root : Nat) (hd : DecodedFrom m s h root) (l : List MAct) (id idx : Nat) :
    viewCall (MAct.runs (m, h) l).1 (valueAtM (MAct.runs (m, h) l).1 (MAct.runs (m, h) l).2 id idx) =
      (viewHeap (MAct.runs (m, h) l).1 (MAct.runs (m, h) l).2).valueAt id idx ∧
    viewCall (MAct.runs (m, h) l).1 (recordAtM (MAct.runs (m, h) l).1 (MAct.runs (m, h) l).2 id idx) =
      (viewHeap (MAct.runs (m, h) l).1 (MAct.runs (m, h) l).2).recordAt id idx := by
  obtain ⟨h1, h2, -⟩ := acts_spec l (st := (m, h)) hd.1 hd.placed
  exact ⟨(valueAtM_spec h1 h2 id idx).2.2, (recordAtM_spec h1 h2 id idx).2.2⟩

/-! ### Elements that were accessed -/

theorem lazyAtM_obj {alloc : MHeap → Sl → MHeap × Res Nat} {h h' : MHeap} {id idx p : Nat} {d : SStd}
    (e : lazyAtM alloc h id d idx = (h', .ok (some p))) : idx < d.size ∧ slotM h' id idx = some (.obj p) := by
  rw [lazyAtM] at e
  split at e
  · cases e
  rename_i hz
  refine ⟨by omega, ?_⟩
  split at e
  · cases e
  · rename_i hs; cases e; exact hs
  · cases e
  · split at e
    · split at e
      · rename_i hs; cases e; exact hs
      · cases e
      · cases e
    · cases e
    · cases e

theorem lazyAtM_again {alloc : MHeap → Sl → MHeap × Res Nat} {h : MHeap} {id idx p : Nat} {d : SStd} (hz : idx < d.size)
    (hs : slotM h id idx = some (.obj p)) : lazyAtM alloc h id d idx = (h, .ok (some p)) := by
  rw [lazyAtM, if_neg (by omega), hs]

/-- `ValueAt` for arrays, `RecordAt` for record lists. -/
def elemAtM (rec : Bool) (m : Mem) (h : MHeap) (id idx : Nat) : MHeap × Res (Option Nat) :=
  if rec then recordAtM m h id idx else valueAtM m h id idx

theorem elemAtM_obj {rec : Bool} {m : Mem} {h h' : MHeap} {id idx p : Nat} (e : elemAtM rec m h id idx = (h', .ok (some p))) :
    ∃ d sl, h[id]? = some (.val d sl) ∧ d.kind = (if rec then .records else .array) ∧ idx < d.size ∧ slotM h' id idx = some (.obj p) := by
  cases rec with
  | true =>
    change recordAtM m h id idx = _ at e
    rw [recordAtM] at e
    split at e
    · rename_i d sl hid
      split at e
      · cases e
      · rename_i hk
        exact ⟨d, sl, hid, by simpa using hk, lazyAtM_obj e⟩
    · cases e
  | false =>
    change valueAtM m h id idx = _ at e
    rw [valueAtM] at e
    split at e
    · rename_i d sl hid
      split at e
      · cases e
      · rename_i hk
        exact ⟨d, sl, hid, by simpa using hk, lazyAtM_obj e⟩
    · cases e

theorem elemAtM_again {rec : Bool} {m : Mem} {h : MHeap} {id idx p : Nat} {d : SStd} {sl : List Slot} (hid : h[id]? = some (.val d sl))
    (hk : d.kind = (if rec then .records else .array)) (hz : idx < d.size) (hs : slotM h id idx = some (.obj p)) :
    elemAtM rec m h id idx = (h, .ok (some p)) := by
  cases rec with
  | true =>
    show recordAtM m h id idx = _
    rw [recordAtM, hid]
    simp only
    rw [if_neg (by simpa using hk), lazyAtM_again hz hs]
  | false =>
    show valueAtM m h id idx = _
    rw [valueAtM, hid]
    simp only
    rw [if_neg (by simpa using hk), lazyAtM_again hz hs]

theorem elemAtM_spec {rec : Bool} {m : Mem} {s : Sl} (hm : inside m s) {h : MHeap} (g : InPlace s h) (id idx : Nat) :
    InPlace s (elemAtM rec m h id idx).1 ∧ LaterM h (elemAtM rec m h id idx).1 := by
  cases rec with
  | true => exact ⟨(recordAtM_spec hm g id idx).1, (recordAtM_spec hm g id idx).2.1⟩
  | false => exact ⟨(valueAtM_spec hm g id idx).1, (valueAtM_spec hm g id idx).2.1⟩

theorem LaterM.slot {h h' : MHeap} (l : LaterM h h') {id idx p : Nat} (hs : slotM h id idx = some (.obj p)) :
    slotM h' id idx = some (.obj p) := by
  rw [slotM] at hs
  split at hs
  · rename_i d sl hid
    obtain ⟨o, h1, h2⟩ := l id _ hid
    cases o with
    | val d' sl' =>
      rw [slotM_eq h1]
      exact h2.2.2 idx _ hs (by simp)
    | record _ _ _ => exact absurd h2 (by simp [Grows])
  · cases hs

/-- C197: an element that was returned once is returned every time, as the same object, of the same kind and count and with its bytes at
the same place, whatever is assigned, also if the element could not be decoded any more. -/
theorem C197_kept (m : Mem) (s : Sl) (h : MHeap) (root : Nat) (hd : DecodedFrom m s h root) (l : List MAct) (rec : Bool) (id idx p : Nat)
    (h' : MHeap) (hp : elemAtM rec (MAct.runs (m, h) l).1 (MAct.runs (m, h) l).2 id idx = (h', .ok (some p))) (l' : List MAct) :
    elemAtM rec (MAct.runs ((MAct.runs (m, h) l).1, h') l').1 (MAct.runs ((MAct.runs (m, h) l).1, h') l').2 id idx =
      ((MAct.runs ((MAct.runs (m, h) l).1, h') l').2, .ok (some p)) ∧
    ∃ o o', h'[p]? = some o ∧ (MAct.runs ((MAct.runs (m, h) l).1, h') l').2[p]? = some o' ∧ SameShape o o' := by
  obtain ⟨i1, g1, -⟩ := acts_spec l (st := (m, h)) hd.1 hd.placed
  have g2 := (elemAtM_spec (rec := rec) i1 g1 id idx).1
  have l2 := (elemAtM_spec (rec := rec) i1 g1 id idx).2
  rw [hp] at g2 l2
  obtain ⟨d, sl, e1, e2, e3, e4⟩ := elemAtM_obj hp
  obtain ⟨i3, g3, l3⟩ := acts_spec l' (st := ((MAct.runs (m, h) l).1, h')) i1 g2
  obtain ⟨o, f1, f2⟩ := (l2.trans l3) id _ e1
  cases o with
  | record _ _ _ => exact absurd f2 (by simp [Grows])
  | val d' sl' =>
    obtain ⟨rfl, -, -⟩ := f2
    refine ⟨elemAtM_again f1 e2 e3 (LaterM.slot l3 e4), ?_⟩
    have e5 := e4
    rw [slotM] at e5
    split at e5
    · rename_i d2 sl2 hid2
      obtain ⟨o, q1, -⟩ := (g2 id _ hid2).2 d2 sl2 rfl idx p e5
      obtain ⟨o', q2, q3⟩ := l3 p o q1
      exact ⟨o, o', q1, q2, q3.shape⟩
    · cases e5

/-- C197: whatever is assigned, the elements returned lie one after the other in the content of the array or list, without gaps and
overlaps, and so in the slice handed in at the beginning. -/
theorem C197_tiles (m : Mem) (s : Sl) (h : MHeap) (root : Nat) (hd : DecodedFrom m s h root) (l : List MAct) (rec : Bool) (id idx p : Nat)
    (h' : MHeap) (hp : elemAtM rec (MAct.runs (m, h) l).1 (MAct.runs (m, h) l).2 id idx = (h', .ok (some p))) :
    ∃ d sl o, h'[id]? = some (.val d sl) ∧ h'[p]? = some o ∧ within d.content s ∧ within o.buf d.content ∧
      (idx = 0 → o.buf.off = d.content.off) ∧
      ∀ j, idx = j + 1 → ∃ q o', elemAtM rec (MAct.runs (m, h) l).1 h' id j = (h', .ok (some q)) ∧ h'[q]? = some o' ∧
        adjacent o'.buf o.buf := by
  obtain ⟨i1, g1, -⟩ := acts_spec l (st := (m, h)) hd.1 hd.placed
  have g2 := (elemAtM_spec (rec := rec) i1 g1 id idx).1
  have l2 := (elemAtM_spec (rec := rec) i1 g1 id idx).2
  rw [hp] at g2 l2
  obtain ⟨d, sl, e1, e2, e3, e4⟩ := elemAtM_obj hp
  obtain ⟨o, f1, f2⟩ := l2 id _ e1
  cases o with
  | record _ _ _ => exact absurd f2 (by simp [Grows])
  | val d' sl' =>
    obtain ⟨rfl, -, -⟩ := f2
    rw [slotM_eq f1] at e4
    obtain ⟨o, q1, q2, q3, q4⟩ := (g2 id _ f1).2 _ sl' rfl idx p e4
    refine ⟨_, sl', o, f1, q1, (g2 id _ f1).1 _ (by simp [slicesObj, slicesStd]), q2, q3, fun j hj => ?_⟩
    obtain ⟨q, o', r1, r2, r3⟩ := q4 j hj
    exact ⟨q, o', elemAtM_again f1 e2 (by omega) (by rw [slotM_eq f1]; exact r1), r2, r3⟩

/-! ### Elements that were not accessed before -/

/-- What is used of `NewStandardMappedValue` and `NewMappedRecord`. -/
structure AllocFresh {α : Type} (alloc : Heap → Bytes → Heap × Res Nat) (dec : Bytes → Res (α × Nat)) : Prop where
  onOk : ∀ h buf x n, dec buf = .ok (x, n) → ∃ ext p o, alloc h buf = (h ++ ext, .ok p) ∧ h.length ≤ p ∧ (h ++ ext)[p]? = some o ∧
    o.bufLen = n ∧ n ≤ buf.length
  onErr : ∀ h buf, dec buf = .err → alloc h buf = (h, .err)
  onPanic : ∀ h buf, dec buf = .panic → alloc h buf = (h, .panic)

theorem allocStd_fresh : AllocFresh allocStd decodeStd where
  onOk := by
    intro h buf x n e
    obtain ⟨rest, h1, h2, h3⟩ := (decodeStd_ok_iff _ _ _).mp e
    refine ⟨_, _, freshVal x, by rw [allocStd, e], Nat.le_refl _, by simp, h2.symm, ?_⟩
    have := congrArg List.length h1
    rw [List.length_append] at this
    omega
  onErr := by intro h buf e; rw [allocStd, e]
  onPanic := by intro h buf e; rw [allocStd, e]

theorem allocRec_fresh : AllocFresh allocRec decodeRecord where
  onOk := by
    intro h buf x n e
    obtain ⟨h1, h2, h3, -⟩ := decodeRecord_ok e
    refine ⟨_, _, .record x h.length (h.length + 1), by rw [allocRec, e], by omega, by simp, ?_, h2⟩
    show x.buf.length = n
    rw [h3, List.length_take]
    omega
  onErr := by intro h buf e; rw [allocRec, e]
  onPanic := by intro h buf e; rw [allocRec, e]

/-- A read of an element, with the outcome of the read. -/
def readOutcome {α : Type} (alloc : Heap → Bytes → Heap × Res Nat) (dec : Bytes → Res (α × Nat)) (id i : Nat) (x : Res α)
    (r : Heap × Res Unit) : Prop :=
  match x with
  | .ok x => ∃ h1 h2 p buf n, r = (h2.setSlot id i (.obj p), .ok ()) ∧ dec buf = .ok (x, n) ∧ alloc h1 buf = (h2, .ok p) ∧ id < h1.length ∧
      h2.slot id i = some .empty
  | .err => r.2 = .err
  | .panic => r.2 = .panic

theorem lazyLoop_fresh {α : Type} {alloc : Heap → Bytes → Heap × Res Nat} {dec : Bytes → Res (α × Nat)} (A : AllocFresh alloc dec)
    {content : Bytes} {id : Nat} : ∀ (n i pos : Nat) (h : Heap), id < h.length → pos ≤ content.length →
      (∀ j, i ≤ j → j ≤ i + n → h.slot id j = some .empty) →
      readOutcome alloc dec id (i + n) (elemOf dec (content.drop pos) n) (lazyLoop alloc content id (n + 1) i pos h)
  | 0, i, pos, h, hid, hp, he => by
    rw [lazyLoop, he i (by omega) (by omega)]
    simp only
    rw [if_neg (by omega)]
    cases hx : dec (content.drop pos) with
    | ok q =>
      obtain ⟨x, n⟩ := q
      obtain ⟨ext, p, o, h1, h2, h3, -⟩ := A.onOk h _ _ _ hx
      rw [h1]
      simp only [h3, lazyLoop, elemOf, hx, Res.bind_ok, readOutcome]
      refine ⟨h, h ++ ext, p, content.drop pos, n, rfl, hx, h1, hid, ?_⟩
      have := he i (by omega) (by omega)
      rw [Heap.slot] at this ⊢
      rw [List.getElem?_append_left hid]
      exact this
    | err => rw [A.onErr h _ hx, elemOf, hx]; rfl
    | panic => rw [A.onPanic h _ hx, elemOf, hx]; rfl
  | n + 1, i, pos, h, hid, hp, he => by
    rw [lazyLoop, he i (by omega) (by omega)]
    simp only
    rw [if_neg (by omega)]
    cases hx : dec (content.drop pos) with
    | ok q =>
      obtain ⟨x, k⟩ := q
      obtain ⟨ext, p, o, h1, h2, h3, h4, h5⟩ := A.onOk h _ _ _ hx
      rw [List.length_drop] at h5
      rw [h1]
      simp only [h3]
      have hs0 := he i (by omega) (by omega)
      have hsl : ∀ j, (h ++ ext).slot id j = h.slot id j := by
        intro j
        rw [Heap.slot, Heap.slot, List.getElem?_append_left hid]
      have hlen : id < (h ++ ext).length := by rw [List.length_append]; omega
      obtain ⟨d, sl, e⟩ : ∃ d sl, (h ++ ext)[id]? = some (.val d sl) := by
        have := (hsl i).trans hs0
        rw [Heap.slot] at this
        split at this
        · rename_i d sl e
          exact ⟨d, sl, e⟩
        · cases this
      have ih := lazyLoop_fresh A (content := content) n (i + 1) (pos + k) ((h ++ ext).setSlot id i (.obj p))
        (by rw [setSlot_eq e, List.length_set]; exact hlen) (by omega) (by
          intro j hj1 hj2
          have := (hsl j).trans (he j (by omega) (by omega))
          rw [slot_eq e] at this
          rw [setSlot_eq e, slot_eq (d := d) (sl := sl.set i (.obj p)) (List.getElem?_set_self hlen), List.getElem?_set_ne (by omega)]
          exact this)
      rw [elemOf, hx, Res.bind_ok, h4]
      simp only
      rw [List.drop_drop]
      rw [show i + (n + 1) = i + 1 + n by omega]
      exact ih
    | err => rw [A.onErr h _ hx, elemOf, hx]; rfl
    | panic => rw [A.onPanic h _ hx, elemOf, hx]; rfl

theorem lazyAt_fresh {α : Type} {alloc : Heap → Bytes → Heap × Res Nat} {dec : Bytes → Res (α × Nat)} (A : AllocFresh alloc dec)
    {h : Heap} {id idx : Nat} {d : StdValue} (e : h[id]? = some (.val d (List.replicate d.size .empty))) (hz : idx < d.size) :
    match elemOf dec d.content idx with
    | .ok x => ∃ h1 h2 p buf n, lazyAt alloc h id d idx = (h2.setSlot id idx (.obj p), .ok (some p)) ∧ dec buf = .ok (x, n) ∧
        alloc h1 buf = (h2, .ok p) ∧ id < h1.length
    | .err => (lazyAt alloc h id d idx).2 = .err
    | .panic => (lazyAt alloc h id d idx).2 = .panic := by
  have hid := (List.getElem?_eq_some_iff.mp e).1
  have hs : ∀ j, j < d.size → h.slot id j = some .empty := by
    intro j hj
    rw [slot_eq e, List.getElem?_replicate, if_pos hj]
  have := lazyLoop_fresh A (content := d.content) (id := id) idx 0 0 h hid (Nat.zero_le _) fun j _ hj => hs j (by omega)
  rw [lazyAt, if_neg (by omega), hs idx hz]
  simp only
  rw [List.drop_zero, Nat.zero_add] at this
  cases hx : elemOf dec d.content idx with
  | ok x =>
    rw [hx] at this
    obtain ⟨h1, h2, p, buf, n, q1, q2, q3, q4, q5⟩ := this
    refine ⟨h1, h2, p, buf, n, ?_, q2, q3, q4⟩
    rw [q1]
    simp only
    have : (h2.setSlot id idx (.obj p)).slot id idx = some (.obj p) := by
      rw [Heap.slot] at q5
      split at q5
      · rename_i d2 sl2 e2
        rw [setSlot_eq e2, slot_eq (d := d2) (sl := sl2.set idx (.obj p)) (List.getElem?_set_self (List.getElem?_eq_some_iff.mp e2).1),
          List.getElem?_set_self (List.getElem?_eq_some_iff.mp q5).1]
      · cases q5
    rw [this]
  | err =>
    rw [hx] at this
    change (lazyLoop _ _ _ _ _ _ _).2 = _ at this
    revert this
    cases lazyLoop alloc d.content id (idx + 1) 0 0 h with
    | mk h1 r => rintro rfl; rfl
  | panic =>
    rw [hx] at this
    change (lazyLoop _ _ _ _ _ _ _).2 = _ at this
    revert this
    cases lazyLoop alloc d.content id (idx + 1) 0 0 h with
    | mk h1 r => rintro rfl; rfl

theorem setSlot_elsewhere {h : Heap} {id i p : Nat} (hp : id ≠ p) (x : Slot) : (h.setSlot id i x)[p]? = h[p]? := by
  rw [Heap.setSlot]
  split
  · rw [List.getElem?_set_ne hp]
  · rfl

/-- What reading one element shows. -/
def showsElem : Res StdValue → Res (Option StdValue)
  | .ok x => .ok (some x)
  | .err => .err
  | .panic => .panic

/-- What reading one record shows. -/
def showsRec : Res RecInfo → Res (Option (RecInfo × Option StdValue × Option StdValue))
  | .ok x => .ok (some (x, some x.value, some x.scheme))
  | .err => .err
  | .panic => .panic

theorem writes_runs : ∀ (l : List MAct) (m : Mem) (h : MHeap), MAct.OnlyWrites l → (MAct.runs (m, h) l).2 = h
  | [], _, _, _ => rfl
  | x :: l, m, h, hl => by
    obtain ⟨a, i, b, rfl⟩ := hl x (by simp)
    exact writes_runs l (m.write a i b) h fun y hy => hl y (List.mem_cons_of_mem _ hy)

/-- C197: the elements of an array are read when they are asked for: if nothing was accessed before, `ValueAt` shows the element in the
bytes that are in the buffer now, whatever was there when the array was decoded. -/
theorem C197_late_value_partial (m : Mem) (s : Sl) (d : SStd) (n : Nat) (hi : inside m s) (hd : stdAt m s = .ok (d, n)) (hk : d.kind = .array)
    (l : List MAct) (hl : MAct.OnlyWrites l) (i : Nat) (hz : i < d.size) :
    ∃ h, allocStdM m [] s = (h, .ok 0) ∧
      seen (viewCall (MAct.runs (m, h) l).1 (valueAtM (MAct.runs (m, h) l).1 (MAct.runs (m, h) l).2 0 i)) =
        showsElem (elemOf decodeStd ((MAct.runs (m, h) l).1.read d.content) i) := by
  have ha : allocStdM m [] s = ([freshValM d], .ok 0) := by rw [allocStdM, hd]; rfl
  have hdec : DecodedFrom m s [freshValM d] 0 := ⟨hi, .inl ha⟩
  refine ⟨_, ha, ?_⟩
  rw [(C197_now_partial m s _ 0 hdec l 0 i).1, writes_runs l m _ hl]
  generalize (MAct.runs (m, [freshValM d]) l).1 = m'
  have e : (viewHeap m' [freshValM d])[0]? = some (.val (viewStd m' d) (List.replicate (viewStd m' d).size .empty)) := by
    simp [viewHeap, viewObj, freshValM, hk, viewStd]
  have hf := lazyAt_fresh allocStd_fresh e (idx := i) hz
  rw [Heap.valueAt, e]
  simp only
  rw [if_neg (by simp [viewStd, hk])]
  rw [show (viewStd m' d).content = m'.read d.content from rfl] at hf
  cases hx : elemOf decodeStd (m'.read d.content) i with
  | ok x =>
    rw [hx] at hf
    obtain ⟨h1, h2, p, buf, k, q1, q2, q3, q4⟩ := hf
    rw [q1, seen]
    simp only
    rw [allocStd, q2] at q3
    cases q3
    rw [setSlot_elsewhere (by omega)]
    simp [freshVal, showsElem]
  | err =>
    rw [hx] at hf
    simp only at hf
    rw [seen, hf]
    rfl
  | panic =>
    rw [hx] at hf
    simp only at hf
    rw [seen, hf]
    rfl

/-- C197: the same for the records of a list. -/
theorem C197_late_record_partial (m : Mem) (s : Sl) (d : SStd) (n : Nat) (hi : inside m s) (hd : stdAt m s = .ok (d, n)) (hk : d.kind = .records)
    (l : List MAct) (hl : MAct.OnlyWrites l) (i : Nat) (hz : i < d.size) :
    ∃ h, allocStdM m [] s = (h, .ok 0) ∧
      seenRec (viewCall (MAct.runs (m, h) l).1 (recordAtM (MAct.runs (m, h) l).1 (MAct.runs (m, h) l).2 0 i)) =
        showsRec (elemOf decodeRecord ((MAct.runs (m, h) l).1.read d.content) i) := by
  have ha : allocStdM m [] s = ([freshValM d], .ok 0) := by rw [allocStdM, hd]; rfl
  have hdec : DecodedFrom m s [freshValM d] 0 := ⟨hi, .inl ha⟩
  refine ⟨_, ha, ?_⟩
  rw [(C197_now_partial m s _ 0 hdec l 0 i).2, writes_runs l m _ hl]
  generalize (MAct.runs (m, [freshValM d]) l).1 = m'
  have e : (viewHeap m' [freshValM d])[0]? = some (.val (viewStd m' d) (List.replicate (viewStd m' d).size .empty)) := by
    simp [viewHeap, viewObj, freshValM, hk, viewStd]
  have hf := lazyAt_fresh allocRec_fresh e (idx := i) hz
  rw [Heap.recordAt, e]
  simp only
  rw [if_neg (by simp [viewStd, hk])]
  rw [show (viewStd m' d).content = m'.read d.content from rfl] at hf
  cases hx : elemOf decodeRecord (m'.read d.content) i with
  | ok x =>
    rw [hx] at hf
    obtain ⟨h1, h2, p, buf, k, q1, q2, q3, q4⟩ := hf
    rw [q1]
    rw [allocRec, q2] at q3
    cases q3
    have e1 : h1.length ≠ 0 := by omega
    simp only [seenRec, Heap.recValue, Heap.recScheme, seenVal]
    rw [setSlot_elsewhere (by omega)]
    simp only [List.getElem?_append_right (Nat.le_add_right _ _), Nat.add_sub_cancel_left, List.getElem?_cons_succ, List.getElem?_cons_zero]
    rw [setSlot_elsewhere (by omega), setSlot_elsewhere (by omega)]
    simp [freshVal, showsRec]
  | err =>
    rw [hx] at hf
    simp only at hf
    rw [seenRec, hf]
    rfl
  | panic =>
    rw [hx] at hf
    simp only at hf
    rw [seenRec, hf]
    rfl

/-! ### Examples -/

/-- An array of two values of one byte each, at position 1 of an array, with bytes before and behind it. -/
def heldArray : Mem := [[9, 0x41, 2, 6, 0x01, 1, 0x61, 0x01, 1, 0x62, 8]]

/-- The slice of it. -/
def heldSlice : Sl := ⟨0, 1, 9⟩

theorem held_decoded : DecodedFrom heldArray heldSlice [freshValM { buf := ⟨0, 1, 9⟩, kind := .array, size := 2, content := ⟨0, 4, 6⟩ }] 0 :=
  ⟨⟨_, rfl, by decide⟩, .inl (by decide +kernel)⟩

/-- C197 is false: a byte that is assigned after decoding is seen by a later access. -/
theorem C197_refuted : ¬ ElementsFixed := by
  intro H
  have := H heldArray heldSlice _ 0 held_decoded [.write 0 9 0x63] 1
  revert this
  decide +kernel

example := C197_outside_partial heldArray heldSlice _ 0 held_decoded [.value 0 0, .write 0 10 1, .value 0 1, .write 0 0 1] (by
  intro a i b h
  simp only [List.mem_cons, MAct.write.injEq, reduceCtorEq, List.not_mem_nil, or_false, false_or] at h
  rcases h with ⟨rfl, rfl, -⟩ | ⟨rfl, rfl, -⟩ <;> simp [covers, heldSlice])

example := C197_now_partial heldArray heldSlice _ 0 held_decoded [.value 0 0, .write 0 9 0x63] 0 1

/-- The element 0 was accessed, then its bytes are made invalid: it is returned as before. -/
example := C197_kept heldArray heldSlice _ 0 held_decoded [] false 0 0 1 (valueAtM heldArray [freshValM
  { buf := ⟨0, 1, 9⟩, kind := .array, size := 2, content := ⟨0, 4, 6⟩ }] 0 0).1 (by decide +kernel) [.write 0 4 0xff, .value 0 1]

example := C197_tiles heldArray heldSlice _ 0 held_decoded [.value 0 0, .write 0 4 0xff] false 0 1 2
  (valueAtM (heldArray.write 0 4 0xff) (valueAtM heldArray [freshValM
    { buf := ⟨0, 1, 9⟩, kind := .array, size := 2, content := ⟨0, 4, 6⟩ }] 0 0).1 0 1).1 (by decide +kernel)

example := C197_late_value_partial heldArray heldSlice { buf := ⟨0, 1, 9⟩, kind := .array, size := 2, content := ⟨0, 4, 6⟩ } 9
  held_decoded.1 (by decide +kernel) rfl [.write 0 9 0x63] (by intro x hx; simp only [List.mem_singleton] at hx; exact ⟨_, _, _, hx⟩) 1 (by decide)

/-- What is shown then. -/
example : elemOf decodeStd ((heldArray.write 0 9 0x63).read ⟨0, 4, 6⟩) 1 = .ok ⟨[0x01, 1, 0x63], .prim, 0, [0x63]⟩ := by decide +kernel

/-- A list of one record. -/
example := C197_late_record_partial [[0x11, 1, 6, 0x70, 0x00, 0x01, 1, 0x61, 0x00]] ⟨0, 0, 9⟩
  { buf := ⟨0, 0, 9⟩, kind := .records, size := 1, content := ⟨0, 3, 6⟩ } 9 ⟨_, rfl, by decide⟩ (by decide +kernel) rfl [.write 0 7 0x63]
  (by intro x hx; simp only [List.mem_singleton] at hx; exact ⟨_, _, _, hx⟩) 0 (by decide)

end Poodle.Props
