import Verif.Spec.ValueMem
import Verif.Lemmas.SharingCopy
import Verif.Lemmas.ValueHeap

/-
Lemmas on decoded values that are accessed while bytes are assigned.
-/

namespace Poodle
open Spec Props

/-! ### What is shown -/

theorem viewHeap_get (m : Mem) (h : MHeap) (i : Nat) : (viewHeap m h)[i]? = h[i]?.map (viewObj m) := by simp [viewHeap]

theorem viewHeap_length (m : Mem) (h : MHeap) : (viewHeap m h).length = h.length := by simp [viewHeap]

theorem viewHeap_append (m : Mem) (h e : MHeap) : viewHeap m (h ++ e) = viewHeap m h ++ viewHeap m e := by simp [viewHeap]

theorem viewHeap_slot (m : Mem) (h : MHeap) (id i : Nat) : (viewHeap m h).slot id i = slotM h id i := by
  rw [Heap.slot, slotM, viewHeap_get]
  rcases h[id]? with _ | (⟨d, sl⟩ | ⟨r, v, s⟩) <;> rfl

theorem viewHeap_setSlot (m : Mem) (h : MHeap) (id i : Nat) (x : Slot) : viewHeap m (setSlotM h id i x) = (viewHeap m h).setSlot id i x := by
  rw [Heap.setSlot, setSlotM, viewHeap_get]
  rcases h[id]? with _ | (⟨d, sl⟩ | ⟨r, v, s⟩)
  · rfl
  · simp [viewHeap, List.map_set, viewObj]
  · rfl

theorem viewObj_fresh (m : Mem) (d : SStd) : viewObj m (freshValM d) = freshVal (viewStd m d) := rfl

/-- All slices of an object. -/
def slicesObj : WObj → List Sl
  | .val d _ => slicesStd d
  | .record r _ _ => slicesInfo r

theorem buf_mem : ∀ o : WObj, o.buf ∈ slicesObj o
  | .val _ _ => by simp [slicesObj, slicesStd, WObj.buf]
  | .record _ _ _ => by simp [slicesObj, slicesInfo, WObj.buf]

theorem viewObj_iff {m1 m2 : Mem} : ∀ o : WObj, viewObj m1 o = viewObj m2 o ↔ ∀ t ∈ slicesObj o, m1.read t = m2.read t
  | .val d sl => by simp only [viewObj, slicesObj, Obj.val.injEq, and_true]; exact viewStd_iff d
  | .record r v s => by simp only [viewObj, slicesObj, Obj.record.injEq, and_true]; exact viewInfo_iff r

theorem viewObj_bufLen {m : Mem} {o : WObj} (h : inside m o.buf) : (viewObj m o).bufLen = o.buf.len := by
  cases o with
  | val d sl => exact read_length h
  | record r v s => exact read_length h

/-! ### The invariant -/

/-- The elements decoded so far lie one after the other at the beginning of the content. -/
def Tiles (h : MHeap) (d : SStd) (sl : List Slot) : Prop :=
  ∀ (i p : Nat), sl[i]? = some (.obj p) → ∃ o, h[p]? = some o ∧ within o.buf d.content ∧ (i = 0 → o.buf.off = d.content.off) ∧
    ∀ j, i = j + 1 → ∃ q o', sl[j]? = some (.obj q) ∧ h[q]? = some o' ∧ adjacent o'.buf o.buf

/-- What holds of an object: all its slices are in `s`. -/
def InPlaceObj (s : Sl) (h : MHeap) (o : WObj) : Prop :=
  (∀ t ∈ slicesObj o, within t s) ∧ ∀ d sl, o = .val d sl → Tiles h d sl

/-- All objects. -/
def InPlace (s : Sl) (h : MHeap) : Prop := ∀ (id : Nat) (o : WObj), h[id]? = some o → InPlaceObj s h o

/-- An object later: what is in the cache stays there. -/
def Grows : WObj → WObj → Prop
  | .val d sl, .val d' sl' => d = d' ∧ sl.length = sl'.length ∧ ∀ (i : Nat) x, sl[i]? = some x → x ≠ Slot.empty → sl'[i]? = some x
  | .record r v s, .record r' v' s' => r = r' ∧ v = v' ∧ s = s'
  | _, _ => False

/-- All objects later. -/
def LaterM (h h' : MHeap) : Prop := ∀ (id : Nat) (o : WObj), h[id]? = some o → ∃ o', h'[id]? = some o' ∧ Grows o o'

theorem Grows.refl : ∀ o : WObj, Grows o o
  | .val _ _ => ⟨rfl, rfl, fun _ _ h _ => h⟩
  | .record _ _ _ => ⟨rfl, rfl, rfl⟩

theorem Grows.trans {a b c : WObj} (h1 : Grows a b) (h2 : Grows b c) : Grows a c := by
  cases a <;> cases b <;> cases c <;> simp only [Grows] at h1 h2 ⊢
  · exact ⟨h1.1.trans h2.1, h1.2.1.trans h2.2.1, fun i x e n => h2.2.2 i x (h1.2.2 i x e n) n⟩
  · exact ⟨h1.1.trans h2.1, h1.2.1.trans h2.2.1, h1.2.2.trans h2.2.2⟩

theorem Grows.buf {a b : WObj} (h : Grows a b) : a.buf = b.buf := by
  cases a <;> cases b <;> simp only [Grows] at h
  · exact congrArg SStd.buf h.1
  · exact congrArg SRecInfo.buf h.1

theorem Grows.slices {a b : WObj} (h : Grows a b) : slicesObj a = slicesObj b := by
  cases a <;> cases b <;> simp only [Grows] at h
  · exact congrArg slicesStd h.1
  · exact congrArg slicesInfo h.1

theorem Grows.shape {a b : WObj} (h : Grows a b) : SameShape a b := by
  cases a <;> cases b <;> simp only [Grows] at h
  · exact h.1
  · exact h

theorem LaterM.refl (h : MHeap) : LaterM h h := fun _ o e => ⟨o, e, Grows.refl o⟩

theorem LaterM.trans {a b c : MHeap} (h1 : LaterM a b) (h2 : LaterM b c) : LaterM a c := by
  intro id o e
  obtain ⟨o1, e1, g1⟩ := h1 id o e
  obtain ⟨o2, e2, g2⟩ := h2 id o1 e1
  exact ⟨o2, e2, g1.trans g2⟩

theorem laterM_append (h e : MHeap) : LaterM h (h ++ e) := by
  intro id o he
  exact ⟨o, by rw [List.getElem?_append_left (List.getElem?_eq_some_iff.mp he).1]; exact he, Grows.refl o⟩

theorem Tiles.mono {h h' : MHeap} (l : LaterM h h') {d : SStd} {sl : List Slot} (t : Tiles h d sl) : Tiles h' d sl := by
  intro i p hi
  obtain ⟨o, e, w, z, a⟩ := t i p hi
  obtain ⟨o1, e1, g1⟩ := l p o e
  refine ⟨o1, e1, g1.buf ▸ w, fun h0 => g1.buf ▸ z h0, fun j hj => ?_⟩
  obtain ⟨q, o', a1, a2, a3⟩ := a j hj
  obtain ⟨o2, e2, g2⟩ := l q o' a2
  exact ⟨q, o2, a1, e2, by rw [← g1.buf, ← g2.buf]; exact a3⟩

theorem laterM_set {h : MHeap} {id : Nat} {d : SStd} {sl : List Slot} (e : h[id]? = some (.val d sl)) {i : Nat}
    (hi : sl[i]? = some .empty) (x : Slot) : LaterM h (h.set id (.val d (sl.set i x))) := by
  have hid := (List.getElem?_eq_some_iff.mp e).1
  intro id' o e'
  by_cases hh : id = id'
  · subst hh
    rw [e] at e'
    cases e'
    refine ⟨.val d (sl.set i x), by rw [List.getElem?_set_self hid], rfl, by simp, fun j y hj hn => ?_⟩
    by_cases hij : i = j
    · subst hij
      rw [hi] at hj
      cases hj
      exact absurd rfl hn
    · rw [List.getElem?_set_ne hij]
      exact hj
  · exact ⟨o, by rw [List.getElem?_set_ne hh]; exact e', Grows.refl o⟩

theorem placed_later {s : Sl} {h h' : MHeap} (g : InPlace s h) (l : LaterM h h')
    (hn : ∀ (id : Nat) (o : WObj), h'[id]? = some o → h[id]? = some o ∨ InPlaceObj s h' o) : InPlace s h' := by
  intro id o e
  rcases hn id o e with h1 | h1
  · exact ⟨(g id o h1).1, fun d sl he => ((g id o h1).2 d sl he).mono l⟩
  · exact h1

/-- A fresh object. -/
def FreshObj (t : Sl) (o : WObj) : Prop := (∀ u ∈ slicesObj o, within u t) ∧ ∀ d sl, o = .val d sl → ∀ (i : Nat) x, sl[i]? = some x → x = Slot.empty

theorem freshValM_fresh {t : Sl} {d : SStd} (hd : ∀ u ∈ slicesStd d, within u t) : FreshObj t (freshValM d) := by
  refine ⟨hd, ?_⟩
  intro d' sl he i x hx
  cases he
  have := List.mem_of_getElem? hx
  exact (List.mem_replicate.mp this).2

/-- What `alloc` has to do with the function on bytes. -/
structure AllocM (m : Mem) (alloc : MHeap → Sl → MHeap × Res Nat) (allocP : Heap → Bytes → Heap × Res Nat) : Prop where
  sim : ∀ h t, inside m t → viewCall m (alloc h t) = allocP (viewHeap m h) (m.read t)
  onOk : ∀ h t h' p, inside m t → alloc h t = (h', .ok p) → ∃ ext o, h' = h ++ ext ∧ h.length ≤ p ∧ h'[p]? = some o ∧
    o.buf = t.sub 0 o.buf.len ∧ o.buf.len ≤ t.len ∧ ∀ x ∈ ext, FreshObj t x
  onErr : ∀ h t h', alloc h t = (h', .err) → h' = h
  onPanic : ∀ h t h', alloc h t = (h', .panic) → h' = h

theorem stdAt_buf {m : Mem} {s : Sl} {d : SStd} {n : Nat} (h : stdAt m s = .ok (d, n)) : d.buf = s.sub 0 d.buf.len := by
  rw [stdAt] at h
  obtain ⟨⟨x, k⟩, e1, e2⟩ := Res.bind_eq_ok.mp h
  cases e2
  rfl

theorem recordAt_buf {m : Mem} {s : Sl} {r : SRecInfo} {n : Nat} (h : recordAt m s = .ok (r, n)) : r.buf = s.sub 0 r.buf.len := by
  rw [recordAt] at h
  obtain ⟨⟨x, k⟩, e1, e2⟩ := Res.bind_eq_ok.mp h
  obtain ⟨⟨y, k⟩, e3, e4⟩ := Res.bind_eq_ok.mp e2
  cases e4
  rfl

theorem allocStdM_ok (m : Mem) : AllocM m (allocStdM m) allocStd where
  sim := by
    intro h t hi
    have hv := stdAt_view hi
    rw [allocStdM, allocStd, ← hv]
    rcases stdAt m t with ⟨d, n⟩ | - | -
    · simp [viewCall, mapR_ok, viewHeap, viewObj_fresh]
    · rfl
    · rfl
  onOk := by
    intro h t h' p hi e
    rw [allocStdM] at e
    cases hs : stdAt m t with
    | ok q =>
      obtain ⟨d, n⟩ := q
      rw [hs] at e
      cases e
      obtain ⟨-, h2, h3, h4⟩ := stdAt_ok hi hs
      refine ⟨[freshValM d], freshValM d, rfl, Nat.le_refl _, by simp, stdAt_buf hs, ?_, ?_⟩
      · show d.buf.len ≤ _
        omega
      · intro x hx
        rw [List.mem_singleton.mp hx]
        exact freshValM_fresh h2
    | err => rw [hs] at e; cases e
    | panic => rw [hs] at e; cases e
  onErr := by
    intro h t h' e
    rw [allocStdM] at e
    cases hs : stdAt m t <;> rw [hs] at e <;> cases e
    rfl
  onPanic := by
    intro h t h' e
    rw [allocStdM] at e
    cases hs : stdAt m t <;> rw [hs] at e <;> cases e
    rfl

theorem allocRecM_ok (m : Mem) : AllocM m (allocRecM m) allocRec where
  sim := by
    intro h t hi
    have hv := recordAt_view hi
    rw [allocRecM, allocRec, ← hv]
    rcases recordAt m t with ⟨d, n⟩ | - | -
    · simp [viewCall, mapR_ok, viewHeap, freshValM, freshVal, viewObj, viewInfo, viewStd]
    · rfl
    · rfl
  onOk := by
    intro h t h' p hi e
    rw [allocRecM] at e
    cases hs : recordAt m t with
    | ok q =>
      obtain ⟨r, n⟩ := q
      rw [hs] at e
      cases e
      obtain ⟨-, h2, h3, h4⟩ := memRecord_ok hi hs
      refine ⟨_, .record r h.length (h.length + 1), rfl, by omega, by simp, recordAt_buf hs, ?_, ?_⟩
      · show r.buf.len ≤ _
        omega
      · intro x hx
        simp only [List.mem_cons, List.not_mem_nil, or_false] at hx
        rcases hx with rfl | rfl | rfl
        · exact freshValM_fresh fun u hu => h2 u (by simp [slicesInfo, hu])
        · exact freshValM_fresh fun u hu => h2 u (by simp [slicesInfo, hu])
        · exact ⟨h2, fun d sl he => by cases he⟩
    | err => rw [hs] at e; cases e
    | panic => rw [hs] at e; cases e
  onErr := by
    intro h t h' e
    rw [allocRecM] at e
    cases hs : recordAt m t <;> rw [hs] at e <;> cases e
    rfl
  onPanic := by
    intro h t h' e
    rw [allocRecM] at e
    cases hs : recordAt m t <;> rw [hs] at e <;> cases e
    rfl

theorem placed_append {s t : Sl} {h ext : MHeap} (g : InPlace s h) (ht : within t s) (hx : ∀ x ∈ ext, FreshObj t x) : InPlace s (h ++ ext) := by
  refine placed_later g (laterM_append h ext) ?_
  intro id o e
  by_cases hid : id < h.length
  · rw [List.getElem?_append_left hid] at e
    exact .inl e
  · rw [List.getElem?_append_right (by omega)] at e
    obtain ⟨f1, f2⟩ := hx o (List.mem_of_getElem? e)
    refine .inr ⟨fun u hu => (f1 u hu).trans ht, fun d sl he i p hp => ?_⟩
    exact absurd (f2 d sl he i _ hp) (by simp)

theorem setSlotM_eq {h : MHeap} {id : Nat} {d : SStd} {sl : List Slot} (e : h[id]? = some (.val d sl)) (i : Nat) (x : Slot) :
    setSlotM h id i x = h.set id (.val d (sl.set i x)) := by
  rw [setSlotM, e]

theorem slotM_eq {h : MHeap} {id : Nat} {d : SStd} {sl : List Slot} (e : h[id]? = some (.val d sl)) (i : Nat) : slotM h id i = sl[i]? := by
  rw [slotM, e]

/-- Where the next element begins. -/
def NextAt (h : MHeap) (d : SStd) (sl : List Slot) (i pos : Nat) : Prop :=
  pos ≤ d.content.len ∧ (i = 0 → pos = 0) ∧
    ∀ j, i = j + 1 → ∃ q o, sl[j]? = some (.obj q) ∧ h[q]? = some o ∧ within o.buf d.content ∧ o.buf.off + o.buf.len = d.content.off + pos

theorem Tiles.start {h : MHeap} {d : SStd} {sl : List Slot} (t : Tiles h d sl) {i pos p : Nat} {o : WObj} (hn : NextAt h d sl i pos)
    (hp : sl[i]? = some (.obj p)) (ho : h[p]? = some o) : o.buf.off = d.content.off + pos := by
  obtain ⟨o', e, w, z, a⟩ := t i p hp
  rw [ho] at e
  cases e
  cases i with
  | zero => rw [hn.2.1 rfl]; exact z rfl
  | succ j =>
    obtain ⟨q, o1, b1, b2, b3⟩ := a j rfl
    obtain ⟨q', o2, c1, c2, c3, c4⟩ := hn.2.2 j rfl
    rw [b1] at c1
    cases c1
    rw [b2] at c2
    cases c2
    rw [← b3.2, c4]

theorem lazyLoopM_spec {m : Mem} {s : Sl} (hm : inside m s) {alloc : MHeap → Sl → MHeap × Res Nat} {allocP : Heap → Bytes → Heap × Res Nat}
    (A : AllocM m alloc allocP) {id : Nat} {d : SStd} : ∀ (n i pos : Nat) (h : MHeap) (sl : List Slot), InPlace s h → h[id]? = some (.val d sl) →
      NextAt h d sl i pos →
      InPlace s (lazyLoopM alloc d.content id n i pos h).1 ∧ LaterM h (lazyLoopM alloc d.content id n i pos h).1 ∧
      viewCall m (lazyLoopM alloc d.content id n i pos h) = lazyLoop allocP (m.read d.content) id n i pos (viewHeap m h)
  | 0, i, pos, h, sl, g, e, hn => ⟨g, LaterM.refl h, rfl⟩
  | n + 1, i, pos, h, sl, g, e, hn => by
    have hc : within d.content s := (g id _ e).1 _ (by simp [slicesObj, slicesStd])
    have hci := hc.inside hm
    have ht := (g id _ e).2 d sl rfl
    rw [lazyLoopM, lazyLoop, viewHeap_slot, slotM_eq e]
    cases hs : sl[i]? with
    | none => exact ⟨g, LaterM.refl h, rfl⟩
    | some x =>
      cases x with
      | typedNil => exact ⟨g, LaterM.refl h, rfl⟩
      | obj p =>
        obtain ⟨o, e1, w, z, a⟩ := ht i p hs
        dsimp only
        rw [viewHeap_get, e1]
        dsimp only [Option.map_some]
        have hb := viewObj_bufLen (w.inside hci)
        rw [hb]
        have hst := ht.start hn hs e1
        have w3 := w.2.2
        refine lazyLoopM_spec hm A n (i + 1) _ h sl g e ⟨by omega, by omega, ?_⟩
        intro j hj
        obtain rfl : j = i := by omega
        exact ⟨p, o, hs, e1, w, by omega⟩
      | empty =>
        dsimp only
        rw [read_length hci]
        rw [if_neg (by have := hn.1; omega), if_neg (by have := hn.1; omega)]
        have hri : within (d.content.rest pos) d.content := within_rest hn.1
        have hsim := A.sim h (d.content.rest pos) (hri.inside hci)
        rw [read_rest] at hsim
        rw [← hsim]
        cases ha : alloc h (d.content.rest pos) with
        | mk h1 r =>
          cases r with
          | ok p =>
            obtain ⟨ext, o, rfl, hp, ho, hb, hl, hx⟩ := A.onOk _ _ _ _ (hri.inside hci) ha
            simp only [viewCall]
            rw [viewHeap_get, ho]
            dsimp only [Option.map_some]
            have g1 := placed_append g (hri.trans hc) hx
            have e' : (h ++ ext)[id]? = some (.val d sl) := by
              rw [List.getElem?_append_left (List.getElem?_eq_some_iff.mp e).1]; exact e
            have hid' := (List.getElem?_eq_some_iff.mp e').1
            have hpid : id ≠ p := by
              have := (List.getElem?_eq_some_iff.mp e).1
              omega
            have wo : within o.buf d.content := by
              rw [hb]
              exact (within_sub (by omega)).trans hri
            have hso : o.buf.off = d.content.off + pos := by rw [hb]; simp [Sl.sub, Sl.rest]
            have hlen : o.buf.len ≤ d.content.len - pos := by simpa [Sl.rest] using hl
            rw [viewObj_bufLen (wo.inside hci), ← viewHeap_setSlot, setSlotM_eq e']
            have l1 := laterM_set e' hs (.obj p)
            have hsl : i < sl.length := (List.getElem?_eq_some_iff.mp hs).1
            have epset : ((h ++ ext).set id (.val d (sl.set i (.obj p))))[p]? = some o := by rw [List.getElem?_set_ne hpid]; exact ho
            have tl : Tiles ((h ++ ext).set id (.val d (sl.set i (.obj p)))) d (sl.set i (.obj p)) := by
              have told := ((g1 id _ e').2 d sl rfl).mono l1
              have nold : NextAt (h ++ ext) d sl i pos := by
                refine ⟨hn.1, hn.2.1, fun j hj => ?_⟩
                obtain ⟨q, o2, c1, c2, c3⟩ := hn.2.2 j hj
                exact ⟨q, o2, c1, by rw [List.getElem?_append_left (List.getElem?_eq_some_iff.mp c2).1]; exact c2, c3⟩
              intro k q hk
              by_cases hik : i = k
              · subst hik
                rw [List.getElem?_set_self hsl] at hk
                cases hk
                refine ⟨o, epset, wo, fun h0 => by rw [hso, hn.2.1 h0]; rfl, fun j hj => ?_⟩
                obtain ⟨q, o2, c1, c2, c3, c4⟩ := nold.2.2 j hj
                obtain ⟨o3, d1, d2⟩ := l1 q o2 c2
                refine ⟨q, o3, by rw [List.getElem?_set_ne (by omega)]; exact c1, d1, ?_⟩
                rw [← d2.buf]
                exact ⟨c3.1.trans wo.1.symm, by omega⟩
              · rw [List.getElem?_set_ne hik] at hk
                obtain ⟨o2, f1, f2, f3, f4⟩ := told k q hk
                refine ⟨o2, f1, f2, f3, fun j hj => ?_⟩
                obtain ⟨q', o3, b1, b2, b3⟩ := f4 j hj
                refine ⟨q', o3, ?_, b2, b3⟩
                by_cases hij : i = j
                · subst hij
                  rw [hs] at b1
                  cases b1
                · rw [List.getElem?_set_ne hij]
                  exact b1
            have g2 : InPlace s ((h ++ ext).set id (.val d (sl.set i (.obj p)))) := by
              refine placed_later g1 l1 ?_
              intro id2 o2 e2
              by_cases hh : id = id2
              · subst hh
                rw [List.getElem?_set_self hid'] at e2
                cases e2
                refine .inr ⟨(g1 id _ e').1, ?_⟩
                intro d' sl' he
                cases he
                exact tl
              · rw [List.getElem?_set_ne hh] at e2
                exact .inl e2
            have e2 : ((h ++ ext).set id (.val d (sl.set i (.obj p))))[id]? = some (.val d (sl.set i (.obj p))) := List.getElem?_set_self hid'
            obtain ⟨r1, r2, r3⟩ := lazyLoopM_spec hm A n (i + 1) (pos + o.buf.len) _ _ g2 e2 ⟨by have := hn.1; omega, by omega, fun j hj => by
              obtain rfl : j = i := by omega
              exact ⟨p, o, by rw [List.getElem?_set_self hsl], epset, wo, by omega⟩⟩
            exact ⟨r1, ((laterM_append h ext).trans l1).trans r2, r3⟩
          | err =>
            obtain rfl := A.onErr _ _ _ ha
            simp only [viewCall]
            rw [← viewHeap_setSlot, setSlotM_eq e]
            have l1 := laterM_set e hs .typedNil
            refine ⟨?_, l1, rfl⟩
            refine placed_later g l1 ?_
            intro id2 o2 e2
            by_cases hh : id = id2
            · subst hh
              rw [List.getElem?_set_self (List.getElem?_eq_some_iff.mp e).1] at e2
              cases e2
              refine .inr ⟨(g id _ e).1, ?_⟩
              intro d' sl' he
              cases he
              have told := ht.mono l1
              intro k q hk
              by_cases hik : i = k
              · subst hik
                rw [List.getElem?_set_self (List.getElem?_eq_some_iff.mp hs).1] at hk
                cases hk
              · rw [List.getElem?_set_ne hik] at hk
                obtain ⟨o2, f1, f2, f3, f4⟩ := told k q hk
                refine ⟨o2, f1, f2, f3, fun j hj => ?_⟩
                obtain ⟨q', o3, b1, b2, b3⟩ := f4 j hj
                refine ⟨q', o3, ?_, b2, b3⟩
                by_cases hij : i = j
                · subst hij
                  rw [hs] at b1
                  cases b1
                · rw [List.getElem?_set_ne hij]
                  exact b1
            · rw [List.getElem?_set_ne hh] at e2
              exact .inl e2
          | panic =>
            obtain rfl := A.onPanic _ _ _ ha
            exact ⟨g, LaterM.refl _, rfl⟩

theorem lazyAtM_spec {m : Mem} {s : Sl} (hm : inside m s) {alloc : MHeap → Sl → MHeap × Res Nat} {allocP : Heap → Bytes → Heap × Res Nat}
    (A : AllocM m alloc allocP) {id : Nat} {d : SStd} {h : MHeap} {sl : List Slot} (g : InPlace s h) (e : h[id]? = some (.val d sl)) (idx : Nat) :
    InPlace s (lazyAtM alloc h id d idx).1 ∧ LaterM h (lazyAtM alloc h id d idx).1 ∧
    viewCall m (lazyAtM alloc h id d idx) = lazyAt allocP (viewHeap m h) id (viewStd m d) idx := by
  obtain ⟨r1, r2, r3⟩ := lazyLoopM_spec hm A (idx + 1) 0 0 h sl g e ⟨Nat.zero_le _, fun _ => rfl, fun j hj => by omega⟩
  rw [lazyAtM, lazyAt, viewHeap_slot, slotM_eq e]
  show _ ∧ _ ∧ _ = if idx ≥ d.size then _ else _
  by_cases hz : idx ≥ d.size
  · rw [if_pos hz, if_pos hz]
    exact ⟨g, LaterM.refl h, rfl⟩
  rw [if_neg hz, if_neg hz]
  cases hs : sl[idx]? with
  | none => exact ⟨g, LaterM.refl h, rfl⟩
  | some x =>
    cases x with
    | typedNil => exact ⟨g, LaterM.refl h, rfl⟩
    | obj p => exact ⟨g, LaterM.refl h, rfl⟩
    | empty =>
      dsimp only
      show _ ∧ _ ∧ _ = (match lazyLoop allocP (m.read d.content) id (idx + 1) 0 0 (viewHeap m h) with
        | (h, .ok ()) => _ | (h, .err) => _ | (h, .panic) => _)
      rw [← r3]
      cases hr : lazyLoopM alloc d.content id (idx + 1) 0 0 h with
      | mk h1 r =>
        rw [hr] at r1 r2
        cases r with
        | ok u =>
          simp only [viewCall, viewHeap_slot]
          cases slotM h1 id idx with
          | none => exact ⟨r1, r2, rfl⟩
          | some x => cases x <;> exact ⟨r1, r2, rfl⟩
        | err => exact ⟨r1, r2, rfl⟩
        | panic => exact ⟨r1, r2, rfl⟩

theorem valueAtM_spec {m : Mem} {s : Sl} (hm : inside m s) {h : MHeap} (g : InPlace s h) (id idx : Nat) :
    InPlace s (valueAtM m h id idx).1 ∧ LaterM h (valueAtM m h id idx).1 ∧
    viewCall m (valueAtM m h id idx) = (viewHeap m h).valueAt id idx := by
  rw [valueAtM, Heap.valueAt, viewHeap_get]
  cases e : h[id]? with
  | none => exact ⟨g, LaterM.refl h, rfl⟩
  | some o =>
    cases o with
    | record r v sc => exact ⟨g, LaterM.refl h, rfl⟩
    | val d sl =>
      simp only [Option.map_some, viewObj]
      show _ ∧ _ ∧ _ = if d.kind ≠ .array then _ else _
      by_cases hk : d.kind ≠ .array
      · rw [if_pos hk, if_pos hk]
        exact ⟨g, LaterM.refl h, rfl⟩
      · rw [if_neg hk, if_neg hk]
        exact lazyAtM_spec hm (allocStdM_ok m) g e idx

theorem recordAtM_spec {m : Mem} {s : Sl} (hm : inside m s) {h : MHeap} (g : InPlace s h) (id idx : Nat) :
    InPlace s (recordAtM m h id idx).1 ∧ LaterM h (recordAtM m h id idx).1 ∧
    viewCall m (recordAtM m h id idx) = (viewHeap m h).recordAt id idx := by
  rw [recordAtM, Heap.recordAt, viewHeap_get]
  cases e : h[id]? with
  | none => exact ⟨g, LaterM.refl h, rfl⟩
  | some o =>
    cases o with
    | record r v sc => exact ⟨g, LaterM.refl h, rfl⟩
    | val d sl =>
      simp only [Option.map_some, viewObj]
      show _ ∧ _ ∧ _ = if d.kind ≠ .records then _ else _
      by_cases hk : d.kind ≠ .records
      · rw [if_pos hk, if_pos hk]
        exact ⟨g, LaterM.refl h, rfl⟩
      · rw [if_neg hk, if_neg hk]
        exact lazyAtM_spec hm (allocRecM_ok m) g e idx

end Poodle
