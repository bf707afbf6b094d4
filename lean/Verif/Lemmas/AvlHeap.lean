import Verif.Lemmas.AvlIter
import Verif.Spec.AvlHeap

namespace Poodle
open Poodle.Spec

set_option linter.unusedSimpArgs false

variable {K V : Type}

open PTree

theorem Owns.frame {h h' : AHeap K V} (P : PTree K V) (hp : Owns h P) (he : ∀ a ∈ P.addrs, h'[a]? = h[a]?) : Owns h' P := by
  induction P with
  | nil => trivial
  | node a k v b l r ihl ihr =>
    obtain ⟨h1, h2, h3⟩ := hp
    refine ⟨by rw [he a (by simp [addrs]), h1], ihl h2 fun x hx => he x (by simp [addrs, hx]), ihr h3 fun x hx => he x (by simp [addrs, hx])⟩

theorem Owns.set {h : AHeap K V} (P : PTree K V) (hp : Owns h P) {a : Nat} (ha : a ∉ P.addrs) {n : HNode K V} :
    Owns (h.set a n) P := by
  refine Owns.frame P hp fun x hx => ?_
  rw [List.getElem?_set_ne]
  rintro rfl
  exact ha hx

theorem Owns.lt {h : AHeap K V} (P : PTree K V) (hp : Owns h P) : ∀ a ∈ P.addrs, a < h.length := by
  induction P with
  | nil => simp [addrs]
  | node a k v b l r ihl ihr =>
    obtain ⟨h1, h2, h3⟩ := hp
    intro x hx
    simp only [addrs, List.mem_append, List.mem_cons] at hx
    rcases hx with hx | rfl | hx
    · exact ihl h2 x hx
    · exact (List.getElem?_eq_some_iff.mp h1).1
    · exact ihr h3 x hx

/-- What a piece of code leaves alone. -/
def Frame (h h' : AHeap K V) (A : List Nat) : Prop := h.length ≤ h'.length ∧ ∀ a, a < h.length → a ∉ A → h'[a]? = h[a]?

section
variable {σ α β : Type}

theorem bind_run (x : PM σ α) (f : α → PM σ β) (s : σ) : (x >>= f) s = match x s with
    | (s, none) => (s, none)
    | (s, some a) => f a s := rfl

theorem pure_run (a : α) (s : σ) : (pure a : PM σ α) s = (s, some a) := rfl

theorem bind_ok {x : PM σ α} {f : α → PM σ β} {s s' : σ} {a : α} (e : x s = (s', some a)) : (x >>= f) s = f a s' := by
  rw [bind_run, e]

theorem bind_stop {x : PM σ α} {f : α → PM σ β} {s s' : σ} (e : x s = (s', none)) : (x >>= f) s = (s', none) := by
  rw [bind_run, e]
end

section
variable {h : AHeap K V} {a : Nat} {n : HNode K V}

theorem load_some (e : h[a]? = some n) : HM.load (some a) h = (h, some n) := by simp [HM.load, e]

theorem link_some (e : h[a]? = some n) (dir : Bool) : HM.link (some a) dir h = (h, some (if dir then n.r else n.l)) := by
  simp [HM.link, bind_run, HM.load, e, pure_run]

theorem bal_some (e : h[a]? = some n) : HM.bal (some a) h = (h, some n.bal) := by
  simp [HM.bal, bind_run, HM.load, e, pure_run]

theorem modify_some (e : h[a]? = some n) (f : HNode K V → HNode K V) : HM.modify (some a) f h = (h.set a (f n), some ()) := by
  simp [HM.modify, e]
end

theorem get_set {h : AHeap K V} {a : Nat} {n n' : HNode K V} (e : h[a]? = some n) : (h.set a n')[a]? = some n' := by
  rw [List.getElem?_set_self (List.getElem?_eq_some_iff.mp e).1]

theorem get_set_ne {h : AHeap K V} {a c : Nat} {n' : HNode K V} (hne : a ≠ c) : (h.set a n')[c]? = h[c]? := by
  rw [List.getElem?_set_ne hne]

theorem set_frame (h : AHeap K V) (a : Nat) (n : HNode K V) : Frame h (h.set a n) [a] := by
  refine ⟨by simp, fun x _ hx => ?_⟩
  rw [List.getElem?_set_ne]
  rintro rfl
  simp at hx

theorem frame_trans {h h1 h2 : AHeap K V} {A : List Nat} (f1 : Frame h h1 A) (f2 : Frame h1 h2 A) : Frame h h2 A :=
  ⟨Nat.le_trans f1.1 f2.1, fun a ha hA => by rw [f2.2 a (Nat.lt_of_lt_of_le ha f1.1) hA, f1.2 a ha hA]⟩

theorem frame_mono {h h1 : AHeap K V} {A B : List Nat} (f : Frame h h1 A) (hAB : ∀ a ∈ A, a ∈ B) : Frame h h1 B :=
  ⟨f.1, fun a ha hB => f.2 a ha fun hA => hB (hAB a hA)⟩

theorem set_frame' (h : AHeap K V) {a : Nat} (n : HNode K V) {A : List Nat} (ha : a ∈ A) : Frame h (h.set a n) A :=
  frame_mono (set_frame h a n) (by simpa using ha)

/-- `single`. -/
theorem single_spec (dir : Bool) {h : AHeap K V} (P : PTree K V) (hp : Owns h P) (hn : P.addrs.Nodup) {t : Tree K V}
    (ht : P.erase.single dir = some t) :
    ∃ h' Q, HM.single P.ptr dir h = (h', some Q.ptr) ∧ Owns h' Q ∧ Q.erase = t ∧ Q.addrs = P.addrs ∧ Frame h h' P.addrs := by
  cases dir with
  | false =>
    cases P with
    | nil => simp [erase, Tree.single, Tree.link?] at ht
    | node a k v b l r =>
      cases r with
      | nil => simp [erase, Tree.single, Tree.link?] at ht
      | node a2 k2 v2 b2 l2 r2 =>
        obtain ⟨h1, h2, h3, h4, h5⟩ := hp
        simp only [addrs, List.nodup_append, List.nodup_cons, List.mem_append, List.mem_cons] at hn
        have ne : a ≠ a2 := fun e => hn.2.1.1 (.inr (.inl e))
        have hl1 := (List.getElem?_eq_some_iff.mp h1).1
        have hl2 := (List.getElem?_eq_some_iff.mp h3).1
        refine ⟨(h.set a ⟨k, v, b, l.ptr, l2.ptr⟩).set a2 ⟨k2, v2, b2, some a, r2.ptr⟩, .node a2 k2 v2 b2 (.node a k v b l l2) r2, ?_,
          ⟨?_, ⟨?_, ?_, ?_⟩, ?_⟩, ?_, ?_, ?_⟩
        · simp [HM.single, bind_run, pure_run, HM.link, HM.load, HM.setLink, HM.modify, ptr, h1, h3, List.getElem?_set, ne]
        · simp [List.getElem?_set, hl2, ptr]
        · simp [List.getElem?_set, ne.symm, hl1]
        · refine Owns.set _ (Owns.set _ h2 ?_) ?_ <;> grind
        · refine Owns.set _ (Owns.set _ h4 ?_) ?_ <;> grind
        · refine Owns.set _ (Owns.set _ h5 ?_) ?_ <;> grind
        · simpa [erase, Tree.single, Tree.link?, Tree.setLink?] using ht
        · simp [addrs]
        · exact frame_trans (set_frame' _ _ (by simp [addrs])) (set_frame' _ _ (by simp [addrs]))
  | true =>
    cases P with
    | nil => simp [erase, Tree.single, Tree.link?] at ht
    | node a k v b l r =>
      cases l with
      | nil => simp [erase, Tree.single, Tree.link?] at ht
      | node a2 k2 v2 b2 l2 r2 =>
        obtain ⟨h1, ⟨h3, h4, h5⟩, h2⟩ := hp
        simp only [addrs, List.nodup_append, List.nodup_cons, List.mem_append, List.mem_cons] at hn
        have ne : a ≠ a2 := by grind
        have hl1 := (List.getElem?_eq_some_iff.mp h1).1
        have hl2 := (List.getElem?_eq_some_iff.mp h3).1
        refine ⟨(h.set a ⟨k, v, b, r2.ptr, r.ptr⟩).set a2 ⟨k2, v2, b2, l2.ptr, some a⟩, .node a2 k2 v2 b2 l2 (.node a k v b r2 r), ?_,
          ⟨?_, ?_, ⟨?_, ?_, ?_⟩⟩, ?_, ?_, ?_⟩
        · simp [HM.single, bind_run, pure_run, HM.link, HM.load, HM.setLink, HM.modify, ptr, h1, h3, List.getElem?_set, ne]
        · simp [List.getElem?_set, hl2, ptr]
        · refine Owns.set _ (Owns.set _ h4 ?_) ?_ <;> grind
        · simp [List.getElem?_set, ne.symm, hl1]
        · refine Owns.set _ (Owns.set _ h5 ?_) ?_ <;> grind
        · refine Owns.set _ (Owns.set _ h2 ?_) ?_ <;> grind
        · simpa [erase, Tree.single, Tree.link?, Tree.setLink?] using ht
        · simp [addrs]
        · exact frame_trans (set_frame' _ _ (by simp [addrs])) (set_frame' _ _ (by simp [addrs]))

/-- `double`. -/
theorem double_spec (dir : Bool) {h : AHeap K V} (P : PTree K V) (hp : Owns h P) (hn : P.addrs.Nodup) {t : Tree K V}
    (ht : P.erase.double dir = some t) :
    ∃ h' Q, HM.double P.ptr dir h = (h', some Q.ptr) ∧ Owns h' Q ∧ Q.erase = t ∧ Q.addrs = P.addrs ∧ Frame h h' P.addrs := by
  cases dir with
  | false =>
    cases P with
    | nil => simp [erase, Tree.double, Tree.link?] at ht
    | node a k v b l r =>
      cases r with
      | nil => simp [erase, Tree.double, Tree.link?] at ht
      | node a2 k2 v2 b2 l2 r2 =>
        cases l2 with
        | nil => simp [erase, Tree.double, Tree.link?] at ht
        | node a3 k3 v3 b3 l3 r3 =>
          obtain ⟨h1, h2, h3, ⟨h4, h5, h6⟩, h7⟩ := hp
          simp only [addrs, List.nodup_append, List.nodup_cons, List.mem_append, List.mem_cons] at hn
          have ne12 : a ≠ a2 := by grind
          have ne13 : a ≠ a3 := by grind
          have ne23 : a2 ≠ a3 := by grind
          obtain ⟨hl1, hg1⟩ := List.getElem?_eq_some_iff.mp h1
          obtain ⟨hl2, hg2⟩ := List.getElem?_eq_some_iff.mp h3
          obtain ⟨hl3, hg3⟩ := List.getElem?_eq_some_iff.mp h4
          refine ⟨(((((h.set a2 ⟨k2, v2, b2, r3.ptr, r2.ptr⟩).set a3 ⟨k3, v3, b3, l3.ptr, some a2⟩).set a ⟨k, v, b, l.ptr, some a3⟩).set a
            ⟨k, v, b, l.ptr, l3.ptr⟩).set a3 ⟨k3, v3, b3, some a, some a2⟩),
            .node a3 k3 v3 b3 (.node a k v b l l3) (.node a2 k2 v2 b2 r3 r2), ?_, ⟨?_, ⟨?_, ?_, ?_⟩, ⟨?_, ?_, ?_⟩⟩, ?_, ?_, ?_⟩
          · simp [HM.double, bind_run, pure_run, HM.link, HM.load, HM.setLink, HM.modify, ptr, h1, h3, h4, List.getElem?_set, ne12, ne13,
              ne23, ne12.symm, ne13.symm, ne23.symm, hl1, hl2, hl3, hg1, hg2, hg3]
          · simp [List.getElem?_set, hl3, ptr]
          · simp [List.getElem?_set, ne13.symm, hl1]
          · refine Owns.set _ (Owns.set _ (Owns.set _ (Owns.set _ (Owns.set _ h2 ?_) ?_) ?_) ?_) ?_ <;> grind
          · refine Owns.set _ (Owns.set _ (Owns.set _ (Owns.set _ (Owns.set _ h5 ?_) ?_) ?_) ?_) ?_ <;> grind
          · simp [List.getElem?_set, ne12, ne23.symm, hl2]
          · refine Owns.set _ (Owns.set _ (Owns.set _ (Owns.set _ (Owns.set _ h6 ?_) ?_) ?_) ?_) ?_ <;> grind
          · refine Owns.set _ (Owns.set _ (Owns.set _ (Owns.set _ (Owns.set _ h7 ?_) ?_) ?_) ?_) ?_ <;> grind
          · simpa [erase, Tree.double, Tree.link?, Tree.setLink?] using ht
          · simp [addrs]
          · repeat' first | exact set_frame' _ _ (by simp [addrs]) | refine frame_trans ?_ (set_frame' _ _ (by simp [addrs]))
  | true =>
    cases P with
    | nil => simp [erase, Tree.double, Tree.link?] at ht
    | node a k v b l r =>
      cases l with
      | nil => simp [erase, Tree.double, Tree.link?] at ht
      | node a2 k2 v2 b2 l2 r2 =>
        cases r2 with
        | nil => simp [erase, Tree.double, Tree.link?] at ht
        | node a3 k3 v3 b3 l3 r3 =>
          obtain ⟨h1, ⟨h3, h7, h4, h5, h6⟩, h2⟩ := hp
          simp only [addrs, List.nodup_append, List.nodup_cons, List.mem_append, List.mem_cons] at hn
          have ne12 : a ≠ a2 := by grind
          have ne13 : a ≠ a3 := by grind
          have ne23 : a2 ≠ a3 := by grind
          obtain ⟨hl1, hg1⟩ := List.getElem?_eq_some_iff.mp h1
          obtain ⟨hl2, hg2⟩ := List.getElem?_eq_some_iff.mp h3
          obtain ⟨hl3, hg3⟩ := List.getElem?_eq_some_iff.mp h4
          refine ⟨(((((h.set a2 ⟨k2, v2, b2, l2.ptr, l3.ptr⟩).set a3 ⟨k3, v3, b3, some a2, r3.ptr⟩).set a ⟨k, v, b, some a3, r.ptr⟩).set a
            ⟨k, v, b, r3.ptr, r.ptr⟩).set a3 ⟨k3, v3, b3, some a2, some a⟩),
            .node a3 k3 v3 b3 (.node a2 k2 v2 b2 l2 l3) (.node a k v b r3 r), ?_, ⟨?_, ⟨?_, ?_, ?_⟩, ⟨?_, ?_, ?_⟩⟩, ?_, ?_, ?_⟩
          · simp [HM.double, bind_run, pure_run, HM.link, HM.load, HM.setLink, HM.modify, ptr, h1, h3, h4, List.getElem?_set, ne12, ne13,
              ne23, ne12.symm, ne13.symm, ne23.symm, hl1, hl2, hl3, hg1, hg2, hg3]
          · simp [List.getElem?_set, hl3, ptr]
          · simp [List.getElem?_set, ne12, ne23.symm, hl2]
          · refine Owns.set _ (Owns.set _ (Owns.set _ (Owns.set _ (Owns.set _ h7 ?_) ?_) ?_) ?_) ?_ <;> grind
          · refine Owns.set _ (Owns.set _ (Owns.set _ (Owns.set _ (Owns.set _ h5 ?_) ?_) ?_) ?_) ?_ <;> grind
          · simp [List.getElem?_set, ne13.symm, hl1]
          · refine Owns.set _ (Owns.set _ (Owns.set _ (Owns.set _ (Owns.set _ h6 ?_) ?_) ?_) ?_) ?_ <;> grind
          · refine Owns.set _ (Owns.set _ (Owns.set _ (Owns.set _ (Owns.set _ h2 ?_) ?_) ?_) ?_) ?_ <;> grind
          · simpa [erase, Tree.double, Tree.link?, Tree.setLink?] using ht
          · simp [addrs]
          · repeat' first | exact set_frame' _ _ (by simp [addrs]) | refine frame_trans ?_ (set_frame' _ _ (by simp [addrs]))

/-- `adjustBalance`. -/
theorem adjust_spec (dir : Bool) (bal : Int) {h : AHeap K V} (P : PTree K V) (hp : Owns h P) (hn : P.addrs.Nodup) {t : Tree K V}
    (ht : P.erase.adjustBalance dir bal = some t) :
    ∃ h' Q, HM.adjustBalance P.ptr dir bal h = (h', some ()) ∧ Owns h' Q ∧ Q.erase = t ∧ Q.ptr = P.ptr ∧ Q.addrs = P.addrs ∧
      Frame h h' P.addrs := by
  cases dir with
  | false =>
    cases P with
    | nil => simp [erase, Tree.adjustBalance, Tree.link?] at ht
    | node a k v b l r =>
      cases l with
      | nil => simp [erase, Tree.adjustBalance, Tree.link?] at ht
      | node a2 k2 v2 b2 l2 r2 =>
        cases r2 with
        | nil => simp [erase, Tree.adjustBalance, Tree.link?, Tree.bal?] at ht
        | node a3 k3 v3 b3 l3 r3 =>
          obtain ⟨h1, ⟨h3, h7, h4, h5, h6⟩, h2⟩ := hp
          simp only [addrs, List.nodup_append, List.nodup_cons, List.mem_append, List.mem_cons] at hn
          have ne12 : a ≠ a2 := by grind
          have ne13 : a ≠ a3 := by grind
          have ne23 : a2 ≠ a3 := by grind
          obtain ⟨hl1, hg1⟩ := List.getElem?_eq_some_iff.mp h1
          obtain ⟨hl2, hg2⟩ := List.getElem?_eq_some_iff.mp h3
          obtain ⟨hl3, hg3⟩ := List.getElem?_eq_some_iff.mp h4
          have key : ∀ rb nb, Owns (((h.set a ⟨k, v, rb, some a2, r.ptr⟩).set a2 ⟨k2, v2, nb, l2.ptr, some a3⟩).set a3
              ⟨k3, v3, 0, l3.ptr, r3.ptr⟩) (.node a k v rb (.node a2 k2 v2 nb l2 (.node a3 k3 v3 0 l3 r3)) r) := by
            intro rb nb
            refine ⟨?_, ⟨?_, ?_, ?_, ?_, ?_⟩, ?_⟩
            · simp [List.getElem?_set, ne12.symm, ne13.symm, hl1, ptr]
            · simp [List.getElem?_set, ne23.symm, hl2, ptr]
            · refine Owns.set _ (Owns.set _ (Owns.set _ h7 ?_) ?_) ?_ <;> grind
            · simp [List.getElem?_set, hl3, ptr]
            · refine Owns.set _ (Owns.set _ (Owns.set _ h5 ?_) ?_) ?_ <;> grind
            · refine Owns.set _ (Owns.set _ (Owns.set _ h6 ?_) ?_) ?_ <;> grind
            · refine Owns.set _ (Owns.set _ (Owns.set _ h2 ?_) ?_) ?_ <;> grind
          refine ⟨_, _, ?_, key (if b3 = 0 then 0 else if b3 = bal then -bal else 0) (if b3 = 0 then 0 else if b3 = bal then 0 else bal),
            ?_, rfl, rfl, ?_⟩
          · by_cases e1 : b3 = 0
            · simp [HM.adjustBalance, bind_run, pure_run, HM.link, HM.load, HM.setBal, HM.bal, HM.modify, ptr, h1, h3, h4,
                List.getElem?_set, ne12, ne13, ne23, ne12.symm, ne13.symm, ne23.symm, hl1, hl2, hl3, hg1, hg2, hg3, e1]
            · by_cases e2 : b3 = bal
              · subst e2
                simp [HM.adjustBalance, bind_run, pure_run, HM.link, HM.load, HM.setBal, HM.bal, HM.modify, ptr, h1, h3, h4,
                  List.getElem?_set, ne12, ne13, ne23, ne12.symm, ne13.symm, ne23.symm, hl1, hl2, hl3, hg1, hg2, hg3, e1]
              · simp [HM.adjustBalance, bind_run, pure_run, HM.link, HM.load, HM.setBal, HM.bal, HM.modify, ptr, h1, h3, h4,
                  List.getElem?_set, ne12, ne13, ne23, ne12.symm, ne13.symm, ne23.symm, hl1, hl2, hl3, hg1, hg2, hg3, e1, e2]
          · rw [← Option.some_inj, ← ht]
            by_cases e1 : b3 = 0
            · simp [erase, Tree.adjustBalance, Tree.link?, Tree.bal?, Tree.setBal?, Tree.setLink?, e1]
            · by_cases e2 : b3 = bal
              · subst e2
                simp [erase, Tree.adjustBalance, Tree.link?, Tree.bal?, Tree.setBal?, Tree.setLink?, e1]
              · simp [erase, Tree.adjustBalance, Tree.link?, Tree.bal?, Tree.setBal?, Tree.setLink?, e1, e2]
          · repeat' first | exact set_frame' _ _ (by simp [addrs]) | refine frame_trans ?_ (set_frame' _ _ (by simp [addrs]))
  | true =>
    cases P with
    | nil => simp [erase, Tree.adjustBalance, Tree.link?] at ht
    | node a k v b l r =>
      cases r with
      | nil => simp [erase, Tree.adjustBalance, Tree.link?] at ht
      | node a2 k2 v2 b2 l2 r2 =>
        cases l2 with
        | nil => simp [erase, Tree.adjustBalance, Tree.link?, Tree.bal?] at ht
        | node a3 k3 v3 b3 l3 r3 =>
          obtain ⟨h1, h2, h3, ⟨h4, h5, h6⟩, h7⟩ := hp
          simp only [addrs, List.nodup_append, List.nodup_cons, List.mem_append, List.mem_cons] at hn
          have ne12 : a ≠ a2 := by grind
          have ne13 : a ≠ a3 := by grind
          have ne23 : a2 ≠ a3 := by grind
          obtain ⟨hl1, hg1⟩ := List.getElem?_eq_some_iff.mp h1
          obtain ⟨hl2, hg2⟩ := List.getElem?_eq_some_iff.mp h3
          obtain ⟨hl3, hg3⟩ := List.getElem?_eq_some_iff.mp h4
          have key : ∀ rb nb, Owns (((h.set a ⟨k, v, rb, l.ptr, some a2⟩).set a2 ⟨k2, v2, nb, some a3, r2.ptr⟩).set a3
              ⟨k3, v3, 0, l3.ptr, r3.ptr⟩) (.node a k v rb l (.node a2 k2 v2 nb (.node a3 k3 v3 0 l3 r3) r2)) := by
            intro rb nb
            refine ⟨?_, ?_, ⟨?_, ⟨?_, ?_, ?_⟩, ?_⟩⟩
            · simp [List.getElem?_set, ne12.symm, ne13.symm, hl1, ptr]
            · refine Owns.set _ (Owns.set _ (Owns.set _ h2 ?_) ?_) ?_ <;> grind
            · simp [List.getElem?_set, ne23.symm, hl2, ptr]
            · simp [List.getElem?_set, hl3, ptr]
            · refine Owns.set _ (Owns.set _ (Owns.set _ h5 ?_) ?_) ?_ <;> grind
            · refine Owns.set _ (Owns.set _ (Owns.set _ h6 ?_) ?_) ?_ <;> grind
            · refine Owns.set _ (Owns.set _ (Owns.set _ h7 ?_) ?_) ?_ <;> grind
          refine ⟨_, _, ?_, key (if b3 = 0 then 0 else if b3 = bal then -bal else 0) (if b3 = 0 then 0 else if b3 = bal then 0 else bal),
            ?_, rfl, rfl, ?_⟩
          · by_cases e1 : b3 = 0
            · simp [HM.adjustBalance, bind_run, pure_run, HM.link, HM.load, HM.setBal, HM.bal, HM.modify, ptr, h1, h3, h4,
                List.getElem?_set, ne12, ne13, ne23, ne12.symm, ne13.symm, ne23.symm, hl1, hl2, hl3, hg1, hg2, hg3, e1]
            · by_cases e2 : b3 = bal
              · subst e2
                simp [HM.adjustBalance, bind_run, pure_run, HM.link, HM.load, HM.setBal, HM.bal, HM.modify, ptr, h1, h3, h4,
                  List.getElem?_set, ne12, ne13, ne23, ne12.symm, ne13.symm, ne23.symm, hl1, hl2, hl3, hg1, hg2, hg3, e1]
              · simp [HM.adjustBalance, bind_run, pure_run, HM.link, HM.load, HM.setBal, HM.bal, HM.modify, ptr, h1, h3, h4,
                  List.getElem?_set, ne12, ne13, ne23, ne12.symm, ne13.symm, ne23.symm, hl1, hl2, hl3, hg1, hg2, hg3, e1, e2]
          · rw [← Option.some_inj, ← ht]
            by_cases e1 : b3 = 0
            · simp [erase, Tree.adjustBalance, Tree.link?, Tree.bal?, Tree.setBal?, Tree.setLink?, e1]
            · by_cases e2 : b3 = bal
              · subst e2
                simp [erase, Tree.adjustBalance, Tree.link?, Tree.bal?, Tree.setBal?, Tree.setLink?, e1]
              · simp [erase, Tree.adjustBalance, Tree.link?, Tree.bal?, Tree.setBal?, Tree.setLink?, e1, e2]
          · repeat' first | exact set_frame' _ _ (by simp [addrs]) | refine frame_trans ?_ (set_frame' _ _ (by simp [addrs]))

/-- Two assignments of balances. -/
theorem bals_spec (dir : Bool) (b1 b2 : Int) {h : AHeap K V} (P : PTree K V) (hp : Owns h P) (hn : P.addrs.Nodup) {n n' r t : Tree K V}
    (e1 : P.erase.link? dir = some n) (e2 : P.erase.setBal? b1 = some r) (e3 : n.setBal? b2 = some n') (e4 : r.setLink? dir n' = some t) :
    ∃ h' Q a c nd, P.ptr = some a ∧ HM.link P.ptr dir h = (h, some (some c)) ∧ h[c]? = some nd ∧ n.bal? = some nd.bal ∧
      (∀ {α} (f : HM K V α), (do HM.setBal P.ptr b1; HM.setBal (some c) b2; f : HM K V α) h = f h') ∧ Owns h' Q ∧ Q.erase = t ∧
      Q.ptr = P.ptr ∧ Q.addrs = P.addrs ∧ Frame h h' P.addrs := by
  cases P with
  | nil => simp [erase, Tree.link?] at e1
  | node a k v b l r =>
    cases dir with
    | false =>
      cases l with
      | nil =>
        simp only [erase, Tree.link?, Option.some.injEq, Bool.false_eq_true, if_false] at e1
        subst e1; simp [Tree.setBal?] at e3
      | node c k2 v2 b0 l2 r2 =>
        obtain ⟨h1, ⟨h3, h4, h5⟩, h2⟩ := hp
        simp only [addrs, List.nodup_append, List.nodup_cons, List.mem_append, List.mem_cons] at hn
        have ne : a ≠ c := by grind
        obtain ⟨hl1, hg1⟩ := List.getElem?_eq_some_iff.mp h1
        obtain ⟨hl2, hg2⟩ := List.getElem?_eq_some_iff.mp h3
        simp only [erase, Tree.link?, Option.some.injEq, Bool.false_eq_true, if_false] at e1
        subst e1
        simp only [erase, Tree.setBal?, Option.some.injEq] at e2 e3
        subst e2; subst e3
        simp only [Tree.setLink?, Option.some.injEq, Bool.false_eq_true, if_false] at e4
        subst e4
        refine ⟨(h.set a ⟨k, v, b1, some c, r.ptr⟩).set c ⟨k2, v2, b2, l2.ptr, r2.ptr⟩, .node a k v b1 (.node c k2 v2 b2 l2 r2) r, a, c, _,
          rfl, ?_, h3, rfl, ?_, ⟨?_, ⟨?_, ?_, ?_⟩, ?_⟩, rfl, rfl, rfl, ?_⟩
        · simp [ptr, link_some h1]
        · intro α f
          simp [bind_run, HM.setBal, HM.modify, ptr, h1, h3, List.getElem?_set, ne, hl1, hl2, hg1, hg2]
        · simp [List.getElem?_set, ne.symm, hl1, ptr]
        · simp [List.getElem?_set, hl2]
        · refine Owns.set _ (Owns.set _ h4 ?_) ?_ <;> grind
        · refine Owns.set _ (Owns.set _ h5 ?_) ?_ <;> grind
        · refine Owns.set _ (Owns.set _ h2 ?_) ?_ <;> grind
        · exact frame_trans (set_frame' _ _ (by simp [addrs])) (set_frame' _ _ (by simp [addrs]))
    | true =>
      cases r with
      | nil =>
        simp only [erase, Tree.link?, Option.some.injEq, if_true] at e1
        subst e1; simp [Tree.setBal?] at e3
      | node c k2 v2 b0 l2 r2 =>
        obtain ⟨h1, h2, h3, h4, h5⟩ := hp
        simp only [addrs, List.nodup_append, List.nodup_cons, List.mem_append, List.mem_cons] at hn
        have ne : a ≠ c := by grind
        obtain ⟨hl1, hg1⟩ := List.getElem?_eq_some_iff.mp h1
        obtain ⟨hl2, hg2⟩ := List.getElem?_eq_some_iff.mp h3
        simp only [erase, Tree.link?, Option.some.injEq, if_true] at e1
        subst e1
        simp only [erase, Tree.setBal?, Option.some.injEq] at e2 e3
        subst e2; subst e3
        simp only [Tree.setLink?, Option.some.injEq, if_true] at e4
        subst e4
        refine ⟨(h.set a ⟨k, v, b1, l.ptr, some c⟩).set c ⟨k2, v2, b2, l2.ptr, r2.ptr⟩, .node a k v b1 l (.node c k2 v2 b2 l2 r2), a, c, _,
          rfl, ?_, h3, rfl, ?_, ⟨?_, ?_, ⟨?_, ?_, ?_⟩⟩, rfl, rfl, rfl, ?_⟩
        · simp [ptr, link_some h1]
        · intro α f
          simp [bind_run, HM.setBal, HM.modify, ptr, h1, h3, List.getElem?_set, ne, hl1, hl2, hg1, hg2]
        · simp [List.getElem?_set, ne.symm, hl1, ptr]
        · refine Owns.set _ (Owns.set _ h2 ?_) ?_ <;> grind
        · simp [List.getElem?_set, hl2]
        · refine Owns.set _ (Owns.set _ h4 ?_) ?_ <;> grind
        · refine Owns.set _ (Owns.set _ h5 ?_) ?_ <;> grind
        · exact frame_trans (set_frame' _ _ (by simp [addrs])) (set_frame' _ _ (by simp [addrs]))

/-- Reading the balance of a child. -/
theorem child_bal (dir : Bool) {h : AHeap K V} (P : PTree K V) (hp : Owns h P) {n : Tree K V} {b : Int}
    (e1 : P.erase.link? dir = some n) (e2 : n.bal? = some b) :
    ∃ c, HM.link P.ptr dir h = (h, some (some c)) ∧ HM.bal (some c) h = (h, some b) := by
  cases P with
  | nil => simp [erase, Tree.link?] at e1
  | node a k v b' l r =>
    obtain ⟨h1, h2, h3⟩ := hp
    cases dir with
    | false =>
      simp only [erase, Tree.link?, Option.some.injEq, Bool.false_eq_true, if_false] at e1
      subst e1
      cases l with
      | nil => simp [erase, Tree.bal?] at e2
      | node c k2 v2 b0 l2 r2 =>
        simp only [erase, Tree.bal?, Option.some.injEq] at e2
        subst e2
        exact ⟨c, by simp [ptr, link_some h1], by rw [bal_some h2.1]⟩
    | true =>
      simp only [erase, Tree.link?, Option.some.injEq, if_true] at e1
      subst e1
      cases r with
      | nil => simp [erase, Tree.bal?] at e2
      | node c k2 v2 b0 l2 r2 =>
        simp only [erase, Tree.bal?, Option.some.injEq] at e2
        subst e2
        exact ⟨c, by simp [ptr, link_some h1], by rw [bal_some h3.1]⟩

/-- `putBalance`. -/
theorem putBalance_spec (dir : Bool) {h : AHeap K V} (P : PTree K V) (hp : Owns h P) (hn : P.addrs.Nodup) {t : Tree K V}
    (ht : P.erase.putBalance dir = some t) :
    ∃ h' Q, HM.putBalance P.ptr dir h = (h', some Q.ptr) ∧ Owns h' Q ∧ Q.erase = t ∧ Q.addrs = P.addrs ∧ Frame h h' P.addrs := by
  unfold Tree.putBalance at ht
  simp only [Option.bind_eq_bind, Option.bind_eq_some_iff] at ht
  obtain ⟨n, e1, b, e2, ht⟩ := ht
  obtain ⟨c, hc1, hc2⟩ := child_bal dir P hp e1 e2
  unfold HM.putBalance
  rw [bind_ok hc1, bind_ok hc2]
  by_cases hb : b = Tree.dirBal dir
  · rw [if_pos hb] at ht ⊢
    simp only [Option.bind_eq_some_iff] at ht
    obtain ⟨r, e3, n', e4, t', e5, e6⟩ := ht
    obtain ⟨h1, Q, a, c', nd, q1, q2, q3, q4, q5, q6, q7, q8, q9, q10⟩ := bals_spec dir 0 0 P hp hn e1 e3 e4 e5
    rw [hc1] at q2
    simp only [Prod.mk.injEq, Option.some.injEq, true_and] at q2
    subst q2
    rw [q5]
    obtain ⟨h2, R, r1, r2, r3, r4, r5⟩ := single_spec (!dir) Q q6 (by rw [q9]; exact hn) (t := t) (by rw [q7]; exact e6)
    rw [q8] at r1
    exact ⟨h2, R, r1, r2, r3, by rw [r4, q9], frame_trans q10 (by rw [← q9]; exact r5)⟩
  · rw [if_neg hb] at ht ⊢
    simp only [Option.bind_eq_some_iff] at ht
    obtain ⟨t', e3, e4⟩ := ht
    obtain ⟨h1, Q, q1, q2, q3, q4, q5, q6⟩ := adjust_spec dir _ P hp hn e3
    rw [bind_ok q1]
    obtain ⟨h2, R, r1, r2, r3, r4, r5⟩ := double_spec (!dir) Q q2 (by rw [q5]; exact hn) (t := t) (by rw [q3]; exact e4)
    rw [q4] at r1
    exact ⟨h2, R, r1, r2, r3, by rw [r4, q5], frame_trans q6 (by rw [← q5]; exact r5)⟩

/-- `removeBalance`. -/
theorem removeBalance_spec (dir : Bool) {h : AHeap K V} (P : PTree K V) (hp : Owns h P) (hn : P.addrs.Nodup) {t : Tree K V} {d : Bool}
    (ht : P.erase.removeBalance dir = some (t, d)) :
    ∃ h' Q, HM.removeBalance P.ptr dir h = (h', some (Q.ptr, d)) ∧ Owns h' Q ∧ Q.erase = t ∧ Q.addrs = P.addrs ∧
      Frame h h' P.addrs := by
  unfold Tree.removeBalance at ht
  simp only [Option.bind_eq_bind, Option.bind_eq_some_iff] at ht
  obtain ⟨n, e1, b, e2, ht⟩ := ht
  obtain ⟨c, hc1, hc2⟩ := child_bal (!dir) P hp e1 e2
  unfold HM.removeBalance
  rw [bind_ok hc1, bind_ok hc2]
  by_cases hb : b = -Tree.dirBal dir
  · rw [if_pos hb] at ht ⊢
    simp only [Option.bind_eq_some_iff, Option.pure_def, Option.some.injEq, Prod.mk.injEq] at ht
    obtain ⟨r, e3, n', e4, t', e5, t'', e6, rfl, rfl⟩ := ht
    obtain ⟨h1, Q, a, c', nd, q1, q2, q3, q4, q5, q6, q7, q8, q9, q10⟩ := bals_spec (!dir) 0 0 P hp hn e1 e3 e4 e5
    rw [hc1] at q2
    simp only [Prod.mk.injEq, Option.some.injEq, true_and] at q2
    subst q2
    rw [q5]
    obtain ⟨h2, R, r1, r2, r3, r4, r5⟩ := single_spec dir Q q6 (by rw [q9]; exact hn) (t := t'') (by rw [q7]; exact e6)
    rw [q8] at r1
    rw [bind_ok r1]
    exact ⟨h2, R, rfl, r2, r3, by rw [r4, q9], frame_trans q10 (by rw [← q9]; exact r5)⟩
  · rw [if_neg hb] at ht ⊢
    by_cases hb2 : b = Tree.dirBal dir
    · rw [if_pos hb2] at ht ⊢
      simp only [Option.bind_eq_some_iff, Option.pure_def, Option.some.injEq, Prod.mk.injEq] at ht
      obtain ⟨t', e3, t'', e4, rfl, rfl⟩ := ht
      obtain ⟨h1, Q, q1, q2, q3, q4, q5, q6⟩ := adjust_spec (!dir) _ P hp hn e3
      rw [bind_ok q1]
      obtain ⟨h2, R, r1, r2, r3, r4, r5⟩ := double_spec dir Q q2 (by rw [q5]; exact hn) (t := t'') (by rw [q3]; exact e4)
      rw [q4] at r1
      rw [bind_ok r1]
      exact ⟨h2, R, rfl, r2, r3, by rw [r4, q5], frame_trans q6 (by rw [← q5]; exact r5)⟩
    · rw [if_neg hb2] at ht ⊢
      simp only [Option.bind_eq_some_iff, Option.pure_def, Option.some.injEq, Prod.mk.injEq] at ht
      obtain ⟨r, e3, n', e4, t', e5, t'', e6, rfl, rfl⟩ := ht
      obtain ⟨h1, Q, a, c', nd, q1, q2, q3, q4, q5, q6, q7, q8, q9, q10⟩ := bals_spec (!dir) _ _ P hp hn e1 e3 e4 e5
      rw [hc1] at q2
      simp only [Prod.mk.injEq, Option.some.injEq, true_and] at q2
      subst q2
      rw [q5]
      obtain ⟨h2, R, r1, r2, r3, r4, r5⟩ := single_spec dir Q q6 (by rw [q9]; exact hn) (t := t'') (by rw [q7]; exact e6)
      rw [q8] at r1
      rw [bind_ok r1]
      exact ⟨h2, R, rfl, r2, r3, by rw [r4, q9], frame_trans q10 (by rw [← q9]; exact r5)⟩

/-- The node with a new sub tree at `dir`. -/
def withChild (a : Nat) (k : K) (v : V) (b : Int) (l r : PTree K V) (dir : Bool) (Q : PTree K V) : PTree K V :=
  .node a k v b (if dir then l else Q) (if dir then Q else r)

theorem setLink_spec (dir : Bool) {h : AHeap K V} {a : Nat} {k : K} {v : V} {b : Int} {l r Q : PTree K V}
    (ha : h[a]? = some ⟨k, v, b, l.ptr, r.ptr⟩) (hl : dir = true → Owns h l) (hr : dir = false → Owns h r) (hq : Owns h Q)
    (hn : (withChild a k v b l r dir Q).addrs.Nodup) :
    ∃ h', HM.setLink (some a) dir Q.ptr h = (h', some ()) ∧ Owns h' (withChild a k v b l r dir Q) ∧ Frame h h' [a] := by
  have hlt := (List.getElem?_eq_some_iff.mp ha).1
  cases dir with
  | false =>
    simp only [withChild, Bool.false_eq_true, if_false, addrs, List.nodup_append, List.nodup_cons, List.mem_cons] at hn ⊢
    refine ⟨h.set a ⟨k, v, b, Q.ptr, r.ptr⟩, by simp [HM.setLink, modify_some ha], ⟨?_, ?_, ?_⟩, set_frame _ _ _⟩
    · simp [List.getElem?_set, hlt]
    · refine Owns.set _ hq ?_; grind
    · refine Owns.set _ (hr rfl) ?_; grind
  | true =>
    simp only [withChild, if_true, addrs, List.nodup_append, List.nodup_cons, List.mem_cons] at hn ⊢
    refine ⟨h.set a ⟨k, v, b, l.ptr, Q.ptr⟩, by simp [HM.setLink, modify_some ha], ⟨?_, ?_, ?_⟩, set_frame _ _ _⟩
    · simp [List.getElem?_set, hlt]
    · refine Owns.set _ (hl rfl) ?_; grind
    · refine Owns.set _ hq ?_; grind

theorem setBal_spec {h : AHeap K V} {a : Nat} {k : K} {v : V} {b : Int} {l r : PTree K V} (hp : Owns h (.node a k v b l r))
    (hn : (PTree.node a k v b l r).addrs.Nodup) (b' : Int) :
    ∃ h', HM.setBal (some a) b' h = (h', some ()) ∧ Owns h' (.node a k v b' l r) ∧ Frame h h' [a] := by
  obtain ⟨h1, h2, h3⟩ := hp
  have hlt := (List.getElem?_eq_some_iff.mp h1).1
  simp only [addrs, List.nodup_append, List.nodup_cons, List.mem_cons] at hn
  refine ⟨h.set a ⟨k, v, b', l.ptr, r.ptr⟩, by simp [HM.setBal, modify_some h1], ⟨?_, ?_, ?_⟩, set_frame _ _ _⟩
  · simp [List.getElem?_set, hlt]
  · refine Owns.set _ h2 ?_; grind
  · refine Owns.set _ h3 ?_; grind

/-- `putR` after the recursive call. -/
theorem putFinish_heap (dir : Bool) {h : AHeap K V} {a : Nat} {k : K} {v : V} {b : Int} {l r Q : PTree K V}
    (ha : h[a]? = some ⟨k, v, b, l.ptr, r.ptr⟩) (hl : dir = true → Owns h l) (hr : dir = false → Owns h r) (hq : Owns h Q)
    (hn : (withChild a k v b l r dir Q).addrs.Nodup) {old old' : Option (K × V)} {done d : Bool} {T : Tree K V}
    (hT : Tree.putFinish k v b l.erase r.erase dir Q.erase old done = (T, some (old', d))) :
    ∃ h' R, HM.putFinish (some a) dir Q.ptr old done h = (h', some (R.ptr, old', d)) ∧ Owns h' R ∧ R.erase = T ∧
      R.addrs = (withChild a k v b l r dir Q).addrs ∧ Frame h h' (withChild a k v b l r dir Q).addrs := by
  obtain ⟨h1, s1, s2, s3⟩ := setLink_spec dir ha hl hr hq hn
  have s3' : Frame h h1 (withChild a k v b l r dir Q).addrs := frame_mono s3 (by simp [withChild, addrs])
  have eL : (if dir = true then l.erase else Q.erase) = (if dir = true then l else Q).erase := by split <;> rfl
  have eR : (if dir = true then Q.erase else r.erase) = (if dir = true then Q else r).erase := by split <;> rfl
  unfold HM.putFinish
  rw [bind_ok s1]
  simp only [Tree.putFinish, eL, eR] at hT
  by_cases hd : done = true
  · rw [if_pos hd] at hT ⊢
    simp only [Prod.mk.injEq, Option.some.injEq] at hT
    obtain ⟨rfl, rfl, rfl⟩ := hT
    exact ⟨h1, _, rfl, s2, rfl, rfl, s3'⟩
  · rw [if_neg hd] at hT ⊢
    rw [bind_ok (bal_some s2.1)]
    obtain ⟨h2, t1, t2, t3⟩ := setBal_spec s2 hn (b + Tree.dirBal dir)
    have t3' : Frame h h2 (withChild a k v b l r dir Q).addrs := frame_trans s3' (frame_mono t3 (by simp [withChild, addrs]))
    rw [bind_ok t1, bind_ok (bal_some t2.1)]
    by_cases h0 : b + Tree.dirBal dir = 0
    · rw [if_pos h0] at hT ⊢
      simp only [Prod.mk.injEq, Option.some.injEq] at hT
      obtain ⟨rfl, rfl, rfl⟩ := hT
      exact ⟨h2, _, rfl, t2, rfl, rfl, t3'⟩
    · rw [if_neg h0] at hT ⊢
      by_cases h1' : b + Tree.dirBal dir = 1 ∨ b + Tree.dirBal dir = -1
      · rw [if_pos h1'] at hT ⊢
        simp only [Prod.mk.injEq, Option.some.injEq] at hT
        obtain ⟨rfl, rfl, rfl⟩ := hT
        exact ⟨h2, _, rfl, t2, rfl, rfl, t3'⟩
      · rw [if_neg h1'] at hT ⊢
        split at hT
        · rename_i t ht
          simp only [Prod.mk.injEq, Option.some.injEq] at hT
          obtain ⟨rfl, rfl, rfl⟩ := hT
          obtain ⟨h3, R, r1, r2, r3, r4, r5⟩ := putBalance_spec dir _ t2 hn ht
          rw [show (some a : Ptr) = (PTree.node a k v (b + Tree.dirBal dir) (if dir then l else Q) (if dir then Q else r)).ptr from rfl,
            bind_ok r1]
          exact ⟨h3, R, rfl, r2, r3, r4, frame_trans t3' r5⟩
        · simp at hT

/-- `removeR` after the recursive call. -/
theorem removeFinish_heap (dir : Bool) {h : AHeap K V} {a : Nat} {k : K} {v : V} {b : Int} {l r Q : PTree K V}
    (ha : h[a]? = some ⟨k, v, b, l.ptr, r.ptr⟩) (hl : dir = true → Owns h l) (hr : dir = false → Owns h r) (hq : Owns h Q)
    (hn : (withChild a k v b l r dir Q).addrs.Nodup) {old old' : Option (K × V)} {done d : Bool} {T : Tree K V}
    (hT : Tree.removeFinish k v b l.erase r.erase dir Q.erase old done = (T, some (old', d))) :
    ∃ h' R, HM.removeFinish (some a) dir Q.ptr old done h = (h', some (R.ptr, old', d)) ∧ Owns h' R ∧ R.erase = T ∧
      R.addrs = (withChild a k v b l r dir Q).addrs ∧ Frame h h' (withChild a k v b l r dir Q).addrs := by
  obtain ⟨h1, s1, s2, s3⟩ := setLink_spec dir ha hl hr hq hn
  have s3' : Frame h h1 (withChild a k v b l r dir Q).addrs := frame_mono s3 (by simp [withChild, addrs])
  have eL : (if dir = true then l.erase else Q.erase) = (if dir = true then l else Q).erase := by split <;> rfl
  have eR : (if dir = true then Q.erase else r.erase) = (if dir = true then Q else r).erase := by split <;> rfl
  unfold HM.removeFinish
  rw [bind_ok s1]
  simp only [Tree.removeFinish, eL, eR] at hT
  by_cases hd : done = true
  · rw [if_pos hd] at hT ⊢
    simp only [Prod.mk.injEq, Option.some.injEq] at hT
    obtain ⟨rfl, rfl, rfl⟩ := hT
    exact ⟨h1, _, rfl, s2, rfl, rfl, s3'⟩
  · rw [if_neg hd] at hT ⊢
    rw [bind_ok (bal_some s2.1)]
    obtain ⟨h2, t1, t2, t3⟩ := setBal_spec s2 hn (b - Tree.dirBal dir)
    have t3' : Frame h h2 (withChild a k v b l r dir Q).addrs := frame_trans s3' (frame_mono t3 (by simp [withChild, addrs]))
    rw [bind_ok t1, bind_ok (bal_some t2.1)]
    by_cases h1' : b - Tree.dirBal dir = 1 ∨ b - Tree.dirBal dir = -1
    · rw [if_pos h1'] at hT ⊢
      simp only [Prod.mk.injEq, Option.some.injEq] at hT
      obtain ⟨rfl, rfl, rfl⟩ := hT
      exact ⟨h2, _, rfl, t2, rfl, rfl, t3'⟩
    · rw [if_neg h1'] at hT ⊢
      by_cases h0 : b - Tree.dirBal dir = 0
      · rw [if_pos h0] at hT ⊢
        simp only [Prod.mk.injEq, Option.some.injEq] at hT
        obtain ⟨rfl, rfl, rfl⟩ := hT
        exact ⟨h2, _, rfl, t2, rfl, rfl, t3'⟩
      · rw [if_neg h0] at hT ⊢
        split at hT
        · rename_i t d' ht
          simp only [Prod.mk.injEq, Option.some.injEq] at hT
          obtain ⟨rfl, rfl, rfl⟩ := hT
          obtain ⟨h3, R, r1, r2, r3, r4, r5⟩ := removeBalance_spec dir _ t2 hn ht
          rw [show (some a : Ptr) = (PTree.node a k v (b - Tree.dirBal dir) (if dir then l else Q) (if dir then Q else r)).ptr from rfl,
            bind_ok r1]
          exact ⟨h3, R, rfl, r2, r3, r4, frame_trans t3' r5⟩
        · simp at hT

end Poodle
