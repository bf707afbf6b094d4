import Verif.Lemmas.AvlHeap

namespace Poodle
open Poodle.Spec

set_option linter.unusedSimpArgs false

variable {K V : Type} {ops : KeyOps K}

open PTree

/-! ### The algebraic operations, for arbitrary keys -/

theorem putR_shape (key : K) (value : V) (t : Tree K V) (hb : Balanced t) :
    ((t.putR ops key value).2 = none → t.putR ops key value = (t, none)) ∧
    ∀ T old d, t.putR ops key value = (T, some (old, d)) → Balanced T ∧ PutOk t T d := by
  induction t with
  | nil =>
    refine ⟨by simp [Tree.putR], fun T old d h => ?_⟩
    simp only [Tree.putR, Prod.mk.injEq, Option.some.injEq] at h
    obtain ⟨rfl, rfl, rfl⟩ := h
    simp [Balanced, PutOk, height, Tree.bal?]
  | node k v b l r ihl ihr =>
    have hb' := hb
    obtain ⟨b1, b2, b3, hl, hr⟩ := hb
    unfold Tree.putR
    by_cases he : ops.equal k key = true
    · simp only [he, if_true]
      refine ⟨by simp, fun T old d h => ?_⟩
      simp only [Prod.mk.injEq, Option.some.injEq] at h
      obtain ⟨rfl, rfl, rfl⟩ := h
      exact ⟨⟨b1, b2, b3, hl, hr⟩, by simp [PutOk, height]⟩
    · simp only [he, Bool.false_eq_true, if_false]
      cases hc : ops.compare k key with
      | none => simp
      | some c =>
        simp only
        by_cases hlt : c < 0
        · simp only [hlt, if_true]
          obtain ⟨i1, i2⟩ := ihr hr
          rcases hp : r.putR ops key value with ⟨t, - | ⟨old, done⟩⟩
          · have := i1 (by rw [hp])
            rw [hp] at this
            simp only [Prod.mk.injEq, and_true] at this
            subst this
            simp
          · obtain ⟨j1, j2⟩ := i2 _ _ _ hp
            obtain ⟨T', d', f1, f2, f3, f4⟩ := putFinish_true k v b l r t old done hb' j1 j2
            simp only
            rw [f1]
            refine ⟨by simp, fun T old d h => ?_⟩
            simp only [Prod.mk.injEq, Option.some.injEq] at h
            obtain ⟨rfl, rfl, rfl⟩ := h
            exact ⟨f3, f4⟩
        · simp only [hlt, if_false]
          obtain ⟨i1, i2⟩ := ihl hl
          rcases hp : l.putR ops key value with ⟨t, - | ⟨old, done⟩⟩
          · have := i1 (by rw [hp])
            rw [hp] at this
            simp only [Prod.mk.injEq, and_true] at this
            subst this
            simp
          · obtain ⟨j1, j2⟩ := i2 _ _ _ hp
            obtain ⟨T', d', f1, f2, f3, f4⟩ := putFinish_false k v b l r t old done hb' j1 j2
            simp only
            rw [f1]
            refine ⟨by simp, fun T old d h => ?_⟩
            simp only [Prod.mk.injEq, Option.some.injEq] at h
            obtain ⟨rfl, rfl, rfl⟩ := h
            exact ⟨f3, f4⟩

theorem removeR_shape (key : K) (t : Tree K V) (hb : Balanced t) :
    (∀ T, t.removeR ops key = (T, none) → Balanced T ∧ height T = height t) ∧
    ∀ T old d, t.removeR ops key = (T, some (old, d)) → Balanced T ∧ RemOk t T d := by
  induction t generalizing key with
  | nil =>
    refine ⟨by simp [Tree.removeR], fun T old d h => ?_⟩
    simp only [Tree.removeR, Prod.mk.injEq, Option.some.injEq] at h
    obtain ⟨rfl, rfl, rfl⟩ := h
    simp [Balanced, RemOk, height]
  | node k v b l r ihl ihr =>
    have right : ∀ (k' key : K) (v' : V) (F : Option (K × V) → Option (K × V)),
        (∀ T, (match r.removeR ops key with
          | (t, none) => (Tree.node k' v' b l t, none)
          | (t, some (n, done)) => Tree.removeFinish k' v' b l r true t (F n) done) = (T, none) →
            Balanced T ∧ height T = height (Tree.node k v b l r)) ∧
        (∀ T old d, (match r.removeR ops key with
          | (t, none) => (Tree.node k' v' b l t, none)
          | (t, some (n, done)) => Tree.removeFinish k' v' b l r true t (F n) done) = (T, some (old, d)) →
            Balanced T ∧ RemOk (Tree.node k v b l r) T d) := by
      intro k' key v' F
      obtain ⟨i1, i2⟩ := ihr key hb.2.2.2.2
      rcases hp : r.removeR ops key with ⟨t, - | ⟨n, done⟩⟩
      · obtain ⟨j1, j2⟩ := i1 _ hp
        refine ⟨fun T h => ?_, by simp⟩
        simp only [Prod.mk.injEq, and_true] at h
        subst h
        refine ⟨⟨by rw [j2]; exact hb.1, hb.2.1, hb.2.2.1, hb.2.2.2.1, j1⟩, by simp [height, j2]⟩
      · obtain ⟨j1, j2⟩ := i2 _ _ _ hp
        obtain ⟨T', d', f1, f2, f3, f4⟩ := removeFinish_true k v k' v' b l r t (F n) done hb j1 j2
        simp only
        rw [f1]
        refine ⟨by simp, fun T old d h => ?_⟩
        simp only [Prod.mk.injEq, Option.some.injEq] at h
        obtain ⟨rfl, rfl, rfl⟩ := h
        exact ⟨f3, f4⟩
    have left : ∀ (k' key : K) (v' : V) (F : Option (K × V) → Option (K × V)),
        (∀ T, (match l.removeR ops key with
          | (t, none) => (Tree.node k' v' b t r, none)
          | (t, some (n, done)) => Tree.removeFinish k' v' b l r false t (F n) done) = (T, none) →
            Balanced T ∧ height T = height (Tree.node k v b l r)) ∧
        (∀ T old d, (match l.removeR ops key with
          | (t, none) => (Tree.node k' v' b t r, none)
          | (t, some (n, done)) => Tree.removeFinish k' v' b l r false t (F n) done) = (T, some (old, d)) →
            Balanced T ∧ RemOk (Tree.node k v b l r) T d) := by
      intro k' key v' F
      obtain ⟨i1, i2⟩ := ihl key hb.2.2.2.1
      rcases hp : l.removeR ops key with ⟨t, - | ⟨n, done⟩⟩
      · obtain ⟨j1, j2⟩ := i1 _ hp
        refine ⟨fun T h => ?_, by simp⟩
        simp only [Prod.mk.injEq, and_true] at h
        subst h
        refine ⟨⟨by rw [j2]; exact hb.1, hb.2.1, hb.2.2.1, j1, hb.2.2.2.2⟩, by simp [height, j2]⟩
      · obtain ⟨j1, j2⟩ := i2 _ _ _ hp
        obtain ⟨T', d', f1, f2, f3, f4⟩ := removeFinish_false k v k' v' b l r t (F n) done hb j1 j2
        simp only
        rw [f1]
        refine ⟨by simp, fun T old d h => ?_⟩
        simp only [Prod.mk.injEq, Option.some.injEq] at h
        obtain ⟨rfl, rfl, rfl⟩ := h
        exact ⟨f3, f4⟩
    rw [Tree.removeR.eq_def]
    simp only
    by_cases he : ops.equal k key = true
    · simp only [he, if_true]
      cases l with
      | nil =>
        simp only
        refine ⟨by simp, fun T old d h => ?_⟩
        simp only [Prod.mk.injEq, Option.some.injEq] at h
        obtain ⟨rfl, rfl, rfl⟩ := h
        exact ⟨hb.2.2.2.2, by simp [RemOk, height]⟩
      | node k2 v2 b2 l2 r2 =>
        cases r with
        | nil =>
          simp only
          refine ⟨by simp, fun T old d h => ?_⟩
          simp only [Prod.mk.injEq, Option.some.injEq] at h
          obtain ⟨rfl, rfl, rfl⟩ := h
          exact ⟨hb.2.2.2.1, by simp [RemOk, height]⟩
        | node k3 v3 b3 l3 r3 =>
          simp only
          obtain ⟨x, A, hx, -⟩ := rightmost_spec (Tree.node k2 v2 b2 l2 r2) (by simp)
          simp only [hx]
          cases hc : ops.compare x.1 x.1 with
          | none =>
            simp only
            refine ⟨fun T h => ?_, by simp⟩
            simp only [Prod.mk.injEq, and_true] at h
            subst h
            exact ⟨hb, by simp [height]⟩
          | some c =>
            simp only
            by_cases hlt : c < 0
            · simp only [hlt, if_true]
              exact right x.1 x.1 x.2 (fun _ => some (k, v))
            · simp only [hlt, if_false]
              exact left x.1 x.1 x.2 (fun _ => some (k, v))
    · simp only [he, Bool.false_eq_true, if_false]
      cases hc : ops.compare k key with
      | none =>
        simp only
        refine ⟨fun T h => ?_, by simp⟩
        simp only [Prod.mk.injEq, and_true] at h
        subst h
        exact ⟨hb, rfl⟩
      | some c =>
        simp only
        by_cases hlt : c < 0
        · simp only [hlt, if_true]
          exact right k key v id
        · simp only [hlt, if_false]
          exact left k key v id

/-- On balanced trees only a comparison panics. -/
theorem putR_total (ht : TotalKeys ops) (key : K) (value : V) (t : Tree K V) (hb : Balanced t) : (t.putR ops key value).2 ≠ none := by
  induction t with
  | nil => simp [Tree.putR]
  | node k v b l r ihl ihr =>
    unfold Tree.putR
    by_cases he : ops.equal k key = true
    · simp [he]
    · simp only [he, Bool.false_eq_true, if_false]
      cases hc : ops.compare k key with
      | none => exact absurd hc (ht _ _)
      | some c =>
        simp only
        by_cases hlt : c < 0
        · simp only [hlt, if_true]
          rcases hp : r.putR ops key value with ⟨t, - | ⟨old, done⟩⟩
          · exact absurd (by rw [hp]) (ihr hb.2.2.2.2)
          · obtain ⟨j1, j2⟩ := (putR_shape key value r hb.2.2.2.2).2 _ _ _ hp
            obtain ⟨T', d', f1, -⟩ := putFinish_true k v b l r t old done hb j1 j2
            simp [f1]
        · simp only [hlt, if_false]
          rcases hp : l.putR ops key value with ⟨t, - | ⟨old, done⟩⟩
          · exact absurd (by rw [hp]) (ihl hb.2.2.2.1)
          · obtain ⟨j1, j2⟩ := (putR_shape key value l hb.2.2.2.1).2 _ _ _ hp
            obtain ⟨T', d', f1, -⟩ := putFinish_false k v b l r t old done hb j1 j2
            simp [f1]

theorem removeR_total (ht : TotalKeys ops) (key : K) (t : Tree K V) (hb : Balanced t) : (t.removeR ops key).2 ≠ none := by
  induction t generalizing key with
  | nil => simp [Tree.removeR]
  | node k v b l r ihl ihr =>
    have right : ∀ (k' key : K) (v' : V) (F : Option (K × V) → Option (K × V)),
        (match r.removeR ops key with
          | (t, none) => (Tree.node k' v' b l t, none)
          | (t, some (n, done)) => Tree.removeFinish k' v' b l r true t (F n) done).2 ≠ none := by
      intro k' key v' F
      rcases hp : r.removeR ops key with ⟨t, - | ⟨n, done⟩⟩
      · exact absurd (by rw [hp]) (ihr key hb.2.2.2.2)
      · obtain ⟨j1, j2⟩ := (removeR_shape key r hb.2.2.2.2).2 _ _ _ hp
        obtain ⟨T', d', f1, -⟩ := removeFinish_true k v k' v' b l r t (F n) done hb j1 j2
        simp [f1]
    have left : ∀ (k' key : K) (v' : V) (F : Option (K × V) → Option (K × V)),
        (match l.removeR ops key with
          | (t, none) => (Tree.node k' v' b t r, none)
          | (t, some (n, done)) => Tree.removeFinish k' v' b l r false t (F n) done).2 ≠ none := by
      intro k' key v' F
      rcases hp : l.removeR ops key with ⟨t, - | ⟨n, done⟩⟩
      · exact absurd (by rw [hp]) (ihl key hb.2.2.2.1)
      · obtain ⟨j1, j2⟩ := (removeR_shape key l hb.2.2.2.1).2 _ _ _ hp
        obtain ⟨T', d', f1, -⟩ := removeFinish_false k v k' v' b l r t (F n) done hb j1 j2
        simp [f1]
    rw [Tree.removeR.eq_def]
    simp only
    by_cases he : ops.equal k key = true
    · simp only [he, if_true]
      cases l with
      | nil => simp
      | node k2 v2 b2 l2 r2 =>
        cases r with
        | nil => simp
        | node k3 v3 b3 l3 r3 =>
          simp only
          obtain ⟨x, A, hx, -⟩ := rightmost_spec (Tree.node k2 v2 b2 l2 r2) (by simp)
          simp only [hx]
          cases hc : ops.compare x.1 x.1 with
          | none => exact absurd hc (ht _ _)
          | some c =>
            simp only
            by_cases hlt : c < 0
            · simp only [hlt, if_true]
              exact right x.1 x.1 x.2 (fun _ => some (k, v))
            · simp only [hlt, if_false]
              exact left x.1 x.1 x.2 (fun _ => some (k, v))
    · simp only [he, Bool.false_eq_true, if_false]
      cases hc : ops.compare k key with
      | none => exact absurd hc (ht _ _)
      | some c =>
        simp only
        by_cases hlt : c < 0
        · simp only [hlt, if_true]
          exact right k key v id
        · simp only [hlt, if_false]
          exact left k key v id

theorem getR_total (ht : TotalKeys ops) (key : K) (t : Tree K V) : t.getR ops key ≠ none := by
  induction t with
  | nil => simp [Tree.getR]
  | node k v b l r ihl ihr =>
    unfold Tree.getR
    split
    · simp
    · cases hc : ops.compare k key with
      | none => exact absurd hc (ht _ _)
      | some c =>
        simp only
        split <;> simp [ihl, ihr]

/-! ### The pointer operations -/

/-- Possibly one new address. -/
def GrownBy (m : Nat) (A B : List Nat) : Prop := A = B ∨ ∃ X Y, A = X ++ Y ∧ B = X ++ m :: Y

theorem GrownBy.left {m : Nat} {A B : List Nat} (h : GrownBy m A B) (C : List Nat) : GrownBy m (A ++ C) (B ++ C) := by
  rcases h with rfl | ⟨X, Y, rfl, rfl⟩
  · exact .inl rfl
  · exact .inr ⟨X, Y ++ C, by simp, by simp⟩

theorem GrownBy.right {m : Nat} {A B : List Nat} (h : GrownBy m A B) (C : List Nat) : GrownBy m (C ++ A) (C ++ B) := by
  rcases h with rfl | ⟨X, Y, rfl, rfl⟩
  · exact .inl rfl
  · exact .inr ⟨C ++ X, Y, by simp, by simp⟩

theorem GrownBy.nodup {m : Nat} {A B : List Nat} (h : GrownBy m A B) (hA : A.Nodup) (hm : m ∉ A) : B.Nodup := by
  rcases h with rfl | ⟨X, Y, rfl, rfl⟩
  · exact hA
  · rw [List.nodup_middle, List.nodup_cons]
    exact ⟨hm, hA⟩

theorem GrownBy.mem {m : Nat} {A B : List Nat} (h : GrownBy m A B) {x : Nat} (hx : x ∈ B) : x ∈ A ∨ x = m := by
  rcases h with rfl | ⟨X, Y, rfl, rfl⟩
  · exact .inl hx
  · simp only [List.mem_append, List.mem_cons] at hx ⊢
    grind

theorem frame_refl (h : AHeap K V) (A : List Nat) : Frame h h A := ⟨Nat.le_refl _, fun _ _ _ => rfl⟩

theorem frame_trans' {h h1 h2 : AHeap K V} {A B : List Nat} (f1 : Frame h h1 A) (f2 : Frame h1 h2 B)
    (hB : ∀ x ∈ B, x ∈ A ∨ h.length ≤ x) : Frame h h2 A :=
  ⟨Nat.le_trans f1.1 f2.1, fun a ha hA => by
    rw [f2.2 a (Nat.lt_of_lt_of_le ha f1.1) fun hb => ?_, f1.2 a ha hA]
    rcases hB a hb with h | h
    · exact hA h
    · omega⟩

theorem Owns.framed {h h' : AHeap K V} {A : List Nat} (P : PTree K V) (hp : Owns h P) (hf : Frame h h' A) (hd : ∀ x ∈ P.addrs, x ∉ A) :
    Owns h' P :=
  Owns.frame P hp fun a ha => hf.2 a (Owns.lt P hp a ha) (hd a ha)

theorem ptr_dir (dir : Bool) (l r : PTree K V) : (if dir then r.ptr else l.ptr) = (if dir then r else l).ptr := by
  cases dir <;> rfl

/-- The recursive call, then the rest (both for `Put` and for `Remove`): what is needed to go on after the recursive call. -/
theorem after_child {dir : Bool} {h h1 : AHeap K V} {a : Nat} {k : K} {v : V} {b : Int} {l r : PTree K V}
    (hp : Owns h (.node a k v b l r)) (hn : (PTree.node a k v b l r).addrs.Nodup)
    (hf : Frame h h1 (if dir then r else l).addrs) :
    h1[a]? = some ⟨k, v, b, l.ptr, r.ptr⟩ ∧ (dir = true → Owns h1 l) ∧ (dir = false → Owns h1 r) := by
  obtain ⟨q1, q2, q3⟩ := hp
  have hlt := (List.getElem?_eq_some_iff.mp q1).1
  simp only [addrs, List.nodup_append, List.nodup_cons, List.mem_cons] at hn
  cases dir with
  | false =>
    simp only [Bool.false_eq_true, if_false] at hf
    exact ⟨by rw [hf.2 a hlt (by grind), q1], by simp, fun _ => Owns.framed r q3 hf (by grind)⟩
  | true =>
    simp only [if_true] at hf
    exact ⟨by rw [hf.2 a hlt (by grind), q1], fun _ => Owns.framed l q2 hf (by grind), by simp⟩

theorem withChild_grown {dir : Bool} {m a : Nat} {k : K} {v : V} {b : Int} {l r Q : PTree K V}
    (hg : GrownBy m (if dir then r else l).addrs Q.addrs) :
    GrownBy m (PTree.node a k v b l r).addrs (withChild a k v b l r dir Q).addrs := by
  cases dir with
  | false => exact hg.left _
  | true => exact (GrownBy.right (C := l.addrs ++ [a]) hg) |> fun h => by simpa [addrs, withChild] using h

theorem child_subset {dir : Bool} {a : Nat} {k : K} {v : V} {b : Int} {l r : PTree K V} :
    ∀ x ∈ (if dir then r else l).addrs, x ∈ (PTree.node a k v b l r).addrs := by
  cases dir <;> simp +contextual [addrs]

/-- `putR`: nothing changes if a comparison panics; else the heap has the new tree. -/
theorem putR_heap (key : K) (value : V) (P : PTree K V) (h : AHeap K V) (hp : Owns h P) (hn : P.addrs.Nodup) (hb : Balanced P.erase)
    (fuel : Nat) (hfuel : height P.erase < fuel) :
    ((P.erase.putR ops key value).2 = none → HM.putR ops key value fuel P.ptr h = (h, none)) ∧
    ∀ T old d, P.erase.putR ops key value = (T, some (old, d)) →
      ∃ h' R, HM.putR ops key value fuel P.ptr h = (h', some (R.ptr, old, d)) ∧ Owns h' R ∧ R.erase = T ∧
        GrownBy h.length P.addrs R.addrs ∧ Frame h h' P.addrs := by
  induction P generalizing h fuel with
  | nil =>
    obtain ⟨f, rfl⟩ : ∃ f, fuel = f + 1 := ⟨fuel - 1, by omega⟩
    refine ⟨by simp [erase, Tree.putR], fun T old d hT => ?_⟩
    simp only [erase, Tree.putR, Prod.mk.injEq, Option.some.injEq] at hT
    obtain ⟨rfl, rfl, rfl⟩ := hT
    refine ⟨h ++ [⟨key, value, 0, none, none⟩], .node h.length key value 0 .nil .nil, rfl, ⟨?_, trivial, trivial⟩, rfl,
      .inr ⟨[], [], rfl, rfl⟩, ⟨by simp, fun x hx _ => by rw [List.getElem?_append_left hx]⟩⟩
    simp [ptr]
  | node a k v b l r ihl ihr =>
    obtain ⟨f, rfl⟩ : ∃ f, fuel = f + 1 := ⟨fuel - 1, by omega⟩
    have hp0 := hp
    obtain ⟨q1, q2, q3⟩ := hp
    have hlt := (List.getElem?_eq_some_iff.mp q1).1
    have hn' := hn
    simp only [addrs, List.nodup_append, List.nodup_cons, List.mem_cons] at hn'
    have hm : h.length ∉ (PTree.node a k v b l r).addrs := fun hx => Nat.lt_irrefl _ (Owns.lt _ hp0 _ hx)
    simp only [ptr, HM.putR]
    rw [bind_ok (load_some q1)]
    simp only [erase, Tree.putR]
    by_cases he : ops.equal k key = true
    · simp only [he, if_true]
      refine ⟨by simp, fun T old d hT => ?_⟩
      simp only [Prod.mk.injEq, Option.some.injEq] at hT
      obtain ⟨rfl, rfl, rfl⟩ := hT
      refine ⟨h.set a ⟨key, value, b, l.ptr, r.ptr⟩, .node a key value b l r, ?_, ⟨?_, ?_, ?_⟩, rfl, .inl rfl, set_frame' _ _ (by simp [addrs])⟩
      · rw [HM.setEntry, bind_ok (modify_some q1 _)]
        rfl
      · simp [List.getElem?_set, hlt]
      · refine Owns.set _ q2 ?_; grind
      · refine Owns.set _ q3 ?_; grind
    · simp only [he, Bool.false_eq_true, if_false]
      cases hc : ops.compare k key with
      | none =>
        refine ⟨fun _ => ?_, by simp⟩
        rw [bind_stop (s' := h) (by simp [HM.compare, hc])]
      | some c =>
        rw [bind_ok (a := c) (s' := h) (by simp [HM.compare, hc]), bind_ok (link_some q1 _)]
        simp only [erase, height, Balanced] at hfuel hb
        have key' : ∀ dir : Bool, (decide (c < 0)) = dir →
            ((((if dir then r else l).erase.putR ops key value).2 = none →
              HM.putR ops key value f (if dir then r else l).ptr h = (h, none)) ∧
            ∀ T old d, (if dir then r else l).erase.putR ops key value = (T, some (old, d)) →
              ∃ h' R, HM.putR ops key value f (if dir then r else l).ptr h = (h', some (R.ptr, old, d)) ∧ Owns h' R ∧ R.erase = T ∧
                GrownBy h.length (if dir then r else l).addrs R.addrs ∧ Frame h h' (if dir then r else l).addrs) := by
          intro dir _
          cases dir with
          | false => exact ihl h q2 (by grind) hb.2.2.2.1 f (by omega)
          | true => exact ihr h q3 (by grind) hb.2.2.2.2 f (by omega)
        obtain ⟨i1, i2⟩ := key' _ rfl
        rw [ptr_dir]
        have fin : ∀ dir : Bool, ∀ T0 old0 d0, (if dir then r else l).erase.putR ops key value = (T0, some (old0, d0)) →
            (∃ h' R, HM.putR ops key value f (if dir then r else l).ptr h = (h', some (R.ptr, old0, d0)) ∧ Owns h' R ∧ R.erase = T0 ∧
                GrownBy h.length (if dir then r else l).addrs R.addrs ∧ Frame h h' (if dir then r else l).addrs) →
            ∀ T old d, Tree.putFinish k v b l.erase r.erase dir T0 old0 d0 = (T, some (old, d)) →
              ∃ h' R, (HM.putR ops key value f (if dir then r else l).ptr >>= fun x =>
                  HM.putFinish (some a) dir x.1 x.2.1 x.2.2) h = (h', some (R.ptr, old, d)) ∧ Owns h' R ∧ R.erase = T ∧
                GrownBy h.length (PTree.node a k v b l r).addrs R.addrs ∧ Frame h h' (PTree.node a k v b l r).addrs := by
          rintro dir T0 old0 d0 - ⟨h1, Q, j1, j2, rfl, j4, j5⟩ T old d hT
          rw [bind_ok j1]
          obtain ⟨u1, u2, u3⟩ := after_child hp0 hn j5
          have hg := withChild_grown (a := a) (k := k) (v := v) (b := b) j4
          obtain ⟨h2, R, w1, w2, w3, w4, w5⟩ := putFinish_heap dir u1 u2 u3 j2 (hg.nodup hn hm) hT
          refine ⟨h2, R, w1, w2, w3, by rw [w4]; exact hg, frame_trans' (frame_mono j5 child_subset) w5 fun x hx => ?_⟩
          rcases hg.mem hx with h' | h'
          · exact .inl h'
          · exact .inr (by omega)
        by_cases hlt' : c < 0
        · simp only [hlt', if_true, decide_true] at i1 i2 ⊢
          rcases hr : r.erase.putR ops key value with ⟨t, - | ⟨old, done⟩⟩
          · refine ⟨fun _ => ?_, by simp⟩
            rw [bind_stop (i1 (by rw [hr]))]
          · simp only
            obtain ⟨f1, d', g1, -⟩ := putFinish_true k v b l.erase r.erase t old done hb ((putR_shape key value r.erase hb.2.2.2.2).2 _ _ _ hr).1
              ((putR_shape key value r.erase hb.2.2.2.2).2 _ _ _ hr).2
            refine ⟨fun hx => by rw [g1] at hx; simp at hx, fun T old' d hT => ?_⟩
            exact fin true t old done hr (i2 _ _ _ hr) T old' d hT
        · simp only [hlt', if_false, decide_false, Bool.false_eq_true] at i1 i2 ⊢
          rcases hr : l.erase.putR ops key value with ⟨t, - | ⟨old, done⟩⟩
          · refine ⟨fun _ => ?_, by simp⟩
            rw [bind_stop (i1 (by rw [hr]))]
          · simp only
            obtain ⟨f1, d', g1, -⟩ := putFinish_false k v b l.erase r.erase t old done hb ((putR_shape key value l.erase hb.2.2.2.1).2 _ _ _ hr).1
              ((putR_shape key value l.erase hb.2.2.2.1).2 _ _ _ hr).2
            refine ⟨fun hx => by rw [g1] at hx; simp at hx, fun T old' d hT => ?_⟩
            exact fin false t old done hr (i2 _ _ _ hr) T old' d hT

/-- The heir. -/
theorem heir_heap (P : PTree K V) (h : AHeap K V) (hp : Owns h P) (fuel : Nat) (hfuel : height P.erase ≤ fuel) {e : K × V}
    (he : P.erase.rightmost = some e) : HM.heir fuel P.ptr h = (h, some e) := by
  induction P generalizing fuel with
  | nil => simp [erase, Tree.rightmost] at he
  | node a k v b l r _ ihr =>
    simp only [erase, height] at hfuel
    obtain ⟨f, rfl⟩ : ∃ f, fuel = f + 1 := ⟨fuel - 1, by omega⟩
    obtain ⟨q1, q2, q3⟩ := hp
    simp only [HM.heir, ptr]
    rw [bind_ok (load_some q1)]
    cases r with
    | nil =>
      simp only [erase, Tree.rightmost, Option.some.injEq] at he
      subst he
      rfl
    | node a3 k3 v3 b3 l3 r3 =>
      simp only [erase, Tree.rightmost] at he
      exact ihr q3 f (by omega) he

theorem Owns.setEntry {h : AHeap K V} {a : Nat} {k : K} {v : V} {b : Int} {l r : PTree K V} (hp : Owns h (.node a k v b l r))
    (hn : (PTree.node a k v b l r).addrs.Nodup) (k' : K) (v' : V) :
    ∃ h', HM.setEntry (some a) k' v' h = (h', some ()) ∧ Owns h' (.node a k' v' b l r) ∧ Frame h h' [a] := by
  obtain ⟨h1, h2, h3⟩ := hp
  have hlt := (List.getElem?_eq_some_iff.mp h1).1
  simp only [addrs, List.nodup_append, List.nodup_cons, List.mem_cons] at hn
  refine ⟨h.set a ⟨k', v', b, l.ptr, r.ptr⟩, by simp [HM.setEntry, modify_some h1], ⟨?_, ?_, ?_⟩, set_frame _ _ _⟩
  · simp [List.getElem?_set, hlt]
  · refine Owns.set _ h2 ?_; grind
  · refine Owns.set _ h3 ?_; grind

theorem ptr_mem {P : PTree K V} {q : Nat} (h : P.ptr = some q) : q ∈ P.addrs := by
  cases P with
  | nil => simp [ptr] at h
  | node a k v b l r => simp only [ptr, Option.some.injEq] at h; simp [addrs, h]

/-- What the heap is like after `removeR`.  `died`: the node that has been taken out keeps its links and its entry. -/
structure Removed (h h' : AHeap K V) (P R : PTree K V) (T : Tree K V) : Prop where
  owns : Owns h' R
  erase : R.erase = T
  sub : R.addrs.Sublist P.addrs
  frame : Frame h h' P.addrs
  died : ∀ x ∈ P.addrs, x ∉ R.addrs → ∃ n : HNode K V, h'[x]? = some n ∧ (∀ q, n.l = some q ∨ n.r = some q → q ∈ R.addrs) ∧
    (n.key, n.val) ∈ entries P.erase

/-- Both outcomes. -/
def RemovesTo (x : AHeap K V × Option (Ptr × Option (K × V) × Bool)) (h : AHeap K V) (P : PTree K V)
    (y : Tree K V × Option (Option (K × V) × Bool)) : Prop :=
  match y with
  | (T, none) => ∃ h' R, x = (h', none) ∧ Removed h h' P R T ∧ R.ptr = P.ptr ∧ R.addrs = P.addrs
  | (T, some (old, d)) => ∃ h' R, x = (h', some (R.ptr, old, d)) ∧ Removed h h' P R T

theorem withChild_sub {dir : Bool} {a : Nat} {k k' : K} {v v' : V} {b : Int} {l r Q : PTree K V}
    (hg : Q.addrs.Sublist (if dir then r else l).addrs) :
    (withChild a k v b l r dir Q).addrs.Sublist (PTree.node a k' v' b l r).addrs := by
  cases dir with
  | false => exact List.Sublist.append hg (List.Sublist.refl _)
  | true => exact List.Sublist.append (List.Sublist.refl _) (List.Sublist.cons₂ _ hg)

/-- `removeR`. -/
theorem removeR_heap (key : K) (P : PTree K V) (h : AHeap K V) (hp : Owns h P) (hn : P.addrs.Nodup) (hb : Balanced P.erase)
    (fuel : Nat) (hfuel : height P.erase < fuel) :
    RemovesTo (HM.removeR ops fuel key P.ptr h) h P (P.erase.removeR ops key) := by
  induction P generalizing h fuel key with
  | nil =>
    obtain ⟨f, rfl⟩ : ∃ f, fuel = f + 1 := ⟨fuel - 1, by omega⟩
    exact ⟨h, .nil, rfl, trivial, rfl, List.Sublist.refl _, frame_refl _ _, by simp [addrs]⟩
  | node a k v b l r ihl ihr =>
    obtain ⟨f, rfl⟩ : ∃ f, fuel = f + 1 := ⟨fuel - 1, by omega⟩
    have hb0 := hb
    have hp0 := hp
    obtain ⟨q1, q2, q3⟩ := hp
    have hn' := hn
    simp only [addrs, List.nodup_append, List.nodup_cons, List.mem_cons] at hn'
    simp only [erase, height, Balanced] at hfuel hb
    -- the recursive call on a child and the rest, in a heap `h1` in which the entry of the node may be another one
    have go : ∀ (dir : Bool) (h1 : AHeap K V) (k' key : K) (v' : V) (F : Option (K × V) → Option (K × V)),
        Owns h1 (.node a k' v' b l r) → Frame h h1 [a] →
        RemovesTo ((HM.removeR ops f key (if dir then r else l).ptr >>= fun x =>
          HM.removeFinish (some a) dir x.1 (F x.2.1) x.2.2) h1) h (.node a k v b l r)
          (match (if dir then r else l).erase.removeR ops key with
            | (t, none) => (Tree.node k' v' b (if dir then l.erase else t) (if dir then t else r.erase), none)
            | (t, some (n, done)) => Tree.removeFinish k' v' b l.erase r.erase dir t (F n) done) := by
      intro dir h1 k' key v' F o1 f1
      have hn1 : (PTree.node a k' v' b l r).addrs.Nodup := hn
      have ih : RemovesTo (HM.removeR ops f key (if dir then r else l).ptr h1) h1 (if dir then r else l)
          ((if dir then r else l).erase.removeR ops key) := by
        cases dir with
        | false => exact ihl key h1 o1.2.1 (by grind) hb.2.2.2.1 f (by omega)
        | true => exact ihr key h1 o1.2.2 (by grind) hb.2.2.2.2 f (by omega)
      have f1' : Frame h h1 (PTree.node a k v b l r).addrs := frame_mono f1 (by simp [addrs])
      rcases hc : (if dir then r else l).erase.removeR ops key with ⟨t, - | ⟨n, done⟩⟩
      · rw [hc] at ih
        obtain ⟨h2, Q, e1, ⟨e2, rfl, e4, e5, -⟩, e6, e7⟩ := ih
        obtain ⟨u1, u2, u3⟩ := after_child o1 hn1 e5
        have hsame : (withChild a k' v' b l r dir Q).addrs = (PTree.node a k v b l r).addrs := by
          cases dir with
          | false => simp only [Bool.false_eq_true, if_false] at e7; simp [withChild, addrs, e7]
          | true => simp only [if_true] at e7; simp [withChild, addrs, e7]
        refine ⟨h2, withChild a k' v' b l r dir Q, by rw [bind_stop e1], ⟨?_, ?_, withChild_sub e4,
          frame_trans f1' (frame_mono e5 child_subset), fun x hx hxn => absurd (hsame ▸ hx) hxn⟩, rfl, hsame⟩
        · cases dir with
          | false => exact ⟨by simp at e6 ⊢; rw [e6]; exact u1, e2, u3 rfl⟩
          | true => exact ⟨by simp at e6 ⊢; rw [e6]; exact u1, u2 rfl, e2⟩
        · cases dir <;> simp [withChild, erase]
      · rw [hc] at ih
        obtain ⟨h2, Q, e1, ⟨e2, rfl, e4, e5, e8⟩⟩ := ih
        obtain ⟨u1, u2, u3⟩ := after_child o1 hn1 e5
        rw [bind_ok e1]
        have hsub := withChild_sub (a := a) (k := k') (k' := k) (v := v') (v' := v) (b := b) e4
        have hfin : ∃ T' d', Tree.removeFinish k' v' b l.erase r.erase dir Q.erase (F n) done = (T', some (F n, d')) := by
          cases dir with
          | false =>
            simp only [Bool.false_eq_true, if_false] at hc
            obtain ⟨T', d', g1, -⟩ := removeFinish_false k v k' v' b l.erase r.erase Q.erase (F n) done hb0
              ((removeR_shape key l.erase hb.2.2.2.1).2 _ _ _ hc).1 ((removeR_shape key l.erase hb.2.2.2.1).2 _ _ _ hc).2
            exact ⟨T', d', g1⟩
          | true =>
            simp only [if_true] at hc
            obtain ⟨T', d', g1, -⟩ := removeFinish_true k v k' v' b l.erase r.erase Q.erase (F n) done hb0
              ((removeR_shape key r.erase hb.2.2.2.2).2 _ _ _ hc).1 ((removeR_shape key r.erase hb.2.2.2.2).2 _ _ _ hc).2
            exact ⟨T', d', g1⟩
        obtain ⟨T', d', g1⟩ := hfin
        obtain ⟨h3, R, w1, w2, w3, w4, w5⟩ := removeFinish_heap dir u1 u2 u3 e2 (hsub.nodup hn) g1
        simp only [g1]
        refine ⟨h3, R, w1, w2, w3, by rw [w4]; exact hsub,
          frame_trans (frame_trans f1' (frame_mono e5 child_subset)) (frame_mono w5 fun x hx => hsub.subset hx), fun x hx hxn => ?_⟩
        rw [w4] at hxn ⊢
        have hQ : ∀ q ∈ Q.addrs, q ∈ (withChild a k' v' b l r dir Q).addrs := by cases dir <;> simp +contextual [withChild, addrs]
        have hxc : x ∈ (if dir then r else l).addrs := by
          cases dir <;> simp only [withChild, addrs, List.mem_append, List.mem_cons, if_true, Bool.false_eq_true, if_false] at hx hxn ⊢ <;>
            tauto
        obtain ⟨m, m1, m2, m3⟩ := e8 x hxc fun hq => hxn (hQ x hq)
        refine ⟨m, by rw [w5.2 x (List.getElem?_eq_some_iff.mp m1).1 hxn]; exact m1, fun q hq => hQ q (m2 q hq), ?_⟩
        cases dir <;> simp only [if_true, Bool.false_eq_true, if_false] at m3 <;> simp [PTree.erase, entries, m3]
    simp only [ptr, HM.removeR]
    rw [bind_ok (load_some q1)]
    rw [PTree.erase, Tree.removeR.eq_def]
    simp only
    by_cases he : ops.equal k key = true
    · simp only [he, if_true]
      cases l with
      | nil =>
        simp only [PTree.erase, ptr]
        refine ⟨h, r, rfl, q3, rfl, by simp [addrs], frame_refl _ _, fun x hx hxn =>
          ⟨⟨k, v, b, none, r.ptr⟩, ?_, fun q hq => ?_, ?_⟩⟩
        · simp only [addrs, List.nil_append, List.mem_cons] at hx
          rcases hx with rfl | hx
          · exact q1
          · exact absurd hx hxn
        · rcases hq with hq | hq
          · simp at hq
          · exact ptr_mem hq
        · simp [PTree.erase, entries]
      | node a2 k2 v2 b2 l2 r2 =>
        cases r with
        | nil =>
          simp only [PTree.erase, ptr]
          refine ⟨h, .node a2 k2 v2 b2 l2 r2, rfl, q2, rfl, by simp [addrs], frame_refl _ _, fun x hx hxn =>
            ⟨⟨k, v, b, some a2, none⟩, ?_, fun q hq => ?_, ?_⟩⟩
          · rw [addrs] at hx
            simp only [List.mem_append, List.mem_cons] at hx
            rcases hx with hx | rfl | hx
            · exact absurd hx hxn
            · exact q1
            · simp [addrs] at hx
          · rcases hq with hq | hq
            · exact ptr_mem (P := .node a2 k2 v2 b2 l2 r2) hq
            · simp at hq
          · simp [PTree.erase, entries]
        | node a3 k3 v3 b3 l3 r3 =>
          obtain ⟨x, A, hx, -⟩ := rightmost_spec (PTree.node a2 k2 v2 b2 l2 r2).erase (by simp [PTree.erase])
          have hh := heir_heap _ h q2 f (by omega) hx
          obtain ⟨h1, s1, s2, s3⟩ := Owns.setEntry hp0 hn x.1 x.2
          simp only [PTree.erase] at hx
          simp only [PTree.erase, ptr] at hh ⊢
          simp only [hx]
          rw [bind_ok hh, bind_ok s1]
          cases hc : ops.compare x.1 x.1 with
          | none =>
            simp only
            rw [bind_stop (s' := h1) (by simp [HM.compare, hc])]
            exact ⟨h1, _, rfl, ⟨s2, rfl, List.Sublist.refl _, frame_mono s3 (by simp [addrs]), fun x hx hxn => absurd hx hxn⟩, rfl, rfl⟩
          | some c =>
            simp only
            rw [bind_ok (a := c) (s' := h1) (by simp [HM.compare, hc]), bind_ok (link_some s2.1 _), ptr_dir]
            have := go (decide (c < 0)) h1 x.1 x.1 x.2 (fun _ => some (k, v)) s2 s3
            by_cases hlt : c < 0
            · simp only [hlt, if_true, decide_true] at this ⊢
              exact this
            · simp only [hlt, if_false, decide_false, Bool.false_eq_true] at this ⊢
              exact this
    · simp only [he, Bool.false_eq_true, if_false]
      cases hc : ops.compare k key with
      | none =>
        simp only
        rw [bind_stop (s' := h) (by simp [HM.compare, hc])]
        exact ⟨h, .node a k v b l r, rfl, ⟨hp0, rfl, List.Sublist.refl _, frame_refl _ _, fun x hx hxn => absurd hx hxn⟩, rfl, rfl⟩
      | some c =>
        simp only
        rw [bind_ok (a := c) (s' := h) (by simp [HM.compare, hc]), bind_ok (link_some q1 _), ptr_dir]
        have := go (decide (c < 0)) h k key v id hp0 (frame_refl _ _)
        by_cases hlt : c < 0
        · simp only [hlt, if_true, decide_true, id] at this ⊢
          exact this
        · simp only [hlt, if_false, decide_false, Bool.false_eq_true, id] at this ⊢
          exact this

/-- `getR`. -/
theorem getR_heap (key : K) (P : PTree K V) (h : AHeap K V) (hp : Owns h P) (fuel : Nat) (hfuel : height P.erase < fuel) :
    HM.getR ops key fuel P.ptr h = (h, (P.erase.getR ops key).map Prod.fst) := by
  induction P generalizing fuel with
  | nil =>
    obtain ⟨f, rfl⟩ : ∃ f, fuel = f + 1 := ⟨fuel - 1, by omega⟩
    rfl
  | node a k v b l r ihl ihr =>
    obtain ⟨f, rfl⟩ : ∃ f, fuel = f + 1 := ⟨fuel - 1, by omega⟩
    obtain ⟨q1, q2, q3⟩ := hp
    simp only [erase, height] at hfuel
    simp only [ptr, HM.getR, erase, Tree.getR]
    rw [bind_ok (load_some q1)]
    by_cases he : ops.equal k key = true
    · simp only [he, if_true]; rfl
    · simp only [he, Bool.false_eq_true, if_false]
      cases hc : ops.compare k key with
      | none =>
        rw [bind_stop (s' := h) (by simp [HM.compare, hc])]
        rfl
      | some c =>
        rw [bind_ok (a := c) (s' := h) (by simp [HM.compare, hc]), bind_ok (link_some q1 _), ptr_dir]
        by_cases hlt : c < 0
        · simp only [hlt, if_true, decide_true]
          rw [ihr q3 f (by omega)]
          cases r.erase.getR ops key <;> rfl
        · simp only [hlt, if_false, decide_false, Bool.false_eq_true]
          rw [ihl q2 f (by omega)]
          cases l.erase.getR ops key <;> rfl

/-! ### Fuel -/

theorem height_le_addrs (P : PTree K V) : height P.erase ≤ P.addrs.length := by
  induction P with
  | nil => simp [erase, height]
  | node a k v b l r ihl ihr => simp only [erase, height, addrs, List.length_append, List.length_cons]; omega

theorem nodup_lt_length {A : List Nat} (hn : A.Nodup) {n : Nat} (h : ∀ a ∈ A, a < n) : A.length ≤ n := by
  have := List.Nodup.length_le_of_subset (l₁ := A) (l₂ := List.range n) hn fun a ha => by simpa using h a ha
  simpa using this

theorem height_lt_fuel {P : PTree K V} {h : AHeap K V} (hp : Owns h P) (hn : P.addrs.Nodup) : height P.erase < h.length + 1 :=
  Nat.lt_succ_of_le (Nat.le_trans (height_le_addrs P) (nodup_lt_length hn (Owns.lt P hp)))

/-! ### Maps -/

/-- The map with the nodes of `P`. -/
def hmap (P : PTree K V) (n : Int) : HMap := ⟨P.ptr, n⟩

theorem put_heap (k : K) (v : V) (P : PTree K V) (n : Int) (h : AHeap K V) (hp : Owns h P) (hn : P.addrs.Nodup) (hb : Balanced P.erase) :
    ∃ h' R, HMap.put ops (hmap P n) k v h =
        (h', hmap R ((⟨P.erase, n⟩ : SortedMap K V).put ops k v).1.size, ((⟨P.erase, n⟩ : SortedMap K V).put ops k v).2) ∧
      Owns h' R ∧ R.erase = ((⟨P.erase, n⟩ : SortedMap K V).put ops k v).1.root ∧ Balanced R.erase ∧
      GrownBy h.length P.addrs R.addrs ∧ Frame h h' P.addrs := by
  cases P with
  | nil =>
    refine ⟨h ++ [⟨k, v, 0, none, none⟩], .node h.length k v 0 .nil .nil, rfl, ⟨by simp [ptr], trivial, trivial⟩, rfl, ?_,
      .inr ⟨[], [], rfl, rfl⟩, ⟨by simp, fun x hx _ => by rw [List.getElem?_append_left hx]⟩⟩
    simp [PTree.erase, Balanced, height]
  | node a k0 v0 b l r =>
    obtain ⟨i1, i2⟩ := putR_heap (ops := ops) k v _ h hp hn hb _ (height_lt_fuel hp hn)
    obtain ⟨j1, j2⟩ := putR_shape (ops := ops) k v _ hb
    rcases hr : (PTree.node a k0 v0 b l r).erase.putR ops k v with ⟨T, - | ⟨old, d⟩⟩
    · have e1 := i1 (by rw [hr])
      have e2 := j1 (by rw [hr])
      rw [hr] at e2
      simp only [Prod.mk.injEq, and_true] at e2
      subst e2
      have hm : (⟨(PTree.node a k0 v0 b l r).erase, n⟩ : SortedMap K V).put ops k v = (⟨(PTree.node a k0 v0 b l r).erase, n⟩, none) := by
        simp only [PTree.erase] at hr ⊢
        simp [SortedMap.put, SortedMap.putNode, hr]
      rw [hm]
      refine ⟨h, .node a k0 v0 b l r, ?_, hp, rfl, hb, .inl rfl, frame_refl _ _⟩
      simp only [ptr] at e1
      simp [HMap.put, hmap, ptr, e1]
    · obtain ⟨h', R, e1, e2, e3, e4, e5⟩ := i2 _ _ _ hr
      have hm : (⟨(PTree.node a k0 v0 b l r).erase, n⟩ : SortedMap K V).put ops k v =
          (⟨T, if old.isNone then n + 1 else n⟩, some (old.map Prod.snd)) := by
        simp only [PTree.erase] at hr ⊢
        simp [SortedMap.put, SortedMap.putNode, hr]
      rw [hm]
      refine ⟨h', R, ?_, e2, e3, by rw [e3]; exact (j2 _ _ _ hr).1, e4, e5⟩
      simp only [ptr] at e1
      simp [HMap.put, hmap, ptr, e1]

theorem remove_heap (k : K) (P : PTree K V) (n : Int) (h : AHeap K V) (hp : Owns h P) (hn : P.addrs.Nodup) (hb : Balanced P.erase) :
    ∃ h' R, HMap.remove ops (hmap P n) k h =
        (h', hmap R ((⟨P.erase, n⟩ : SortedMap K V).remove ops k).1.size, ((⟨P.erase, n⟩ : SortedMap K V).remove ops k).2) ∧
      Owns h' R ∧ R.erase = ((⟨P.erase, n⟩ : SortedMap K V).remove ops k).1.root ∧ Balanced R.erase ∧
      R.addrs.Sublist P.addrs ∧ Frame h h' P.addrs ∧
      ∀ x ∈ P.addrs, x ∉ R.addrs → ∃ n : HNode K V, h'[x]? = some n ∧ (∀ q, n.l = some q ∨ n.r = some q → q ∈ R.addrs) ∧
        (n.key, n.val) ∈ entries P.erase := by
  have i := removeR_heap (ops := ops) k P h hp hn hb _ (height_lt_fuel hp hn)
  obtain ⟨j1, j2⟩ := removeR_shape (ops := ops) k _ hb
  rcases hr : P.erase.removeR ops k with ⟨T, - | ⟨old, d⟩⟩
  · rw [hr] at i
    obtain ⟨h', R, e1, e2, e3, e4⟩ := i
    refine ⟨h', R, ?_, e2.owns, ?_, by rw [e2.erase]; exact (j1 _ hr).1, e2.sub, e2.frame, e2.died⟩
    · simp [HMap.remove, hmap, e1, SortedMap.remove, SortedMap.removeNode, hr, e3]
    · simp [SortedMap.remove, SortedMap.removeNode, hr, e2.erase]
  · rw [hr] at i
    obtain ⟨h', R, e1, e2⟩ := i
    refine ⟨h', R, ?_, e2.owns, ?_, by rw [e2.erase]; exact (j2 _ _ _ hr).1, e2.sub, e2.frame, e2.died⟩
    · simp [HMap.remove, hmap, e1, SortedMap.remove, SortedMap.removeNode, hr]
    · simp [SortedMap.remove, SortedMap.removeNode, hr, e2.erase]

theorem get_heap (k : K) (P : PTree K V) (n : Int) (h : AHeap K V) (hp : Owns h P) (hn : P.addrs.Nodup) :
    HMap.get ops (hmap P n) k h = (h, (⟨P.erase, n⟩ : SortedMap K V).get ops k) := by
  simp only [HMap.get, hmap, getR_heap k P h hp _ (height_lt_fuel hp hn), SortedMap.get, SortedMap.getNode]

end Poodle
