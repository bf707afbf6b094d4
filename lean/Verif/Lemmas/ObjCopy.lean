import Verif.Lemmas.ValueObj

/-
Lemmas about copying objects: only new objects, well typed, that refer to new objects.
-/

namespace Poodle
open Spec Props

theorem isValue_append {h : VHeap} (e : List VNode) {j : Nat} {b : Bool} (hj : (h[j]?).map VNode.isValue = some b) :
    ((h ++ e)[j]?).map VNode.isValue = some b := by
  cases hh : h[j]? with
  | none => simp [hh] at hj
  | some m =>
    rw [List.getElem?_append_left (List.getElem?_eq_some_iff.mp hh).1, hh]
    simpa [hh] using hj

theorem typedNode_append {h : VHeap} (e : List VNode) {m : VNode} (hm : TypedNode h m) : TypedNode (h ++ e) m := by
  cases m <;> simp only [TypedNode, isValue_iff, isRecord_iff] at hm ⊢
  · exact fun j hj => isValue_append e (hm j hj)
  · exact fun j hj => isValue_append e (hm j hj)
  · exact ⟨fun j hj => isValue_append e (hm.1 j hj), fun j hj => isValue_append e (hm.2 j hj)⟩

theorem typed_append {h : VHeap} (ht : Typed h) {n : VNode} (hn : TypedNode h n) : Typed (h ++ [n]) := by
  intro j m hm
  by_cases hj : j < h.length
  · rw [List.getElem?_append_left hj] at hm
    exact typedNode_append _ (ht j m hm)
  · rw [List.getElem?_append_right (by omega), List.getElem?_singleton] at hm
    split at hm
    · obtain rfl := Option.some.inj hm
      exact typedNode_append _ hn
    · simp at hm

/-- The objects from `h` to `h'` are new: they refer to new objects only, and are not encoded. -/
structure Grown (h h' : VHeap) : Prop where
  ext : ∃ e, h' = h ++ e
  new : ∀ (k : Nat) n, h.length ≤ k → h'[k]? = some n →
    (∀ j ∈ VNode.refs n, h.length ≤ j) ∧ (VNode.constructed n = true → n.isEncoded = false)

theorem Grown.refl (h : VHeap) : Grown h h := by
  refine ⟨⟨[], by simp⟩, fun k n hk hn => ?_⟩
  have := (List.getElem?_eq_some_iff.mp hn).1
  omega

theorem Grown.length_le {h h' : VHeap} (g : Grown h h') : h.length ≤ h'.length := by
  obtain ⟨e, rfl⟩ := g.ext
  simp

theorem Grown.old {h h' : VHeap} (g : Grown h h') {k : Nat} (hk : k < h.length) : h'[k]? = h[k]? := by
  obtain ⟨e, rfl⟩ := g.ext
  exact List.getElem?_append_left hk

theorem Grown.get {h h' : VHeap} (g : Grown h h') {k : Nat} {n : VNode} (hn : h[k]? = some n) : h'[k]? = some n := by
  rw [g.old (List.getElem?_eq_some_iff.mp hn).1, hn]

theorem Grown.trans {a b c : VHeap} (h1 : Grown a b) (h2 : Grown b c) : Grown a c := by
  obtain ⟨e1, r1⟩ := h1.ext
  obtain ⟨e2, r2⟩ := h2.ext
  refine ⟨⟨e1 ++ e2, by rw [r2, r1, List.append_assoc]⟩, fun k n hk hn => ?_⟩
  by_cases hb : k < b.length
  · rw [h2.old hb] at hn
    exact h1.new k n hk hn
  · obtain ⟨q1, q2⟩ := h2.new k n (by omega) hn
    exact ⟨fun j hj => le_trans h1.length_le (q1 j hj), q2⟩

theorem Grown.alloc {h h' : VHeap} (g : Grown h h') {n : VNode} (hr : ∀ j ∈ VNode.refs n, h.length ≤ j)
    (he : VNode.constructed n = true → n.isEncoded = false) : Grown h (h' ++ [n]) := by
  obtain ⟨e, r⟩ := g.ext
  refine ⟨⟨e ++ [n], by rw [r, List.append_assoc]⟩, fun k m hk hm => ?_⟩
  by_cases hb : k < h'.length
  · rw [List.getElem?_append_left hb] at hm
    exact g.new k m hk hm
  · rw [List.getElem?_append_right (by omega), List.getElem?_singleton] at hm
    split at hm
    · obtain rfl := Option.some.inj hm
      exact ⟨hr, he⟩
    · simp at hm

/-- The outcome of copying, whatever it is. -/
structure CopyOut (h : VHeap) (i : Nat) (r : VHeap × Option (Res Nat)) : Prop where
  grown : Grown h r.1
  typed : Typed h → Typed r.1
  result : ∀ j, r.2 = some (.ok j) → h.length ≤ j ∧ j < r.1.length ∧ ∀ n, h[i]? = some n → (r.1[j]?).map VNode.isValue = some n.isValue

theorem andThen_ok {α β : Type} {x : VHeap × Option (Res α)} {k : VHeap → α → VHeap × Option (Res β)} {b : β}
    (h : (andThen x k).2 = some (.ok b)) : ∃ a, x.2 = some (.ok a) ∧ andThen x k = k x.1 a := by
  obtain ⟨x1, x2⟩ := x
  rcases x2 with - | x2
  · simp [andThen] at h
  · cases x2 with
    | ok a => exact ⟨a, rfl, rfl⟩
    | err => simp [andThen] at h
    | panic => simp [andThen] at h

theorem andThen_cases {α β : Type} (x : VHeap × Option (Res α)) (k : VHeap → α → VHeap × Option (Res β)) :
    (∃ a, x.2 = some (.ok a) ∧ andThen x k = k x.1 a) ∨ ((andThen x k).1 = x.1 ∧ ∀ b, (andThen x k).2 ≠ some (.ok b)) := by
  obtain ⟨x1, x2⟩ := x
  rcases x2 with - | x2
  · exact .inr ⟨rfl, by simp [andThen]⟩
  · cases x2 with
    | ok a => exact .inl ⟨a, rfl, rfl⟩
    | err => exact .inr ⟨rfl, by simp [andThen]⟩
    | panic => exact .inr ⟨rfl, by simp [andThen]⟩

theorem elems_copyOut {cp : VHeap → Nat → VHeap × Option (Res Nat)} (hcp : ∀ h i, CopyOut h i (cp h i)) (l : List Nat) (h : VHeap) :
    Grown h (copyElems cp h l).1 ∧ (Typed h → Typed (copyElems cp h l).1) ∧
      ∀ js, (copyElems cp h l).2 = some (.ok js) → (∀ j ∈ js, h.length ≤ j) ∧
        ∀ b, (∀ i ∈ l, (h[i]?).map VNode.isValue = some b) → ∀ j ∈ js, ((copyElems cp h l).1[j]?).map VNode.isValue = some b := by
  induction l generalizing h with
  | nil => exact ⟨Grown.refl h, id, by simp [copyElems]⟩
  | cons i l ih =>
    obtain ⟨g1, t1, r1⟩ := hcp h i
    rw [copyElems]
    rcases andThen_cases (cp h i) (fun h j => andThen (copyElems cp h l) fun h js => (h, some (.ok (j :: js)))) with ⟨j, e1, e2⟩ | ⟨e1, e2⟩
    · rw [e2]
      obtain ⟨g2, t2, r2⟩ := ih (cp h i).1
      rcases andThen_cases (copyElems cp (cp h i).1 l) (fun h js => (h, some (.ok (j :: js)))) with ⟨js, e3, e4⟩ | ⟨e3, e4⟩
      · rw [e4]
        refine ⟨g1.trans g2, fun ht => t2 (t1 ht), fun js' hjs => ?_⟩
        simp only [Option.some.injEq, Res.ok.injEq] at hjs
        subst hjs
        obtain ⟨q1, q2⟩ := r2 js e3
        obtain ⟨p1, p2, p3⟩ := r1 j e1
        refine ⟨fun k hk => ?_, fun b hb k hk => ?_⟩
        · rcases List.mem_cons.mp hk with rfl | hk
          · exact p1
          · exact le_trans g1.length_le (q1 k hk)
        · rcases List.mem_cons.mp hk with rfl | hk
          · have hi := hb i (by simp)
            cases hn : h[i]? with
            | none => simp [hn] at hi
            | some n =>
              rw [g2.old p2, p3 n hn]
              simpa [hn] using hi
          · refine q2 b (fun i' hi' => ?_) k hk
            obtain ⟨e, he⟩ := g1.ext
            rw [he]
            exact isValue_append e (hb i' (by simp [hi']))
      · exact ⟨e3 ▸ g1.trans g2, fun ht => e3 ▸ t2 (t1 ht), fun js hjs => absurd hjs (e4 js)⟩
    · exact ⟨e1 ▸ g1, fun ht => e1 ▸ t1 ht, fun js hjs => absurd hjs (e2 js)⟩

theorem part_copyOut {cp : VHeap → Nat → VHeap × Option (Res Nat)} (hcp : ∀ h i, CopyOut h i (cp h i)) (v : Option Nat) (h : VHeap) :
    Grown h (copyObjPart cp h v).1 ∧ (Typed h → Typed (copyObjPart cp h v).1) ∧
      ∀ o, (copyObjPart cp h v).2 = some (.ok o) → (∀ j, o = some j → h.length ≤ j) ∧
        ∀ b, (∀ i, v = some i → (h[i]?).map VNode.isValue = some b) → ∀ j, o = some j →
          ((copyObjPart cp h v).1[j]?).map VNode.isValue = some b := by
  cases v with
  | none => exact ⟨Grown.refl h, id, by simp [copyObjPart]⟩
  | some i =>
    obtain ⟨g1, t1, r1⟩ := hcp h i
    rw [copyObjPart]
    rcases andThen_cases (cp h i) (fun h j => (h, some (.ok (some j)))) with ⟨j, e1, e2⟩ | ⟨e1, e2⟩
    · rw [e2]
      refine ⟨g1, t1, fun o ho => ?_⟩
      simp only [Option.some.injEq, Res.ok.injEq] at ho
      subst ho
      obtain ⟨p1, p2, p3⟩ := r1 j e1
      refine ⟨fun k hk => (Option.some.inj hk) ▸ p1, fun b hb k hk => ?_⟩
      obtain rfl := Option.some.inj hk
      have hi := hb i rfl
      cases hn : h[i]? with
      | none => simp [hn] at hi
      | some n =>
        rw [p3 n hn]
        simpa [hn] using hi
    · exact ⟨e1 ▸ g1, fun ht => e1 ▸ t1 ht, fun js hjs => absurd hjs (e2 js)⟩

theorem copyOut_stop {h h' : VHeap} {i : Nat} {r : Option (Res Nat)} (g : Grown h h') (t : Typed h → Typed h')
    (hr : ∀ j, r ≠ some (.ok j)) : CopyOut h i (h', r) := ⟨g, t, fun j hj => absurd hj (hr j)⟩

theorem copyOut_alloc {h h' : VHeap} {i : Nat} {n : VNode} (g : Grown h h') (t : Typed h → Typed h')
    (hr : ∀ j ∈ VNode.refs n, h.length ≤ j) (he : VNode.constructed n = true → n.isEncoded = false)
    (ht : Typed h → TypedNode h' n) (hv : ∀ m, h[i]? = some m → n.isValue = m.isValue) : CopyOut h i (h'.alloc n) := by
  refine ⟨g.alloc hr he, fun h1 => typed_append (t h1) (ht h1), fun j hj => ?_⟩
  simp only [VHeap.alloc, Option.some.injEq, Res.ok.injEq] at hj ⊢
  subst hj
  refine ⟨g.length_le, by simp, fun m hm => ?_⟩
  rw [List.getElem?_append_right (le_refl _)]
  simp [hv m hm]

theorem copy_out (f : Nat) : ∀ (h : VHeap) (i : Nat), CopyOut h i (h.copy f i) := by
  induction f with
  | zero => exact fun h i => copyOut_stop (Grown.refl h) id (by simp)
  | succ f ih =>
    intro h i
    rw [VHeap.copy]
    have g0 := Grown.refl h
    cases hn : h[i]? with
    | none => exact copyOut_stop g0 id (by simp)
    | some n =>
      have same : ∀ n' : VNode, n'.isValue = n.isValue → ∀ m, h[i]? = some m → n'.isValue = m.isValue := by
        intro n' e m hm
        rw [hn] at hm
        exact Option.some.inj hm ▸ e
      cases n with
      | prim d e b => exact copyOut_alloc g0 id (by simp [VNode.refs]) (by simp [VNode.isEncoded]) (by simp [TypedNode]) (same _ rfl)
      | array l e b est =>
        obtain ⟨g1, t1, r1⟩ := elems_copyOut ih l h
        rcases andThen_cases (copyElems (VHeap.copy f) h l) (fun h l => h.alloc (.array l false [] 1)) with ⟨js, e1, e2⟩ | ⟨e1, e2⟩
        · simp only
          rw [e2]
          obtain ⟨q1, q2⟩ := r1 js e1
          exact copyOut_alloc g1 t1 q1 (by simp [VNode.isEncoded]) (fun ht j hj => isValue_iff.mpr (q2 true (fun k hk =>
            isValue_iff.mp (ht i _ hn k hk)) j hj)) (same _ rfl)
        · simp only
          exact ⟨e1 ▸ g1, fun ht => e1 ▸ t1 ht, fun js hjs => absurd hjs (e2 js)⟩
      | list l e b est =>
        obtain ⟨g1, t1, r1⟩ := elems_copyOut ih l h
        rcases andThen_cases (copyElems (VHeap.copy f) h l) (fun h l => h.alloc (.list l false [] 1)) with ⟨js, e1, e2⟩ | ⟨e1, e2⟩
        · simp only
          rw [e2]
          obtain ⟨q1, q2⟩ := r1 js e1
          exact copyOut_alloc g1 t1 q1 (by simp [VNode.isEncoded]) (fun ht j hj => isRecord_iff.mpr (q2 false (fun k hk =>
            isRecord_iff.mp (ht i _ hn k hk)) j hj)) (same _ rfl)
        · simp only
          exact ⟨e1 ▸ g1, fun ht => e1 ▸ t1 ht, fun js hjs => absurd hjs (e2 js)⟩
      | record r =>
        simp only
        cases copyKeyPart r.key with
        | err => exact copyOut_stop g0 id (by simp)
        | panic => exact copyOut_stop g0 id (by simp)
        | ok k =>
          simp only
          obtain ⟨g1, t1, r1⟩ := part_copyOut ih r.value h
          rcases andThen_cases (copyObjPart (VHeap.copy f) h r.value) (fun h v => andThen (copyObjPart (VHeap.copy f) h r.scheme) fun h s =>
            h.alloc (.record ⟨k, v, s, r.timestamp, r.sigR, r.sigS, false, [], 0, 0, 0⟩)) with ⟨v, e1, e2⟩ | ⟨e1, e2⟩
          · rw [e2]
            generalize hh1 : (copyObjPart (VHeap.copy f) h r.value).1 = h1 at *
            obtain ⟨g2, t2, r2⟩ := part_copyOut ih r.scheme h1
            rcases andThen_cases (copyObjPart (VHeap.copy f) h1 r.scheme) (fun h s =>
              h.alloc (.record ⟨k, v, s, r.timestamp, r.sigR, r.sigS, false, [], 0, 0, 0⟩)) with ⟨s, e3, e4⟩ | ⟨e3, e4⟩
            · rw [e4]
              obtain ⟨q1, q2⟩ := r1 v e1
              obtain ⟨p1, p2⟩ := r2 s e3
              refine copyOut_alloc (g1.trans g2) (fun ht => t2 (t1 ht)) ?_ (by simp [VNode.isEncoded]) ?_ (same _ rfl)
              · intro j hj
                simp only [VNode.refs, List.mem_append, Option.mem_toList] at hj
                rcases hj with hj | hj
                · exact q1 j hj
                · exact le_trans g1.length_le (p1 j hj)
              · intro ht
                have h0 := ht i _ hn
                refine ⟨fun j hj => isValue_iff.mpr ?_, fun j hj => isValue_iff.mpr (p2 true (fun k hk => ?_) j hj)⟩
                · obtain ⟨e, he⟩ := g2.ext
                  rw [he]
                  exact isValue_append e (q2 true (fun k hk => isValue_iff.mp (h0.1 k hk)) j hj)
                · obtain ⟨e, he⟩ := g1.ext
                  rw [he]
                  exact isValue_append e (isValue_iff.mp (h0.2 k hk))
            · exact ⟨e3 ▸ g1.trans g2, fun ht => e3 ▸ t2 (t1 ht), fun js hjs => absurd hjs (e4 js)⟩
          · exact ⟨e1 ▸ g1, fun ht => e1 ▸ t1 ht, fun js hjs => absurd hjs (e2 js)⟩
      | mappedSimple c b =>
        simp only
        split
        · exact copyOut_alloc g0 id (by simp [VNode.refs]) (by simp [VNode.constructed]) (by simp [TypedNode]) (same _ rfl)
        · exact copyOut_stop g0 id (by simp)
      | mappedStd d =>
        simp only
        split
        · exact copyOut_alloc g0 id (by simp [VNode.refs]) (by simp [VNode.constructed]) (by simp [TypedNode]) (same _ rfl)
        · exact copyOut_stop g0 id (by simp)
      | mappedRec r =>
        simp only
        split
        · exact copyOut_alloc g0 id (by simp [VNode.refs]) (by simp [VNode.constructed]) (by simp [TypedNode]) (same _ rfl)
        · exact copyOut_stop g0 id (by simp)

end Poodle
