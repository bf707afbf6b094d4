import Verif.Spec.ObjCopy
import Verif.Props.ValueObj
import Verif.Props.ValueCopy

/-
Properties C114 and C115: copies of values and records as objects (/repo/src/util/value_util.go, /repo/src/util/record_util.go).
-/

namespace Poodle.Props
open Poodle Spec

/-! ### What a copy contains -/

theorem unfold_append (f : Nat) (h : VHeap) (e : List VNode) : ∀ {i : Nat} {c : Content}, unfold f h i = some c →
    unfold f (h ++ e) i = some c := by
  induction f with
  | zero => simp [unfold]
  | succ f ih =>
    intro i c hc
    rw [unfold] at hc ⊢
    cases hn : h[i]? with
    | none => simp [hn] at hc
    | some n =>
      rw [List.getElem?_append_left (List.getElem?_eq_some_iff.mp hn).1, hn]
      rw [hn] at hc
      cases n with
      | array l a b n =>
        simp only [Option.map_eq_some_iff] at hc ⊢
        obtain ⟨as, has, rfl⟩ := hc
        refine ⟨as, unfoldAll_mono (fun j a ha => ?_) has, rfl⟩
        obtain ⟨c, q1, q2⟩ := Option.bind_eq_some_iff.mp ha
        exact Option.bind_eq_some_iff.mpr ⟨c, ih q1, q2⟩
      | list l a b n =>
        simp only [Option.map_eq_some_iff] at hc ⊢
        obtain ⟨as, has, rfl⟩ := hc
        refine ⟨as, unfoldAll_mono (fun j a ha => ?_) has, rfl⟩
        obtain ⟨c, q1, q2⟩ := Option.bind_eq_some_iff.mp ha
        exact Option.bind_eq_some_iff.mpr ⟨c, ih q1, q2⟩
      | record r =>
        simp only [Option.map_eq_some_iff, Option.bind_eq_some_iff] at hc ⊢
        obtain ⟨v, hv, s, hs, rfl⟩ := hc
        exact ⟨v, unfoldPart_mono (fun _ _ => ih) hv, s, unfoldPart_mono (fun _ _ => ih) hs, rfl⟩
      | _ => exact hc

theorem _root_.Poodle.Grown.unfold {h h' : VHeap} (g : Grown h h') {f i : Nat} {c : Content} (hc : unfold f h i = some c) :
    Spec.unfold f h' i = some c := by
  obtain ⟨e, rfl⟩ := g.ext
  exact unfold_append f h e hc

/-- Copying all elements. -/
theorem elems_content {α : Type} {f : Nat} {cp : VHeap → Nat → VHeap × Option (Res Nat)} (p : Content → Option α) (R C : α → Prop)
    (S : α → α → Prop) (ho : ∀ h i, CopyOut h i (cp h i))
    (hcp : ∀ h i c a, unfold f h i = some c → p c = some a → R a →
      (C a → ∃ j c' a', (cp h i).2 = some (.ok j) ∧ unfold f (cp h i).1 j = some c' ∧ p c' = some a' ∧ S a a') ∧
        (¬ C a → (cp h i).2 = some .panic)) (l : List Nat) :
    ∀ h as, unfoldAll (fun j => (unfold f h j).bind p) l = some as → (∀ a ∈ as, R a) →
      ((∀ a ∈ as, C a) → ∃ js as', (copyElems cp h l).2 = some (.ok js) ∧
        unfoldAll (fun j => (unfold f (copyElems cp h l).1 j).bind p) js = some as' ∧ List.Forall₂ S as as') ∧
      ((¬ ∀ a ∈ as, C a) → (copyElems cp h l).2 = some .panic) := by
  induction l with
  | nil =>
    intro h as has _
    simp only [unfoldAll, Option.some.injEq] at has
    subst has
    exact ⟨fun _ => ⟨[], [], rfl, rfl, .nil⟩, fun h => absurd (by simp) h⟩
  | cons i l ih =>
    intro h as has hR
    simp only [unfoldAll, Option.bind_eq_some_iff, Option.map_eq_some_iff] at has
    obtain ⟨a, ⟨c, hc, ha⟩, as, has, rfl⟩ := has
    obtain ⟨h1, h2⟩ := hcp h i c a hc ha (hR a (by simp))
    rw [copyElems]
    have o := ho h i
    have has' : unfoldAll (fun j => (unfold f (cp h i).1 j).bind p) l = some as := unfoldAll_mono (fun j b hb => by
      obtain ⟨c, q1, q2⟩ := Option.bind_eq_some_iff.mp hb
      exact Option.bind_eq_some_iff.mpr ⟨c, o.grown.unfold q1, q2⟩) has
    obtain ⟨i1, i2⟩ := ih (cp h i).1 as has' (fun b hb => hR b (by simp [hb]))
    have g2 := (elems_copyOut ho l (cp h i).1).1
    constructor
    · intro hC
      obtain ⟨j, c', a', q1, q2, q3, q4⟩ := h1 (hC a (by simp))
      obtain ⟨js, as', p1, p2, p3⟩ := i1 (fun b hb => hC b (by simp [hb]))
      rcases hx : cp h i with ⟨x1, x2⟩
      rcases hy : copyElems cp (cp h i).1 l with ⟨y1, y2⟩
      rw [hy] at p1 p2 g2
      rw [hx] at q1 q2 g2 hy
      dsimp only at p1 p2 q1 q2 g2 hy
      subst p1 q1
      simp only [andThen, hy]
      refine ⟨j :: js, a' :: as', rfl, ?_, .cons q4 p3⟩
      simp only [unfoldAll, g2.unfold q2, Option.bind_some, q3, p2, Option.map_some]
    · intro hC
      by_cases hCa : C a
      · obtain ⟨j, c', a', q1, -⟩ := h1 hCa
        have := i2 (fun hall => hC (fun b hb => by
          rcases List.mem_cons.mp hb with rfl | hb
          · exact hCa
          · exact hall b hb))
        rcases hx : cp h i with ⟨x1, x2⟩
        rcases hy : copyElems cp (cp h i).1 l with ⟨y1, y2⟩
        rw [hy] at this
        rw [hx] at q1 hy
        dsimp only at this q1 hy
        subst this q1
        simp only [andThen, hy]
      · have := h2 hCa
        rcases hx : cp h i with ⟨x1, x2⟩
        rw [hx] at this
        dsimp only at this
        subst this
        rfl

/-- Copying an optional part. -/
theorem part_content {f : Nat} {cp : VHeap → Nat → VHeap × Option (Res Nat)} 
    (hcp : ∀ h i v, unfold f h i = some (.inl v) → realVal v →
      (copyable v → ∃ j v', (cp h i).2 = some (.ok j) ∧ unfold f (cp h i).1 j = some (.inl v') ∧ sameVal v v' ∧ v'.encode = v.encode ∧
        v'.isNil = v.isNil) ∧ (¬ copyable v → (cp h i).2 = some .panic)) (bit : UInt8) (o : Option Nat) (h : VHeap) (p : Option CVal)
    (hp : unfoldPart (unfold f h) o = some p) (hR : realPart p) :
      (copyablePart p → ∃ o' p', (copyObjPart cp h o).2 = some (.ok o') ∧
        unfoldPart (unfold f (copyObjPart cp h o).1) o' = some p' ∧ samePart p p' ∧ recValuePart bit p' = recValuePart bit p) ∧
      (¬ copyablePart p → (copyObjPart cp h o).2 = some .panic) := by
  cases o with
  | none =>
    simp only [unfoldPart, Option.some.injEq] at hp
    subst hp
    exact ⟨fun _ => ⟨none, none, rfl, rfl, by simp [samePart], rfl⟩, fun h => absurd (by simp [copyablePart]) h⟩
  | some i =>
    simp only [unfoldPart, Option.map_eq_some_iff, Option.bind_eq_some_iff] at hp
    obtain ⟨v, ⟨c, hc, hv⟩, rfl⟩ := hp
    obtain rfl : c = .inl v := by cases c <;> simp_all
    rw [realPart] at hR
    rw [copyablePart, copyObjPart]
    obtain ⟨h1, h2⟩ := hcp h i v hc hR
    constructor
    · intro hC
      obtain ⟨j, v', q1, q2, q3, q4, q5⟩ := h1 hC
      rcases hx : cp h i with ⟨x1, x2⟩
      rw [hx] at q1 q2
      dsimp only at q1 q2
      subst q1
      refine ⟨some j, some v', rfl, ?_, by rw [samePart]; exact ⟨v', rfl, q3⟩, by rw [recValuePart, recValuePart, q4, q5]⟩
      simp [andThen, unfoldPart, q2]
    · intro hC
      have := h2 hC
      rcases hx : cp h i with ⟨x1, x2⟩
      rw [hx] at this
      dsimp only at this
      subst this
      rfl

theorem realVals_iff (es : List CVal) : realVals es ↔ ∀ a ∈ es, realVal a := by
  induction es with
  | nil => simp [realVals]
  | cons v l ih => simp [realVals, ih]

theorem realRecs_iff (es : List CRec) : realRecs es ↔ ∀ a ∈ es, realRec a := by
  induction es with
  | nil => simp [realRecs]
  | cons v l ih => simp [realRecs, ih]

theorem copyables_iff (es : List CVal) : copyables es ↔ ∀ a ∈ es, copyable a := by
  induction es with
  | nil => simp [copyables]
  | cons v l ih => simp [copyables, ih]

theorem copyableRecs_iff (es : List CRec) : copyableRecs es ↔ ∀ a ∈ es, copyableR a := by
  induction es with
  | nil => simp [copyableRecs]
  | cons v l ih => simp [copyableRecs, ih]

theorem sameVals_of {es l : List CVal} (h : List.Forall₂ (fun v c => sameVal v c ∧ c.encode = v.encode ∧ c.isNil = v.isNil) es l) :
    sameVals es l ∧ encodeVals l = encodeVals es ∧ l.length = es.length := by
  induction h with
  | nil => simp [sameVals]
  | cons h1 _ ih =>
    refine ⟨by rw [sameVals]; exact ⟨_, _, rfl, h1.1, ih.1⟩, by rw [encodeVals, encodeVals, h1.2.1, ih.2.1], by simp [ih.2.2]⟩

theorem sameRecs_of {es l : List CRec} (h : List.Forall₂ (fun v c => sameRec v c ∧ c.encode = v.encode) es l) :
    sameRecs es l ∧ encodeRecs l = encodeRecs es ∧ l.length = es.length := by
  induction h with
  | nil => simp [sameRecs]
  | cons h1 _ ih =>
    refine ⟨by rw [sameRecs]; exact ⟨_, _, rfl, h1.1, ih.1⟩, by rw [encodeRecs, encodeRecs, h1.2, ih.2.1], by simp [ih.2.2]⟩

theorem realKey_bare {k : Option KeyObj} (h : realKey (k.map bareKey)) : realKey k := by
  intro m hm
  subst hm
  exact h m rfl

theorem copyableKey_bare (k : Option KeyObj) : copyableKey (k.map bareKey) ↔ copyableKey k := by
  cases k with
  | none => simp [copyableKey]
  | some k => cases k <;> simp [copyableKey, bareKey]

theorem subKeys_bare (k : Option KeyObj) : (k.map bareKey).map KeyObj.subKeys = k.map KeyObj.subKeys := by
  cases k with
  | none => rfl
  | some k => cases k <;> rfl

/-- Copies have the same content, an encoding like it, and are nil like it. -/
def alike : Content → Content → Prop
  | .inl v, c => ∃ v', c = .inl v' ∧ sameVal v v' ∧ v'.encode = v.encode ∧ v'.isNil = v.isNil
  | .inr r, c => ∃ r', c = .inr r' ∧ sameRec r r' ∧ r'.encode = r.encode

theorem copy_content (f : Nat) : ∀ (h : VHeap) (i : Nat) (c : Content), unfold f h i = some c → realContent c →
    (copyableContent c → ∃ j c', (h.copy f i).2 = some (.ok j) ∧ unfold f (h.copy f i).1 j = some c' ∧ alike c c') ∧
      (¬ copyableContent c → (h.copy f i).2 = some .panic) := by
  induction f with
  | zero => simp [unfold]
  | succ f ih =>
    intro h i c hc hR
    have up : ∀ (h' : VHeap) n (d : Content), unfold (f + 1) (h' ++ [n]) h'.length = some d →
        unfold (f + 1) (h'.alloc n).1 h'.length = some d := fun _ _ _ h => h
    rw [unfold] at hc
    rw [VHeap.copy]
    cases hn : h[i]? with
    | none => simp [hn] at hc
    | some n =>
      rw [hn] at hc
      cases n with
      | prim d e b =>
        simp only [Option.some.injEq] at hc
        subst hc
        refine ⟨fun _ => ⟨h.length, .inl (.prim d), rfl, ?_, ⟨_, rfl, by simp [sameVal], rfl, rfl⟩⟩, fun hh => absurd (by simp [copyableContent, copyable]) hh⟩
        simp [VHeap.alloc, unfold]
      | array l e b est =>
        simp only [Option.map_eq_some_iff] at hc
        obtain ⟨as, has, rfl⟩ := hc
        rw [realContent, realVal, realVals_iff] at hR
        rw [copyableContent, copyable, copyables_iff]
        obtain ⟨h1, h2⟩ := elems_content (f := f) Sum.getLeft? realVal copyable
          (fun v c => sameVal v c ∧ c.encode = v.encode ∧ c.isNil = v.isNil) (copy_out f) (fun h i c a hc ha hr => by
            obtain rfl : c = .inl a := by cases c <;> simp_all
            obtain ⟨q1, q2⟩ := ih h i _ hc hr
            refine ⟨fun hC => ?_, q2⟩
            obtain ⟨j, c', e1, e2, v', rfl, e3⟩ := q1 hC
            exact ⟨j, _, v', e1, e2, rfl, e3⟩) l h as has hR
        constructor
        · intro hC
          obtain ⟨js, as', q1, q2, q3⟩ := h1 hC
          obtain ⟨s1, s2, s3⟩ := sameVals_of q3
          rcases hx : copyElems (VHeap.copy f) h l with ⟨x1, x2⟩
          rw [hx] at q1 q2
          dsimp only at q1 q2
          subst q1
          simp only [andThen, hx]
          refine ⟨x1.length, .inl (.array as'), rfl, up _ _ _ ?_, ⟨_, rfl, by rw [sameVal]; exact ⟨_, rfl, s1⟩, ?_, ?_⟩⟩
          · rw [unfold, List.getElem?_append_right (le_refl _)]
            simp only [Nat.sub_self, List.getElem?_cons_zero, Option.map_eq_some_iff]
            refine ⟨as', unfoldAll_mono (fun j a ha => ?_) q2, rfl⟩
            obtain ⟨c, p1, p2⟩ := Option.bind_eq_some_iff.mp ha
            exact Option.bind_eq_some_iff.mpr ⟨c, unfold_append f _ _ p1, p2⟩
          · rw [CVal.encode, CVal.encode, s2, s3]
          · simp only [CVal.isNil, s3]
        · intro hC
          have := h2 hC
          rcases hx : copyElems (VHeap.copy f) h l with ⟨x1, x2⟩
          rw [hx] at this
          dsimp only at this
          subst this
          simp only [andThen, hx]
      | list l e b est =>
        simp only [Option.map_eq_some_iff] at hc
        obtain ⟨as, has, rfl⟩ := hc
        rw [realContent, realVal, realRecs_iff] at hR
        rw [copyableContent, copyable, copyableRecs_iff]
        obtain ⟨h1, h2⟩ := elems_content (f := f) Sum.getRight? realRec copyableR
          (fun v c => sameRec v c ∧ c.encode = v.encode) (copy_out f) (fun h i c a hc ha hr => by
            obtain rfl : c = .inr a := by cases c <;> simp_all
            obtain ⟨q1, q2⟩ := ih h i _ hc hr
            refine ⟨fun hC => ?_, q2⟩
            obtain ⟨j, c', e1, e2, v', rfl, e3⟩ := q1 hC
            exact ⟨j, _, v', e1, e2, rfl, e3⟩) l h as has hR
        constructor
        · intro hC
          obtain ⟨js, as', q1, q2, q3⟩ := h1 hC
          obtain ⟨s1, s2, s3⟩ := sameRecs_of q3
          rcases hx : copyElems (VHeap.copy f) h l with ⟨x1, x2⟩
          rw [hx] at q1 q2
          dsimp only at q1 q2
          subst q1
          simp only [andThen, hx]
          refine ⟨x1.length, .inl (.records as'), rfl, up _ _ _ ?_, ⟨_, rfl, by rw [sameVal]; exact ⟨_, rfl, s1⟩, ?_, ?_⟩⟩
          · rw [unfold, List.getElem?_append_right (le_refl _)]
            simp only [Nat.sub_self, List.getElem?_cons_zero, Option.map_eq_some_iff]
            refine ⟨as', unfoldAll_mono (fun j a ha => ?_) q2, rfl⟩
            obtain ⟨c, p1, p2⟩ := Option.bind_eq_some_iff.mp ha
            exact Option.bind_eq_some_iff.mpr ⟨c, unfold_append f _ _ p1, p2⟩
          · rw [CVal.encode, CVal.encode, s2, s3]
          · simp only [CVal.isNil, s3]
        · intro hC
          have := h2 hC
          rcases hx : copyElems (VHeap.copy f) h l with ⟨x1, x2⟩
          rw [hx] at this
          dsimp only at this
          subst this
          simp only [andThen, hx]
      | record r =>
        simp only [Option.map_eq_some_iff, Option.bind_eq_some_iff] at hc
        obtain ⟨v, hv, s, hs, rfl⟩ := hc
        rw [realContent, realRec] at hR
        rw [copyableContent, copyableR, copyableKey_bare]
        have ihv : ∀ h i v, unfold f h i = some (.inl v) → realVal v →
            (copyable v → ∃ j v', (VHeap.copy f h i).2 = some (.ok j) ∧ unfold f (VHeap.copy f h i).1 j = some (.inl v') ∧
              sameVal v v' ∧ v'.encode = v.encode ∧ v'.isNil = v.isNil) ∧ (¬ copyable v → (VHeap.copy f h i).2 = some .panic) := by
          intro h i v hc hr
          obtain ⟨q1, q2⟩ := ih h i _ hc hr
          refine ⟨fun hC => ?_, q2⟩
          obtain ⟨j, c', e1, e2, v', rfl, e3⟩ := q1 hC
          exact ⟨j, v', e1, e2, e3⟩
        obtain ⟨k1, k2⟩ := copyKey_spec (realKey_bare hR.1)
        obtain ⟨v1, v2⟩ := part_content ihv 5 r.value h v hv hR.2.1
        have g1 := (part_copyOut (copy_out f) r.value h).1
        have hs' := unfoldPart_mono (fun _ _ => g1.unfold) hs
        obtain ⟨s1, s2⟩ := part_content ihv 4 r.scheme _ s hs' hR.2.2
        have g2 := (part_copyOut (copy_out f) r.scheme (copyObjPart (VHeap.copy f) h r.value).1).1
        simp only
        constructor
        · rintro ⟨c1, c2, c3⟩
          obtain ⟨k', p1, p2, p3⟩ := k1 c1
          obtain ⟨o1, v', q1, q2, q3, q4⟩ := v1 c2
          obtain ⟨o2, s', t1, t2, t3, t4⟩ := s1 c3
          rcases hx : copyObjPart (VHeap.copy f) h r.value with ⟨x1, x2⟩
          rw [hx] at q1 q2 t1 t2 g2
          dsimp only at q1 q2 t1 t2 g2
          rcases hy : copyObjPart (VHeap.copy f) x1 r.scheme with ⟨y1, y2⟩
          rw [hy] at t1 t2 g2
          dsimp only at t1 t2 g2
          subst q1 t1
          simp only [p1, andThen, hy]
          refine ⟨y1.length, .inr (.record (k'.map bareKey) v' s' r.timestamp r.sigR r.sigS), rfl, up _ _ _ ?_, ⟨_, rfl, ?_, ?_⟩⟩
          · rw [unfold, List.getElem?_append_right (le_refl _)]
            simp only [Nat.sub_self, List.getElem?_cons_zero, Option.map_eq_some_iff, Option.bind_eq_some_iff]
            exact ⟨v', unfoldPart_mono (fun _ _ hh => unfold_append f _ _ (g2.unfold hh)) q2, s',
              unfoldPart_mono (fun _ _ hh => unfold_append f _ _ hh) t2, rfl⟩
          · rw [sameRec]
            exact ⟨_, v', s', rfl, by rw [subKeys_bare, subKeys_bare, p2], q3, t3⟩
          · rw [CRec.encode, CRec.encode, recKeyPart_bare, recKeyPart_bare, p3, q4, t4]
        · intro hC
          by_cases c1 : copyableKey r.key
          · obtain ⟨k', p1, -⟩ := k1 c1
            rw [p1]
            simp only
            by_cases c2 : copyablePart v
            · obtain ⟨o1, v', q1, -⟩ := v1 c2
              have := s2 (fun c3 => hC ⟨c1, c2, c3⟩)
              rcases hx : copyObjPart (VHeap.copy f) h r.value with ⟨x1, x2⟩
              rw [hx] at q1 this
              dsimp only at q1 this
              rcases hy : copyObjPart (VHeap.copy f) x1 r.scheme with ⟨y1, y2⟩
              rw [hy] at this
              dsimp only at this
              subst q1 this
              simp only [andThen, hy]
            · have := v2 c2
              rcases hx : copyObjPart (VHeap.copy f) h r.value with ⟨x1, x2⟩
              rw [hx] at this
              dsimp only at this
              subst this
              rfl
          · rw [k2 c1]
      | mappedSimple ct b =>
        simp only [Option.some.injEq] at hc
        subst hc
        have := copySimple_real hR
        unfold copySimple at this
        refine ⟨fun _ => ?_, fun hh => absurd (by simp [copyableContent, copyable]) hh⟩
        split at this
        · rename_i e
          simp only [Res.ok.injEq, CVal.simple.injEq] at this
          obtain ⟨rfl, rfl⟩ := this
          simp only [e]
          refine ⟨h.length, _, rfl, up _ _ (.inl (.simple _ _)) ?_, ⟨_, rfl, by simp [sameVal], rfl, rfl⟩⟩
          simp [unfold]
        · simp at this
      | mappedStd d =>
        simp only [Option.some.injEq] at hc
        subst hc
        have := copyStd_real hR
        unfold copyStd at this
        refine ⟨fun _ => ?_, fun hh => absurd (by simp [copyableContent, copyable]) hh⟩
        split at this
        · rename_i e
          simp only [Res.ok.injEq, CVal.std.injEq] at this
          obtain rfl := this
          simp only [e]
          refine ⟨h.length, _, rfl, up _ _ (.inl (.std _)) ?_, ⟨_, rfl, by simp [sameVal], rfl, rfl⟩⟩
          simp [unfold]
        · simp at this
      | mappedRec r =>
        simp only [Option.some.injEq] at hc
        subst hc
        rw [copyableContent, copyableR]
        obtain ⟨a1, a2⟩ := copyMapped_real hR
        unfold RecInfo.copy at a1 a2
        constructor
        · intro hC
          obtain ⟨r', q1, q2⟩ := a1 hC
          split at q1
          · rename_i r'' _ e
            simp only [Res.ok.injEq] at q1
            subst q1
            simp only [e]
            refine ⟨h.length, .inr (.mapped r''), rfl, up _ _ _ ?_, ⟨_, rfl, by rw [sameRec]; exact ⟨_, rfl, q2⟩, rfl⟩⟩
            simp [unfold]
          · simp at q1
        · intro hC
          have := a2 hC
          split at this
          · simp at this
          · rename_i e
            simp only

/-! ### What calls on some objects leave alone -/

/-- The objects in `S` refer to objects in `S` only, and all objects still to be made are in `S`. -/
structure Closed (S : Nat → Prop) (h : VHeap) : Prop where
  refs : ∀ (i : Nat) n, S i → h[i]? = some n → ∀ j ∈ VNode.refs n, S j
  new : ∀ k, h.length ≤ k → S k

theorem Closed.same {S : Nat → Prop} {h h' : VHeap} (c : Closed S h) (s : Same h h') : Closed S h' := by
  have hl : h'.length = h.length := by simpa using congrArg List.length s
  refine ⟨fun i n hi hn j hj => ?_, fun k hk => c.new k (hl ▸ hk)⟩
  have := s.refs i
  rw [hn] at this
  cases hm : h[i]? with
  | none => simp [hm] at this
  | some m =>
    simp only [hm, Option.map_some, Option.some.injEq] at this
    exact c.refs i m hi hm j (this ▸ hj)

/-- `h'` has the same objects outside of `S`. -/
def Untouched (S : Nat → Prop) (h h' : VHeap) : Prop := ∀ k, ¬ S k → h'[k]? = h[k]?

theorem untouched_set {S : Nat → Prop} (h : VHeap) {i : Nat} (hi : S i) (n : VNode) : Untouched S h (h.set i n) := by
  intro k hk
  rw [List.getElem?_set_ne]
  rintro rfl
  exact hk hi

theorem elems_untouched {S : Nat → Prop} {f : Nat} (ih : ∀ h i, Closed S h → S i → Untouched S h (VHeap.encode f h i).1)
    (l : List Nat) : ∀ h, Closed S h → (∀ j ∈ l, S j) → Untouched S h (encodeElems (VHeap.encode f) h l).1 := by
  induction l with
  | nil => exact fun h _ _ k _ => rfl
  | cons i l ihl =>
    intro h c hl
    have u := ih h i c (hl i (by simp))
    have s := (encode_outcome f h i).same
    rw [encodeElems]
    generalize VHeap.encode f h i = x at *
    obtain ⟨h', r⟩ := x
    have u2 := ihl h' (c.same s) (fun j hj => hl j (by simp [hj]))
    have u3 : Untouched S h (encodeElems (VHeap.encode f) h' l).1 := fun k hk => (u2 k hk).trans (u k hk)
    rcases r with - | r
    · exact u
    · cases r with
      | err => exact u
      | panic => exact u
      | ok b =>
        simp only
        generalize encodeElems (VHeap.encode f) h' l = x at *
        obtain ⟨h'', r⟩ := x
        rcases r with - | r
        · exact u3
        · cases r <;> exact u3

theorem part_untouched {S : Nat → Prop} {f : Nat} (ih : ∀ h i, Closed S h → S i → Untouched S h (VHeap.encode f h i).1)
    (v : Option Nat) (h : VHeap) (c : Closed S h) (hv : ∀ j, v = some j → S j) :
    Untouched S h (encodePart (VHeap.encode f) h v).1 := by
  cases v with
  | none => exact fun k _ => rfl
  | some i =>
    have u := ih h i c (hv i rfl)
    rw [encodePart]
    cases h[i]? with
    | none => exact fun k _ => rfl
    | some n =>
      simp only
      split
      · exact fun k _ => rfl
      · generalize VHeap.encode f h i = x at *
        obtain ⟨h', r⟩ := x
        rcases r with - | r
        · exact u
        · cases r <;> exact u

theorem encode_untouched {S : Nat → Prop} (f : Nat) : ∀ h i, Closed S h → S i → Untouched S h (VHeap.encode f h i).1 := by
  induction f with
  | zero => exact fun h i _ _ k _ => rfl
  | succ f ih =>
    intro h i c hi
    rw [VHeap.encode]
    cases hn : h[i]? with
    | none => exact fun k _ => rfl
    | some n =>
      have hrefs := c.refs i n hi hn
      cases n with
      | prim d e b =>
        simp only
        cases encodePrimitive d with
        | ok w => exact untouched_set h hi _
        | err => exact fun k _ => rfl
        | panic => exact fun k _ => rfl
      | array l e b est =>
        simp only
        cases countHeader 6 l.length with
        | err => exact fun k _ => rfl
        | panic => exact fun k _ => rfl
        | ok mc =>
          have u := elems_untouched ih l h c hrefs
          simp only
          generalize encodeElems (VHeap.encode f) h l = x at *
          obtain ⟨h', r⟩ := x
          rcases r with - | r
          · exact u
          · cases r with
            | err => exact u
            | panic => exact u
            | ok content =>
              simp only
              cases withContent mc.1 mc.2 content with
              | ok w => exact fun k hk => (untouched_set h' hi _ k hk).trans (u k hk)
              | err => exact u
              | panic => exact u
      | list l e b est =>
        simp only
        cases countHeader 4 l.length with
        | err => exact fun k _ => rfl
        | panic => exact fun k _ => rfl
        | ok mc =>
          have u := elems_untouched ih l h c hrefs
          simp only
          generalize encodeElems (VHeap.encode f) h l = x at *
          obtain ⟨h', r⟩ := x
          rcases r with - | r
          · exact u
          · cases r with
            | err => exact u
            | panic => exact u
            | ok content =>
              simp only
              cases withContent mc.1 mc.2 content with
              | ok w => exact fun k hk => (untouched_set h' hi _ k hk).trans (u k hk)
              | err => exact u
              | panic => exact u
      | record r =>
        simp only
        have s0 : Same h (h.set i (.record { r with key := encodedKey r.key })) := Same.set hn (by simp [bare, bare_encodedKey])
        have u0 := untouched_set h hi (.record { r with key := encodedKey r.key })
        generalize h.set i (.record { r with key := encodedKey r.key }) = h0 at s0 u0
        cases recKeyPart r.key with
        | err => exact u0
        | panic => exact u0
        | ok mb =>
          have c0 := c.same s0
          have u1 := part_untouched ih r.value h0 c0 (fun j hj => hrefs j (by simp [VNode.refs, hj]))
          have s1 := (part_outcome (encode_outcome f) r.value h0).1
          simp only
          generalize encodePart (VHeap.encode f) h0 r.value = x at *
          obtain ⟨h1, r1⟩ := x
          have u1' : Untouched S h h1 := fun k hk => (u1 k hk).trans (u0 k hk)
          rcases r1 with - | r1
          · exact u1'
          · cases r1 with
            | err => exact u1'
            | panic => exact u1'
            | ok o1 =>
              have u2 := part_untouched ih r.scheme h1 (c0.same s1) (fun j hj => hrefs j (by simp [VNode.refs, hj]))
              simp only
              generalize encodePart (VHeap.encode f) h1 r.scheme = x at *
              obtain ⟨h2, r2⟩ := x
              have u2' : Untouched S h h2 := fun k hk => (u2 k hk).trans (u1' k hk)
              rcases r2 with - | r2
              · exact u2'
              · cases r2 with
                | err => exact u2'
                | panic => exact u2'
                | ok o2 => exact fun k hk => (untouched_set h2 hi _ k hk).trans (u2' k hk)
      | mappedSimple _ _ => exact fun k _ => rfl
      | mappedStd _ => exact fun k _ => rfl
      | mappedRec _ => exact fun k _ => rfl

theorem closed_set {S : Nat → Prop} {h : VHeap} (c : Closed S h) (i : Nat) {n : VNode} (hn : ∀ j ∈ VNode.refs n, S j) :
    Closed S (h.set i n) := by
  refine ⟨fun k m hk hm j hj => ?_, fun k hk => c.new k (by simpa using hk)⟩
  rw [List.getElem?_set] at hm
  split at hm
  · split at hm
    · exact hn j (Option.some.inj hm ▸ hj)
    · simp at hm
  · exact c.refs k m hk hm j hj

theorem closed_grown {S : Nat → Prop} {h h' : VHeap} (c : Closed S h) (g : Grown h h') : Closed S h' ∧ Untouched S h h' := by
  refine ⟨⟨fun i n hi hn j hj => ?_, fun k hk => c.new k (le_trans g.length_le hk)⟩, fun k hk => ?_⟩
  · by_cases hlt : i < h.length
    · rw [g.old hlt] at hn
      exact c.refs i n hi hn j hj
    · exact c.new j ((g.new i n (by omega) hn).1 j hj)
  · by_cases hlt : k < h.length
    · exact g.old hlt
    · exact absurd (c.new k (by omega)) hk

/-- A call that is given objects in `S` only leaves the other ones alone. -/
theorem run_untouched {S : Nat → Prop} {h : VHeap} (c : Closed S h) (op : VOp) (hop : ∀ k ∈ op.mentions, S k) :
    Closed S (op.run h) ∧ Untouched S h (op.run h) := by
  have nop : Closed S h ∧ Untouched S h h := ⟨c, fun _ _ => rfl⟩
  have setc : ∀ (i : Nat) (n : VNode), S i → (∀ j ∈ VNode.refs n, S j) → Closed S (h.set i n) ∧ Untouched S h (h.set i n) :=
    fun i n hi hn => ⟨closed_set c i hn, untouched_set h hi n⟩
  cases op with
  | new o =>
    refine closed_grown c ((Grown.refl h).alloc ?_ ?_) <;> cases o <;> simp [NewObj.node, VNode.refs, VNode.constructed, VNode.isEncoded]
  | append id i =>
    simp only [VOp.mentions, List.mem_cons, List.not_mem_nil, or_false, forall_eq_or_imp, forall_eq] at hop
    simp only [VOp.run, VHeap.append]
    cases hn : h[id]? with
    | none => exact nop
    | some n =>
      have h0 := c.refs id n hop.1 hn
      cases n with
      | array l e b est =>
        simp only
        split
        · refine setc id _ hop.1 fun j hj => ?_
          rcases List.mem_append.mp hj with hj | hj
          · exact h0 j hj
          · exact (List.mem_singleton.mp hj) ▸ hop.2
        · exact nop
      | list l e b est =>
        simp only
        split
        · refine setc id _ hop.1 fun j hj => ?_
          rcases List.mem_append.mp hj with hj | hj
          · exact h0 j hj
          · exact (List.mem_singleton.mp hj) ▸ hop.2
        · exact nop
      | _ => exact nop
  | deleteAt id idx =>
    simp only [VOp.mentions, List.mem_cons, List.not_mem_nil, or_false, forall_eq] at hop
    simp only [VOp.run, VHeap.deleteAt]
    have sub : ∀ (l : List Nat) j, j ∈ l.take idx ++ l.drop ((idx + 1) % 65536) → j ∈ l := by
      intro l j hj
      rcases List.mem_append.mp hj with hj | hj
      · exact List.mem_of_mem_take hj
      · exact List.mem_of_mem_drop hj
    cases hn : h[id]? with
    | none => exact nop
    | some n =>
      have h0 := c.refs id n hop hn
      cases n with
      | array l e b est =>
        simp only
        split
        · exact nop
        · exact setc id _ hop fun j hj => h0 j (sub l j hj)
      | list l e b est =>
        simp only
        split
        · exact nop
        · exact setc id _ hop fun j hj => h0 j (sub l j hj)
      | _ => exact nop
  | setKey id k =>
    simp only [VOp.mentions, List.mem_cons, List.not_mem_nil, or_false, forall_eq] at hop
    simp only [VOp.run, VHeap.setKey]
    cases hn : h[id]? with
    | none => exact nop
    | some n =>
      have h0 := c.refs id n hop hn
      cases n with
      | record r => exact setc id _ hop h0
      | _ => exact nop
  | setValue id i =>
    simp only [VOp.mentions, List.mem_cons, List.not_mem_nil, or_false, forall_eq_or_imp, forall_eq] at hop
    simp only [VOp.run, VHeap.setValue]
    cases hn : h[id]? with
    | none => exact nop
    | some n =>
      have h0 := c.refs id n hop.1 hn
      cases n with
      | record r =>
        simp only
        split
        · refine setc id _ hop.1 fun j hj => ?_
          simp only [VNode.refs, Option.toList_some, List.mem_append, List.mem_singleton] at hj
          rcases hj with rfl | hj
          · exact hop.2
          · exact h0 j (by simp only [VNode.refs, List.mem_append]; exact .inr hj)
        · exact nop
      | _ => exact nop
  | setScheme id i =>
    simp only [VOp.mentions, List.mem_cons, List.not_mem_nil, or_false, forall_eq_or_imp, forall_eq] at hop
    simp only [VOp.run, VHeap.setScheme]
    cases hn : h[id]? with
    | none => exact nop
    | some n =>
      have h0 := c.refs id n hop.1 hn
      cases n with
      | record r =>
        simp only
        split
        · refine setc id _ hop.1 fun j hj => ?_
          simp only [VNode.refs, Option.toList_some, List.mem_append, List.mem_singleton] at hj
          rcases hj with hj | rfl
          · exact h0 j (by simp only [VNode.refs, List.mem_append]; exact .inl hj)
          · exact hop.2
        · exact nop
      | _ => exact nop
  | setTimestamp id t =>
    simp only [VOp.mentions, List.mem_cons, List.not_mem_nil, or_false, forall_eq] at hop
    simp only [VOp.run, VHeap.setTimestamp]
    cases hn : h[id]? with
    | none => exact nop
    | some n =>
      have h0 := c.refs id n hop hn
      cases n with
      | record r => exact setc id _ hop h0
      | _ => exact nop
  | setSignature id R Q =>
    simp only [VOp.mentions, List.mem_cons, List.not_mem_nil, or_false, forall_eq] at hop
    simp only [VOp.run, VHeap.setSignature]
    cases hn : h[id]? with
    | none => exact nop
    | some n =>
      have h0 := c.refs id n hop hn
      cases n with
      | record r => exact setc id _ hop h0
      | _ => exact nop
  | encode id d =>
    simp only [VOp.mentions, List.mem_cons, List.not_mem_nil, or_false, forall_eq] at hop
    exact ⟨c.same (encode_outcome d h id).same, encode_untouched d h id c hop⟩
  | copy id d => exact closed_grown c (copy_out d h id).grown

theorem runAll_untouched {S : Nat → Prop} (ops : List VOp) : ∀ {h : VHeap}, Closed S h → (∀ op ∈ ops, ∀ k ∈ op.mentions, S k) →
    Untouched S h (VOp.runAll h ops) := by
  induction ops with
  | nil => exact fun _ _ _ _ => rfl
  | cons op ops ih =>
    intro h c hops k hk
    obtain ⟨c', u⟩ := run_untouched c op (hops op (by simp))
    exact (ih c' (fun o ho => hops o (by simp [ho])) k hk).trans (u k hk)

/-! ### C114: a copy shares nothing with its original -/

/-- C114: if what an object contains can be copied, its copy contains the same, is encoded to the same bytes, and consists of new objects
only, of which none is encoded yet. -/
theorem C114_copy (ops : List VOp) (i : Nat) (c : Content) (hc : Contains (valueHistory ops) i c) (hr : realContent c)
    (hcp : copyableContent c) :
    ∃ d, ∀ depth ≥ d, ∃ h' j c', (valueHistory ops).copy depth i = (h', some (.ok j)) ∧ Contains h' j c' ∧ sameContent c c' ∧
      contentEncode c' = contentEncode c ∧ ∀ k, Inside h' j k → (valueHistory ops)[k]? = none ∧
        ∃ n, h'[k]? = some n ∧ (VNode.constructed n = true → n.isEncoded = false) := by
  obtain ⟨d, hd⟩ := hc
  refine ⟨d, fun depth hle => ?_⟩
  obtain ⟨j, c', q1, q2, q3⟩ := (copy_content depth _ i c (unfold_le hle hd) hr).1 hcp
  have o := copy_out depth (valueHistory ops) i
  obtain ⟨o1, o2, -⟩ := o.result j q1
  refine ⟨_, j, c', Prod.ext rfl q1, ⟨depth, q2⟩, ?_, ?_, ?_⟩
  · cases c with
    | inl v => obtain ⟨v', rfl, e, -⟩ := q3; exact ⟨v', rfl, e⟩
    | inr r => obtain ⟨v', rfl, e, -⟩ := q3; exact ⟨v', rfl, e⟩
  · cases c with
    | inl v => obtain ⟨v', rfl, -, e, -⟩ := q3; exact e
    | inr r => obtain ⟨v', rfl, -, e⟩ := q3; exact e
  · intro k hk
    have : (valueHistory ops).length ≤ k ∧ k < ((valueHistory ops).copy depth i).1.length := by
      induction hk with
      | refl => exact ⟨o1, o2⟩
      | tail _ hr ih =>
        obtain ⟨n, hn, hj⟩ := hr
        obtain ⟨m, hm⟩ := refs_exist (o.typed (typed_history ops)) ⟨n, hn, hj⟩
        exact ⟨(o.grown.new _ n ih.1 hn).1 _ hj, (List.getElem?_eq_some_iff.mp hm).1⟩
    have hg := List.getElem?_eq_getElem this.2
    exact ⟨List.getElem?_eq_none this.1, _, hg, (o.grown.new k _ this.1 hg).2⟩

/-- C114: whatever an object contains, a copy of it that is made contains the same, is encoded to the same bytes, and consists of new
objects only; if none is made, the call has panicked. -/
theorem C114_made (ops : List VOp) (i : Nat) (c : Content) (hc : Contains (valueHistory ops) i c) (hr : realContent c) :
    ∃ d, ∀ depth ≥ d, ((valueHistory ops).copy depth i).2 = some .panic ∨
      ∃ h' j c', (valueHistory ops).copy depth i = (h', some (.ok j)) ∧ Contains h' j c' ∧ sameContent c c' ∧
        contentEncode c' = contentEncode c ∧ ∀ k, Inside h' j k → (valueHistory ops)[k]? = none ∧
          ∃ n, h'[k]? = some n ∧ (VNode.constructed n = true → n.isEncoded = false) := by
  by_cases hcp : copyableContent c
  · obtain ⟨d, hd⟩ := C114_copy ops i c hc hr hcp
    exact ⟨d, fun depth hle => .inr (hd depth hle)⟩
  · obtain ⟨d, hd⟩ := hc
    exact ⟨d, fun depth hle => .inl ((copy_content depth _ i c (unfold_le hle hd) hr).2 hcp)⟩

/-- C114: after copying, no call on objects other than those made for the copy changes any of these: not what they contain, nor whether
they are encoded, nor their bytes or estimated sizes. -/
theorem C114_copy_unaffected (ops : List VOp) (i depth : Nat) (later : List VOp)
    (hl : ∀ op ∈ later, ∀ k ∈ op.mentions, k < (valueHistory ops).length ∨ ((valueHistory ops).copy depth i).1.length ≤ k) (k : Nat)
    (hk : (valueHistory ops).length ≤ k ∧ k < ((valueHistory ops).copy depth i).1.length) :
    (VOp.runAll ((valueHistory ops).copy depth i).1 later)[k]? = ((valueHistory ops).copy depth i).1[k]? ∧
      ∀ c, Contains ((valueHistory ops).copy depth i).1 k c → Contains (VOp.runAll ((valueHistory ops).copy depth i).1 later) k c := by
  have o := copy_out depth (valueHistory ops) i
  have ht := o.typed (typed_history ops)
  have cl : Closed (fun k => k < (valueHistory ops).length ∨ ((valueHistory ops).copy depth i).1.length ≤ k)
      ((valueHistory ops).copy depth i).1 := by
    refine ⟨fun a n ha hn b hb => ?_, fun k hk => .inr hk⟩
    rcases ha with ha | ha
    · rw [o.grown.old ha] at hn
      obtain ⟨m, hm⟩ := refs_exist (typed_history ops) ⟨n, hn, hb⟩
      exact .inl (List.getElem?_eq_some_iff.mp hm).1
    · have := (List.getElem?_eq_some_iff.mp hn).1
      omega
  have u := runAll_untouched later cl hl
  have far : ∀ b, (valueHistory ops).length ≤ b ∧ b < ((valueHistory ops).copy depth i).1.length →
      ¬ (b < (valueHistory ops).length ∨ ((valueHistory ops).copy depth i).1.length ≤ b) := fun b hb => by omega
  refine ⟨u k (far k hk), ?_⟩
  rintro c ⟨f, hf⟩
  refine ⟨f, ?_⟩
  rw [unfold_agree f (fun b hb => u b (far b ?_)), hf]
  induction hb with
  | refl => exact hk
  | tail _ hr ih =>
    obtain ⟨n, hn, hj⟩ := hr
    obtain ⟨m, hm⟩ := refs_exist ht ⟨n, hn, hj⟩
    exact ⟨(o.grown.new _ n ih.1 hn).1 _ hj, (List.getElem?_eq_some_iff.mp hm).1⟩

/-- C114: and no call on the copy or on objects made later changes any object that was there before. -/
theorem C114_original_unaffected (ops : List VOp) (i depth : Nat) (later : List VOp)
    (hl : ∀ op ∈ later, ∀ k ∈ op.mentions, (valueHistory ops).length ≤ k) (k : Nat) (hk : k < (valueHistory ops).length) :
    (VOp.runAll ((valueHistory ops).copy depth i).1 later)[k]? = (valueHistory ops)[k]? ∧
      ∀ c, Contains (valueHistory ops) k c → Contains (VOp.runAll ((valueHistory ops).copy depth i).1 later) k c := by
  have o := copy_out depth (valueHistory ops) i
  have cl : Closed (fun k => (valueHistory ops).length ≤ k) ((valueHistory ops).copy depth i).1 :=
    ⟨fun a n ha hn b hb => (o.grown.new a n ha hn).1 b hb, fun k hk => le_trans o.grown.length_le hk⟩
  have u := runAll_untouched later cl hl
  have all : ∀ b, b < (valueHistory ops).length →
      (VOp.runAll ((valueHistory ops).copy depth i).1 later)[b]? = (valueHistory ops)[b]? := fun b hb =>
    (u b (by omega)).trans (o.grown.old hb)
  refine ⟨all k hk, ?_⟩
  rintro c ⟨f, hf⟩
  refine ⟨f, ?_⟩
  rw [unfold_agree f (fun b hb => all b ?_), hf]
  induction hb with
  | refl => exact hk
  | tail _ hr ih =>
    obtain ⟨m, hm⟩ := refs_exist (typed_history ops) hr
    exact (List.getElem?_eq_some_iff.mp hm).1

/-- An array whose only element, another array, occurs twice in it. -/
def copyOps : List VOp := [.new .array, .new .array, .new (.prim (some [7])), .append 1 2, .append 0 1, .append 0 1, .encode 0 9]

/-- C114: the hypotheses of `C114_copy`. -/
example := C114_copy copyOps 0 (.inl (.array [.array [.prim (some [7])], .array [.prim (some [7])]])) ⟨4, rfl⟩
  (by simp [realContent, realVal, realVals]) (by simp [copyableContent, copyable, copyables])

example := C114_made copyOps 0 (.inl (.array [.array [.prim (some [7])], .array [.prim (some [7])]])) ⟨4, rfl⟩
  (by simp [realContent, realVal, realVals])

example : Contains (valueHistory copyOps) 0 (.inl (.array [.array [.prim (some [7])], .array [.prim (some [7])]])) ∧
    realContent (.inl (.array [.array [.prim (some [7])], .array [.prim (some [7])]])) ∧
    copyableContent (.inl (.array [.array [.prim (some [7])], .array [.prim (some [7])]])) :=
  ⟨⟨4, rfl⟩, by simp [realContent, realVal, realVals], by simp [copyableContent, copyable, copyables]⟩

example : (valueHistory copyOps).copy 9 0 = (valueHistory copyOps ++ [.prim (some [7]) false [], .array [3] false [] 1,
    .prim (some [7]) false [], .array [5] false [] 1, .array [4, 6] false [] 1], some (.ok 7)) := by decide +kernel

example : (∀ op ∈ [VOp.append 1 2, .deleteAt 0 0, .encode 0 9, .new .array, .append 8 1], ∀ k ∈ op.mentions, k < 3 ∨ 8 ≤ k) ∧
    ∀ op ∈ [VOp.append 4 5, .deleteAt 7 0, .encode 7 9, .new .array, .append 8 4], ∀ k ∈ op.mentions, 3 ≤ k := by
  simp [VOp.mentions]

/-! ### C115: the estimated size of a copy -/

/-- The full claim of C115: a copy has the estimated size of its original. -/
def CopyKeepsEstimate : Prop :=
  ∀ (ops : List VOp) (i depth j : Nat) (h' : VHeap), (valueHistory ops).copy depth i = (h', some (.ok j)) →
    h'.est j = (valueHistory ops).est i

/-- C115: the estimate of a copy is that of a new object: exact for primitives, 1 for arrays and lists, and the size without key, value
and scheme for records. -/
theorem C115_estimate_partial (h h' : VHeap) (i depth j : Nat) (n : VNode) (hn : h[i]? = some n)
    (hc : h.copy depth i = (h', some (.ok j))) :
    (∀ d e b, n = .prim d e b → h'.est j = h.est i) ∧
    (∀ l e b est, n = .array l e b est ∨ n = .list l e b est → h'.est j = 1) ∧
    (∀ r, n = .record r → h'.est j = 4 + (if r.timestamp.isSome then 8 else 0) + (if r.sigR.isSome && r.sigS.isSome then 64 else 0)) := by
  have al : ∀ (x : VHeap) (m : VNode), x.alloc m = (h', some (.ok j)) → h'.est j = m.est := by
    intro x m hx
    simp only [VHeap.alloc, Prod.mk.injEq, Option.some.injEq, Res.ok.injEq] at hx
    obtain ⟨rfl, rfl⟩ := hx
    simp [VHeap.est]
  cases depth with
  | zero => simp [VHeap.copy] at hc
  | succ f =>
    rw [VHeap.copy, hn] at hc
    have hci : h.est i = n.est := by simp [VHeap.est, hn]
    refine ⟨?_, ?_, ?_⟩
    · rintro d e b rfl
      rw [al _ _ hc, hci]
      rfl
    · rintro l e b est (rfl | rfl)
      · simp only at hc
        obtain ⟨a, -, h2⟩ := andThen_ok (congrArg Prod.snd hc)
        rw [h2] at hc
        rw [al _ _ hc]
        rfl
      · simp only at hc
        obtain ⟨a, -, h2⟩ := andThen_ok (congrArg Prod.snd hc)
        rw [h2] at hc
        rw [al _ _ hc]
        rfl
    · rintro r rfl
      simp only at hc
      cases hk : copyKeyPart r.key with
      | err => simp [hk] at hc
      | panic => simp [hk] at hc
      | ok k =>
        rw [hk] at hc
        simp only at hc
        obtain ⟨a, -, h2⟩ := andThen_ok (congrArg Prod.snd hc)
        rw [h2] at hc
        obtain ⟨a, -, h2⟩ := andThen_ok (congrArg Prod.snd hc)
        rw [h2] at hc
        rw [al _ _ hc]
        simp only [VNode.est, atLeastOne]
        cases r.timestamp <;> cases r.sigR <;> cases r.sigS <;> simp

example := C115_estimate_partial (valueHistory copyOps) _ 0 9 7 _ rfl (by decide +kernel : (valueHistory copyOps).copy 9 0 = (valueHistory copyOps ++ [.prim (some [7]) false [], .array [3] false [] 1,
    .prim (some [7]) false [], .array [5] false [] 1, .array [4, 6] false [] 1], some (.ok 7)))

/-- C115: a decoded value or record that can be copied keeps its estimate. -/
theorem C115_decoded_partial (h h' : VHeap) (i depth j : Nat) (n : VNode) (hn : h[i]? = some n) (hm : VNode.constructed n = false)
    (c : Content) (hcn : Contains h i c) (hr : realContent c) (hc : h.copy depth i = (h', some (.ok j))) : h'.est j = h.est i := by
  obtain ⟨f, hf⟩ := hcn
  cases f with
  | zero => simp [unfold] at hf
  | succ f =>
  cases depth with
  | zero => simp [VHeap.copy] at hc
  | succ d =>
    have al : ∀ (x : VHeap) (m : VNode), x.alloc m = (h', some (.ok j)) → h'.est j = m.est := by
      intro x m hx
      simp only [VHeap.alloc, Prod.mk.injEq, Option.some.injEq, Res.ok.injEq] at hx
      obtain ⟨rfl, rfl⟩ := hx
      simp [VHeap.est]
    rw [VHeap.copy, hn] at hc
    rw [unfold, hn] at hf
    have hci : h.est i = n.est := by simp [VHeap.est, hn]
    cases n with
    | mappedSimple ct b =>
      obtain rfl := Option.some.inj hf
      have := copySimple_real hr
      unfold copySimple at this
      simp only at hc
      split at this
      · rename_i e
        simp only [Res.ok.injEq, CVal.simple.injEq] at this
        obtain ⟨rfl, rfl⟩ := this
        rw [e] at hc
        rw [al _ _ hc, hci]
      · simp at this
    | mappedStd d =>
      obtain rfl := Option.some.inj hf
      have := copyStd_real hr
      unfold copyStd at this
      simp only at hc
      split at this
      · rename_i e
        simp only [Res.ok.injEq, CVal.std.injEq] at this
        obtain rfl := this
        rw [e] at hc
        rw [al _ _ hc, hci]
      · simp at this
    | mappedRec r =>
      obtain rfl := Option.some.inj hf
      obtain ⟨a1, a2⟩ := copyMapped_real hr
      by_cases hC : copyableRec r
      · obtain ⟨r', q1, q2⟩ := a1 hC
        unfold RecInfo.copy at q1
        simp only at hc
        split at q1
        · rename_i e
          simp only [Res.ok.injEq] at q1
          subst q1
          rw [e] at hc
          rw [al _ _ hc, hci]
          simp [VNode.est, q2.1]
        · simp at q1
      · have := a2 hC
        unfold RecInfo.copy at this
        simp only at hc
        split at this
        · simp at this
        · rename_i e
          split at hc
          · rename_i e'; exact absurd e' (e _ _)
          · simp at hc
    | prim d e b => simp [VNode.constructed] at hm
    | array l e b est => simp [VNode.constructed] at hm
    | list l e b est => simp [VNode.constructed] at hm
    | record r => simp [VNode.constructed] at hm

/-- C115 as stated does not hold: the copy of an array of one primitive is estimated at one byte. -/
theorem C115_refuted : ¬ CopyKeepsEstimate := by
  intro h
  have := h [.new .array, .new (.prim (some [7])), .append 0 1] 0 9 3 _ (by rfl)
  revert this
  decide +kernel

example : (valueHistory [.new (.std ⟨[0x01, 1, 0x61], .prim, 0, [0x61]⟩)]).copy 1 0 =
    ([.mappedStd ⟨[0x01, 1, 0x61], .prim, 0, [0x61]⟩, .mappedStd ⟨[0x01, 1, 0x61], .prim, 0, [0x61]⟩], some (.ok 1)) := by decide +kernel

example : realContent (.inl (.std ⟨[0x01, 1, 0x61], .prim, 0, [0x61]⟩)) := by
  rw [realContent, realVal]
  exact ⟨[0x01, 1, 0x61], 3, rfl⟩

example := C114_copy_unaffected copyOps 0 9 [.append 1 2, .deleteAt 0 0, .encode 0 9, .new .array, .append 8 1]
  (by
    have h1 : (valueHistory copyOps).length = 3 := by decide +kernel
    have h2 : ((valueHistory copyOps).copy 9 0).1.length = 8 := by decide +kernel
    rw [h1, h2]
    simp [VOp.mentions]) 4 (by decide +kernel)

example := C115_decoded_partial (valueHistory [.new (.std ⟨[0x01, 1, 0x61], .prim, 0, [0x61]⟩)]) _ 0 1 1
  (.mappedStd ⟨[0x01, 1, 0x61], .prim, 0, [0x61]⟩) (by decide +kernel) rfl (.inl (.std ⟨[0x01, 1, 0x61], .prim, 0, [0x61]⟩)) ⟨1, rfl⟩
  (by rw [realContent, realVal]; exact ⟨[0x01, 1, 0x61], 3, rfl⟩)
  (by decide +kernel : (valueHistory [.new (.std ⟨[0x01, 1, 0x61], .prim, 0, [0x61]⟩)]).copy 1 0 = ([.mappedStd ⟨[0x01, 1, 0x61], .prim, 0, [0x61]⟩, .mappedStd ⟨[0x01, 1, 0x61], .prim, 0, [0x61]⟩], some (.ok 1)))

end Poodle.Props
