import Verif.Spec.Comparable
import Verif.Lemmas.Slice

/-
Properties C122, C123: comparable slices (/repo/src/collection/comparable.go, /repo/src/collection/util.go).
-/

namespace Poodle.Props
open Poodle Spec

/-! ### The loops without indexes -/

/-- The comparison of integers. -/
def intsRec : List Int → List Int → Res Int
  | [], [] => .ok 0
  | [], _ :: _ => .ok (-1)
  | _ :: _, [] => .panic
  | a :: l, b :: m => if a < b then .ok (-1) else if a > b then .ok 1 else intsRec l m

/-- The comparison of objects. -/
def objsRec : List CmpObj → List CmpObj → Res Int
  | [], [] => .ok 0
  | [], _ :: _ => .ok (-1)
  | _ :: _, [] => .panic
  | a :: l, b :: m =>
    match a.compare b with
    | .ok r => if r ≠ 0 then .ok r else objsRec l m
    | .err => .err
    | .panic => .panic

theorem compareIntsLoop_rec (s1 s2 : List Int) : ∀ (rest : List Int) (i : Nat), i + rest.length = s1.length →
    compareIntsLoop s1 s2 rest i = intsRec rest (s2.drop i)
  | [], i, h => by
    simp only [List.length_nil, Nat.add_zero] at h
    rw [compareIntsLoop]
    cases hd : s2.drop i with
    | nil =>
      have := List.drop_eq_nil_iff.mp hd
      rw [if_neg (by omega), intsRec]
    | cons b bs =>
      have : (s2.drop i).length = (b :: bs).length := by rw [hd]
      simp only [List.length_drop, List.length_cons] at this
      rw [if_pos (by omega), intsRec]
  | a :: rest, i, h => by
    simp only [List.length_cons] at h
    rw [compareIntsLoop, if_neg (by omega)]
    cases hd : s2.drop i with
    | nil =>
      have := List.drop_eq_nil_iff.mp hd
      rw [List.getElem?_eq_none (by omega)]
      rfl
    | cons b bs =>
      have hb : s2[i]? = some b := by rw [← List.head?_drop, hd]; rfl
      have ht : s2.drop (i + 1) = bs := by rw [← List.drop_drop, hd]; rfl
      rw [hb, compareIntsLoop_rec s1 s2 rest (i + 1) (by omega), ht]
      rfl

theorem compareInts_some (a b : List Int) : compareInts (some a) (some b) = intsRec a b := by
  simp only [compareInts]
  rw [compareIntsLoop_rec a b a 0 (by omega), List.drop_zero]

theorem compareObjsLoop_rec (n : Nat) (s2 : List CmpObj) : ∀ (rest : List CmpObj) (i : Nat), i + rest.length = n →
    compareObjsLoop n s2 rest i = objsRec rest (s2.drop i)
  | [], i, h => by
    simp only [List.length_nil, Nat.add_zero] at h
    rw [compareObjsLoop]
    cases hd : s2.drop i with
    | nil =>
      have := List.drop_eq_nil_iff.mp hd
      rw [if_neg (by omega), objsRec]
    | cons b bs =>
      have : (s2.drop i).length = (b :: bs).length := by rw [hd]
      simp only [List.length_drop, List.length_cons] at this
      rw [if_pos (by omega), objsRec]
  | a :: rest, i, h => by
    simp only [List.length_cons] at h
    rw [compareObjsLoop, if_neg (by omega)]
    cases hd : s2.drop i with
    | nil =>
      have := List.drop_eq_nil_iff.mp hd
      rw [List.getElem?_eq_none (by omega)]
      rfl
    | cons b bs =>
      have hb : s2[i]? = some b := by rw [← List.head?_drop, hd]; rfl
      have ht : s2.drop (i + 1) = bs := by rw [← List.drop_drop, hd]; rfl
      rw [hb]
      simp only
      rw [compareObjsLoop_rec n s2 rest (i + 1) (by omega), ht]
      rfl

theorem compare_ints (k k' : ElemKind) (a b : List Int) :
    (CmpObj.ints k (some a)).compare (.ints k' (some b)) = if k = k' then intsRec a b else .panic := by
  simp only [CmpObj.compare, CmpObj.isNil, Bool.false_eq_true, if_false, compareInts_some]

theorem compare_objs (l m : List CmpObj) : (CmpObj.objs l).compare (.objs m) = objsRec l m := by
  rw [CmpObj.compare]
  simp only [CmpObj.isNil, Bool.false_eq_true, if_false]
  rw [compareObjsLoop_rec l.length m l 0 (by omega), List.drop_zero]

/-! ### Integers -/

theorem intsRec_self : ∀ a : List Int, intsRec a a = .ok 0
  | [] => rfl
  | a :: l => by rw [intsRec, if_neg (by omega), if_neg (by omega)]; exact intsRec_self l

theorem intsRec_prefix : ∀ p s t : List Int, intsRec (p ++ s) (p ++ t) = intsRec s t
  | [], _, _ => rfl
  | a :: p, s, t => by
    rw [List.cons_append, List.cons_append, intsRec, if_neg (by omega), if_neg (by omega)]
    exact intsRec_prefix p s t

theorem intsRec_cases : ∀ a b : List Int,
    (intsRec a b = .ok (-1) ∧ ((∃ p s t x y, x < y ∧ a = p ++ x :: s ∧ b = p ++ y :: t) ∨ ∃ y t, b = a ++ y :: t)) ∨
      (intsRec a b = .ok 0 ∧ a = b) ∨
      (intsRec a b = .ok 1 ∧ ∃ p s t x y, x < y ∧ b = p ++ x :: s ∧ a = p ++ y :: t) ∨
      (intsRec a b = .panic ∧ ∃ y t, a = b ++ y :: t)
  | [], [] => by simp [intsRec]
  | [], y :: t => Or.inl ⟨rfl, Or.inr ⟨y, t, rfl⟩⟩
  | y :: t, [] => Or.inr (Or.inr (Or.inr ⟨rfl, y, t, rfl⟩))
  | x :: a, y :: b => by
    by_cases h1 : x < y
    · exact Or.inl ⟨by rw [intsRec, if_pos h1], Or.inl ⟨[], a, b, x, y, h1, rfl, rfl⟩⟩
    by_cases h2 : x > y
    · exact Or.inr (Or.inr (Or.inl ⟨by rw [intsRec, if_neg h1, if_pos h2], [], b, a, y, x, h2, rfl, rfl⟩))
    obtain rfl : x = y := by omega
    have e : intsRec (x :: a) (x :: b) = intsRec a b := by rw [intsRec, if_neg h1, if_neg h2]
    rw [e]
    rcases intsRec_cases a b with ⟨h, h'⟩ | ⟨h, h'⟩ | ⟨h, h'⟩ | ⟨h, h'⟩
    · refine Or.inl ⟨h, ?_⟩
      rcases h' with ⟨p, s, t, u, v, q, rfl, rfl⟩ | ⟨u, t, rfl⟩
      · exact Or.inl ⟨x :: p, s, t, u, v, q, rfl, rfl⟩
      · exact Or.inr ⟨u, t, rfl⟩
    · exact Or.inr (Or.inl ⟨h, by rw [h']⟩)
    · obtain ⟨p, s, t, u, v, q, rfl, rfl⟩ := h'
      exact Or.inr (Or.inr (Or.inl ⟨h, x :: p, s, t, u, v, q, rfl, rfl⟩))
    · obtain ⟨u, t, rfl⟩ := h'
      exact Or.inr (Or.inr (Or.inr ⟨h, u, t, rfl⟩))

/-! ### Objects -/

mutual
theorem compare_self : ∀ a : CmpObj, clean a → a.compare a = .ok 0
  | .ints k (some a), _ => by rw [compare_ints, if_pos rfl, intsRec_self]
  | .ints k none, h => by simp [clean] at h
  | .objs l, h => by
    rw [clean] at h
    rw [compare_objs]
    exact objsRec_self l h
  | .absent, h => by simp [clean] at h
  | .nilInts _, h => by simp [clean] at h
  | .nilObjs, h => by simp [clean] at h
  | .objsNil, h => by simp [clean] at h

theorem objsRec_self : ∀ l : List CmpObj, cleans l → objsRec l l = .ok 0
  | [], _ => rfl
  | a :: l, h => by
    rw [cleans] at h
    rw [objsRec, compare_self a h.1]
    exact objsRec_self l h.2
end

theorem cleans_append : ∀ (p s : List CmpObj), cleans (p ++ s) ↔ cleans p ∧ cleans s
  | [], s => by simp [cleans]
  | a :: p, s => by rw [List.cons_append, cleans, cleans, cleans_append p s, and_assoc]

theorem objsRec_prefix : ∀ p s t : List CmpObj, cleans p → objsRec (p ++ s) (p ++ t) = objsRec s t
  | [], _, _, _ => rfl
  | a :: p, s, t, h => by
    rw [cleans] at h
    rw [List.cons_append, List.cons_append, objsRec, compare_self a h.1]
    exact objsRec_prefix p s t h.2

theorem smaller_compare {a b : CmpObj} (h : Smaller a b) : clean a → clean b → a.compare b = .ok (-1) ∧ b.compare a = .ok 1 := by
  induction h with
  | ints k p s t x y hxy =>
    intro _ _
    rw [compare_ints, compare_ints, if_pos rfl, if_pos rfl, intsRec_prefix, intsRec_prefix, intsRec, intsRec, if_pos hxy,
      if_neg (by omega), if_pos hxy]
    exact ⟨rfl, rfl⟩
  | objs p s t x y _ ih =>
    intro ha hb
    rw [clean, cleans_append, cleans] at ha hb
    obtain ⟨h1, h2⟩ := ih ha.2.1 hb.2.1
    rw [compare_objs, compare_objs, objsRec_prefix _ _ _ ha.1, objsRec_prefix _ _ _ ha.1, objsRec, objsRec, h1, h2]
    exact ⟨rfl, rfl⟩

theorem shorter_compare {a b : CmpObj} (h : Shorter a b) : clean a → clean b → a.compare b = .ok (-1) ∧ b.compare a = .panic := by
  induction h with
  | ints k p t y =>
    intro _ _
    have e1 := intsRec_prefix p [] (y :: t)
    have e2 := intsRec_prefix p (y :: t) []
    rw [List.append_nil] at e1 e2
    rw [compare_ints, compare_ints, if_pos rfl, if_pos rfl, e1, e2]
    exact ⟨rfl, rfl⟩
  | objs p t y =>
    intro ha _
    rw [clean] at ha
    have e1 := objsRec_prefix p [] (y :: t) ha
    have e2 := objsRec_prefix p (y :: t) [] ha
    rw [List.append_nil] at e1 e2
    rw [compare_objs, compare_objs, e1, e2]
    exact ⟨rfl, rfl⟩
  | inside p s t x y _ ih =>
    intro ha hb
    rw [clean, cleans_append, cleans] at ha hb
    obtain ⟨h1, h2⟩ := ih ha.2.1 hb.2.1
    rw [compare_objs, compare_objs, objsRec_prefix _ _ _ ha.1, objsRec_prefix _ _ _ ha.1, objsRec, objsRec, h1, h2]
    exact ⟨rfl, rfl⟩

theorem mismatch_compare {a b : CmpObj} (h : Mismatch a b) : clean a → clean b → a.compare b = .panic := by
  induction h with
  | here a b hk =>
    intro ha hb
    cases a with
    | ints k s =>
      cases s with
      | none => simp [clean] at ha
      | some a =>
        cases b with
        | ints k' t =>
          cases t with
          | none => simp [clean] at hb
          | some b =>
            rw [compare_ints, if_neg]
            rintro rfl
            exact hk rfl
        | objs m => simp [CmpObj.compare, CmpObj.isNil]
        | absent => simp [clean] at hb
        | nilInts _ => simp [clean] at hb
        | nilObjs => simp [clean] at hb
        | objsNil => simp [clean] at hb
    | objs l =>
      cases b with
      | ints k' t => simp [CmpObj.compare, CmpObj.isNil]
      | objs m => exact absurd rfl hk
      | absent => simp [clean] at hb
      | nilInts _ => simp [clean] at hb
      | nilObjs => simp [clean] at hb
      | objsNil => simp [clean] at hb
    | absent => simp [clean] at ha
    | nilInts _ => simp [clean] at ha
    | nilObjs => simp [clean] at ha
    | objsNil => simp [clean] at ha
  | inside p s t x y _ ih =>
    intro ha hb
    rw [clean, cleans_append, cleans] at ha hb
    rw [compare_objs, objsRec_prefix _ _ _ ha.1, objsRec, ih ha.2.1 hb.2.1]

/-- The outcomes of a comparison of two objects. -/
def Outcome (a b : CmpObj) : Prop :=
  (a.compare b = .ok (-1) ∧ (Smaller a b ∨ Shorter a b)) ∨ (a.compare b = .ok 0 ∧ a = b) ∨ (a.compare b = .ok 1 ∧ Smaller b a) ∨
    (a.compare b = .panic ∧ (Shorter b a ∨ Mismatch a b))

/-- The outcomes of a comparison of two lists. -/
def Outcomes (l m : List CmpObj) : Prop :=
  (objsRec l m = .ok (-1) ∧ (Smaller (.objs l) (.objs m) ∨ Shorter (.objs l) (.objs m))) ∨ (objsRec l m = .ok 0 ∧ l = m) ∨
    (objsRec l m = .ok 1 ∧ Smaller (.objs m) (.objs l)) ∨
    (objsRec l m = .panic ∧ (Shorter (.objs m) (.objs l) ∨ Mismatch (.objs l) (.objs m)))

theorem smaller_cons (a : CmpObj) {l m : List CmpObj} (h : Smaller (.objs l) (.objs m)) : Smaller (.objs (a :: l)) (.objs (a :: m)) := by
  cases h with
  | objs p s t x y h => exact Smaller.objs (a :: p) s t x y h

theorem shorter_cons (a : CmpObj) {l m : List CmpObj} (h : Shorter (.objs l) (.objs m)) : Shorter (.objs (a :: l)) (.objs (a :: m)) := by
  cases h with
  | objs p t y => exact Shorter.objs (a :: l) t y
  | inside p s t x y h => exact Shorter.inside (a :: p) s t x y h

theorem mismatch_cons (a : CmpObj) {l m : List CmpObj} (h : Mismatch (.objs l) (.objs m)) : Mismatch (.objs (a :: l)) (.objs (a :: m)) := by
  cases h with
  | here _ _ h => exact absurd rfl h
  | inside p s t x y h => exact Mismatch.inside (a :: p) s t x y h

mutual
theorem compare_outcome : ∀ a b : CmpObj, clean a → clean b → Outcome a b
  | .ints k none, _, ha, _ => by simp [clean] at ha
  | .ints k (some a), b, ha, hb => by
    by_cases hk : typeOf (.ints k (some a)) = typeOf b
    · cases b with
      | ints k' t =>
        cases t with
        | none => simp [clean] at hb
        | some b =>
          simp only [typeOf, Option.some.injEq] at hk
          subst hk
          rw [Outcome, compare_ints, if_pos rfl]
          rcases intsRec_cases a b with ⟨h, h'⟩ | ⟨h, h'⟩ | ⟨h, h'⟩ | ⟨h, h'⟩
          · refine Or.inl ⟨h, ?_⟩
            rcases h' with ⟨p, s, t, u, v, q, rfl, rfl⟩ | ⟨u, t, rfl⟩
            · exact Or.inl (Smaller.ints k p s t u v q)
            · exact Or.inr (Shorter.ints k a t u)
          · exact Or.inr (Or.inl ⟨h, by rw [h']⟩)
          · obtain ⟨p, s, t, u, v, q, rfl, rfl⟩ := h'
            exact Or.inr (Or.inr (Or.inl ⟨h, Smaller.ints k p s t u v q⟩))
          · obtain ⟨u, t, rfl⟩ := h'
            exact Or.inr (Or.inr (Or.inr ⟨h, Or.inl (Shorter.ints k b t u)⟩))
      | _ => simp [typeOf] at hk
    · exact Or.inr (Or.inr (Or.inr ⟨mismatch_compare (.here _ _ hk) ha hb, Or.inr (.here _ _ hk)⟩))
  | .objs l, b, ha, hb => by
    by_cases hk : typeOf (.objs l) = typeOf b
    · cases b with
      | objs m =>
        rw [clean] at ha hb
        have := objsRec_outcome l m ha hb
        rw [Outcomes] at this
        rw [Outcome, compare_objs]
        rcases this with h | ⟨h, rfl⟩ | h | h
        · exact Or.inl h
        · exact Or.inr (Or.inl ⟨h, rfl⟩)
        · exact Or.inr (Or.inr (Or.inl h))
        · exact Or.inr (Or.inr (Or.inr h))
      | ints k s => simp [typeOf] at hk
      | absent => simp [clean] at hb
      | nilInts _ => simp [clean] at hb
      | nilObjs => simp [clean] at hb
      | objsNil => simp [clean] at hb
    · exact Or.inr (Or.inr (Or.inr ⟨mismatch_compare (.here _ _ hk) ha hb, Or.inr (.here _ _ hk)⟩))
  | .absent, _, h, _ => by simp [clean] at h
  | .nilInts _, _, h, _ => by simp [clean] at h
  | .nilObjs, _, h, _ => by simp [clean] at h
  | .objsNil, _, h, _ => by simp [clean] at h

theorem objsRec_outcome : ∀ l m : List CmpObj, cleans l → cleans m → Outcomes l m
  | [], [], _, _ => Or.inr (Or.inl ⟨rfl, rfl⟩)
  | [], y :: t, _, _ => Or.inl ⟨rfl, Or.inr (Shorter.objs [] t y)⟩
  | y :: t, [], _, _ => Or.inr (Or.inr (Or.inr ⟨rfl, Or.inl (Shorter.objs [] t y)⟩))
  | a :: l, b :: m, hl, hm => by
    rw [cleans] at hl hm
    rw [Outcomes, objsRec]
    rcases compare_outcome a b hl.1 hm.1 with ⟨h, h'⟩ | ⟨h, rfl⟩ | ⟨h, h'⟩ | ⟨h, h'⟩
    · rw [h]
      refine Or.inl ⟨rfl, ?_⟩
      rcases h' with h' | h'
      · exact Or.inl (Smaller.objs [] l m a b h')
      · exact Or.inr (Shorter.inside [] l m a b h')
    · rw [h]
      have := objsRec_outcome l m hl.2 hm.2
      rw [Outcomes] at this
      simp only [ne_eq, not_true_eq_false, if_false]
      rcases this with ⟨h, h' | h'⟩ | ⟨h, rfl⟩ | ⟨h, h'⟩ | ⟨h, h' | h'⟩
      · exact Or.inl ⟨h, Or.inl (smaller_cons a h')⟩
      · exact Or.inl ⟨h, Or.inr (shorter_cons a h')⟩
      · exact Or.inr (Or.inl ⟨h, rfl⟩)
      · exact Or.inr (Or.inr (Or.inl ⟨h, smaller_cons a h'⟩))
      · exact Or.inr (Or.inr (Or.inr ⟨h, Or.inl (shorter_cons a h')⟩))
      · exact Or.inr (Or.inr (Or.inr ⟨h, Or.inr (mismatch_cons a h')⟩))
    · rw [h]
      exact Or.inr (Or.inr (Or.inl ⟨rfl, Smaller.objs [] m l b a h'⟩))
    · rw [h]
      refine Or.inr (Or.inr (Or.inr ⟨rfl, ?_⟩))
      rcases h' with h' | h'
      · exact Or.inl (Shorter.inside [] m l b a h')
      · exact Or.inr (Mismatch.inside [] l m a b h')
end

theorem compare_zero {a b : CmpObj} (ha : clean a) (hb : clean b) (h : a.compare b = .ok 0) : a = b := by
  rcases compare_outcome a b ha hb with ⟨q, -⟩ | ⟨-, q⟩ | ⟨q, -⟩ | ⟨q, -⟩
  · rw [h] at q; simp at q
  · exact q
  · rw [h] at q; simp at q
  · rw [h] at q; simp at q

/-! ### Transitivity -/

theorem intsRec_trans {r : Int} (hr : r ≠ 0) : ∀ a b c : List Int, intsRec a b = .ok r → intsRec b c = .ok r → intsRec a c = .ok r
  | [], [], _, h, _ => by simp only [intsRec, Res.ok.injEq] at h; omega
  | [], _ :: _, [], _, h => by simp [intsRec] at h
  | [], _ :: _, _ :: _, h, _ => by rw [intsRec] at h ⊢; exact h
  | _ :: _, [], _, h, _ => by simp [intsRec] at h
  | _ :: _, _ :: _, [], _, h => by simp [intsRec] at h
  | x :: a, y :: b, z :: c, h1, h2 => by
    rw [intsRec] at h1 h2 ⊢
    split_ifs at h1 with p1 p2
    · split_ifs at h2 with q1 q2
      · rw [if_pos (by omega)]; exact h1
      · simp only [Res.ok.injEq] at h1 h2; omega
      · rw [if_pos (by omega)]; exact h1
    · split_ifs at h2 with q1 q2
      · simp only [Res.ok.injEq] at h1 h2; omega
      · rw [if_neg (by omega), if_pos (by omega)]; exact h1
      · rw [if_neg (by omega), if_pos (by omega)]; exact h1
    · split_ifs at h2 with q1 q2
      · rw [if_pos (by omega)]; exact h2
      · rw [if_neg (by omega), if_pos (by omega)]; exact h2
      · rw [if_neg (by omega), if_neg (by omega)]; exact intsRec_trans hr a b c h1 h2

/-- What a successful comparison of two clean objects says about their types. -/
theorem compare_ok_types {a b : CmpObj} (ha : clean a) (hb : clean b) {r : Int} (h : a.compare b = .ok r) :
    (∃ k s t, a = .ints k (some s) ∧ b = .ints k (some t)) ∨ ∃ l m, a = .objs l ∧ b = .objs m := by
  have hk : typeOf a = typeOf b := by
    by_contra hk
    rw [mismatch_compare (.here a b hk) ha hb] at h
    exact absurd h (by simp)
  cases a with
  | ints k s =>
    cases b with
    | ints k' t =>
      simp only [typeOf, Option.some.injEq] at hk
      subst hk
      cases s with
      | none => simp [clean] at ha
      | some s =>
        cases t with
        | none => simp [clean] at hb
        | some t => exact Or.inl ⟨k, s, t, rfl, rfl⟩
    | _ => simp [typeOf] at hk
  | objs l =>
    cases b with
    | objs m => exact Or.inr ⟨l, m, rfl, rfl⟩
    | ints k s => simp [typeOf] at hk
    | absent => simp [clean] at hb
    | nilInts _ => simp [clean] at hb
    | nilObjs => simp [clean] at hb
    | objsNil => simp [clean] at hb
  | absent => simp [clean] at ha
  | nilInts _ => simp [clean] at ha
  | nilObjs => simp [clean] at ha
  | objsNil => simp [clean] at ha

mutual
theorem compare_trans {r : Int} (hr : r ≠ 0) : ∀ a b c : CmpObj, clean a → clean b → clean c → a.compare b = .ok r → b.compare c = .ok r →
    a.compare c = .ok r
  | .ints k s, b, c, ha, hb, hc, h1, h2 => by
    rcases compare_ok_types ha hb h1 with ⟨k', s', t, e, rfl⟩ | ⟨l, m, e, -⟩
    · cases e
      rcases compare_ok_types hb hc h2 with ⟨k', s', u, e, rfl⟩ | ⟨l, m, e, -⟩
      · cases e
        rw [compare_ints, if_pos rfl] at h1 h2 ⊢
        exact intsRec_trans hr _ _ _ h1 h2
      · cases e
    · cases e
  | .objs l, b, c, ha, hb, hc, h1, h2 => by
    rcases compare_ok_types ha hb h1 with ⟨k', s', t, e, -⟩ | ⟨l', m, e, rfl⟩
    · cases e
    · cases e
      rcases compare_ok_types hb hc h2 with ⟨k', s', u, e, -⟩ | ⟨m', n, e, rfl⟩
      · cases e
      · cases e
        rw [clean] at ha hb hc
        rw [compare_objs] at h1 h2 ⊢
        exact objsRec_trans hr l m n ha hb hc h1 h2
  | .absent, _, _, h, _, _, _, _ => by simp [clean] at h
  | .nilInts _, _, _, h, _, _, _, _ => by simp [clean] at h
  | .nilObjs, _, _, h, _, _, _, _ => by simp [clean] at h
  | .objsNil, _, _, h, _, _, _, _ => by simp [clean] at h

theorem objsRec_trans {r : Int} (hr : r ≠ 0) : ∀ a b c : List CmpObj, cleans a → cleans b → cleans c → objsRec a b = .ok r →
    objsRec b c = .ok r → objsRec a c = .ok r
  | [], [], _, _, _, _, h, _ => by simp only [objsRec, Res.ok.injEq] at h; omega
  | [], _ :: _, [], _, _, _, _, h => by simp [objsRec] at h
  | [], _ :: _, _ :: _, _, _, _, h, _ => by rw [objsRec] at h ⊢; exact h
  | _ :: _, [], _, _, _, _, h, _ => by simp [objsRec] at h
  | _ :: _, _ :: _, [], _, _, _, _, h => by simp [objsRec] at h
  | x :: a, y :: b, z :: c, ha, hb, hc, h1, h2 => by
    rw [cleans] at ha hb hc
    rw [objsRec] at h1 h2 ⊢
    cases e1 : x.compare y with
    | ok r1 =>
      rw [e1] at h1
      cases e2 : y.compare z with
      | ok r2 =>
        rw [e2] at h2
        simp only [ne_eq, ite_not] at h1 h2
        split_ifs at h1 with p1
        · subst p1
          obtain rfl := compare_zero ha.1 hb.1 e1
          rw [e2]
          simp only [ne_eq, ite_not]
          split_ifs at h2 with p2
          · rw [if_pos p2]
            exact objsRec_trans hr a b c ha.2 hb.2 hc.2 h1 h2
          · rw [if_neg p2]
            exact h2
        · split_ifs at h2 with p2
          · subst p2
            obtain rfl := compare_zero hb.1 hc.1 e2
            rw [e1]
            simp only [ne_eq, ite_not]
            rw [if_neg p1]
            exact h1
          · simp only [Res.ok.injEq] at h1 h2
            subst h1
            subst h2
            rw [compare_trans hr x y z ha.1 hb.1 hc.1 e1 e2]
            simp only [ne_eq, ite_not]
            rw [if_neg p1]
      | err => rw [e2] at h2; simp at h2
      | panic => rw [e2] at h2; simp at h2
    | err => rw [e1] at h1; simp at h1
    | panic => rw [e1] at h1; simp at h1
end

/-! ### Equal -/

theorem equalInts_some (a b : List Int) : equalInts (some a) (some b) = true ↔ a = b := by
  simp only [equalInts]
  split
  · rename_i h
    simp only [Bool.false_eq_true, false_iff]
    rintro rfl; exact h rfl
  · rename_i h
    rw [zip_all_eq (by omega)]

/-- `Equal` returned, and is true exactly if the proposition holds. -/
def Says (r : Res Bool) (p : Prop) : Prop := ∃ v, r = .ok v ∧ (v = true ↔ p)

mutual
theorem equal_clean : ∀ a b : CmpObj, clean a → clean b → Says (a.equal b) (a = b)
  | .ints k none, _, ha, _ => by simp [clean] at ha
  | .ints k (some a), b, ha, hb => by
    cases b with
    | ints k' t =>
      cases t with
      | none => simp [clean] at hb
      | some t =>
        by_cases hk : k = k'
        · subst hk
          simp only [CmpObj.equal, if_pos, Option.getD_some]
          split
          · rename_i h
            refine ⟨false, rfl, ?_⟩
            simp only [Bool.false_eq_true, CmpObj.ints.injEq, true_and, Option.some.injEq, false_iff]
            rintro rfl; exact h rfl
          · exact ⟨_, rfl, by rw [equalInts_some]; simp⟩
        · refine ⟨false, by simp only [CmpObj.equal, if_neg hk], ?_⟩
          simp [hk]
    | objs m => exact ⟨false, rfl, by simp⟩
    | absent => simp [clean] at hb
    | nilInts _ => simp [clean] at hb
    | nilObjs => simp [clean] at hb
    | objsNil => simp [clean] at hb
  | .objs l, b, ha, hb => by
    cases b with
    | ints k' t => exact ⟨false, by simp [CmpObj.equal], by simp⟩
    | objs m =>
      rw [clean] at ha hb
      rw [CmpObj.equal]
      split
      · rename_i h
        refine ⟨false, rfl, ?_⟩
        simp only [Bool.false_eq_true, CmpObj.objs.injEq, false_iff]
        rintro rfl; exact h rfl
      · rename_i h
        obtain ⟨v, h1, h2⟩ := equalObjs_clean l m (by omega) ha hb
        exact ⟨v, h1, by rw [h2]; simp⟩
    | absent => simp [clean] at hb
    | nilInts _ => simp [clean] at hb
    | nilObjs => simp [clean] at hb
    | objsNil => simp [clean] at hb
  | .absent, _, h, _ => by simp [clean] at h
  | .nilInts _, _, h, _ => by simp [clean] at h
  | .nilObjs, _, h, _ => by simp [clean] at h
  | .objsNil, _, h, _ => by simp [clean] at h

theorem equalObjs_clean : ∀ l m : List CmpObj, l.length = m.length → cleans l → cleans m → Says (equalObjsLoop l m) (l = m)
  | [], [], _, _, _ => ⟨true, rfl, by simp⟩
  | [], _ :: _, h, _, _ => by simp at h
  | _ :: _, [], h, _, _ => by simp at h
  | a :: l, b :: m, h, hl, hm => by
    rw [cleans] at hl hm
    have pa : ∀ x : CmpObj, clean x → x.isAbsent = false := by
      intro x hx
      cases x <;> first | rfl | simp [clean] at hx
    rw [equalObjsLoop]
    simp only [pa a hl.1, pa b hm.1, bne_self_eq_false, Bool.false_eq_true, if_false]
    obtain ⟨v, h1, h2⟩ := equal_clean a b hl.1 hm.1
    rw [h1]
    cases v with
    | true =>
      obtain ⟨w, h3, h4⟩ := equalObjs_clean l m (by simpa using h) hl.2 hm.2
      exact ⟨w, h3, by rw [h4]; simp [h2.mp rfl]⟩
    | false =>
      refine ⟨false, rfl, ?_⟩
      simp only [Bool.false_eq_true, List.cons.injEq, false_iff, not_and]
      intro e
      exact absurd (h2.mpr e) (by simp)
end

/-! ### Same shape -/

mutual
theorem sameShape_clean : ∀ a b : CmpObj, sameShape a b → clean a ∧ clean b
  | .ints k (some a), b, h => by
    cases b with
    | ints k' t =>
      cases t with
      | none => simp [sameShape] at h
      | some t => exact ⟨by simp [clean], by simp [clean]⟩
    | _ => simp [sameShape] at h
  | .ints _ none, b, h => by simp [sameShape] at h
  | .objs l, b, h => by
    cases b with
    | objs m =>
      rw [sameShape] at h
      rw [clean, clean]
      exact sameShapes_clean l m h
    | _ => simp [sameShape] at h
  | .absent, _, h => by simp [sameShape] at h
  | .nilInts _, _, h => by simp [sameShape] at h
  | .nilObjs, _, h => by simp [sameShape] at h
  | .objsNil, _, h => by simp [sameShape] at h

theorem sameShapes_clean : ∀ a b : List CmpObj, sameShapes a b → cleans a ∧ cleans b
  | [], [], _ => by simp [cleans]
  | [], _ :: _, h => by simp [sameShapes] at h
  | _ :: _, [], h => by simp [sameShapes] at h
  | a :: l, b :: m, h => by
    rw [sameShapes] at h
    obtain ⟨h1, h2⟩ := sameShape_clean a b h.1
    obtain ⟨h3, h4⟩ := sameShapes_clean l m h.2
    rw [cleans, cleans]
    exact ⟨⟨h1, h3⟩, ⟨h2, h4⟩⟩
end

mutual
theorem sameShape_symm : ∀ a b : CmpObj, sameShape a b → sameShape b a
  | .ints k (some a), b, h => by
    cases b with
    | ints k' t =>
      cases t with
      | none => simp [sameShape] at h
      | some t =>
        rw [sameShape] at h ⊢
        exact ⟨h.1.symm, h.2.symm⟩
    | _ => simp [sameShape] at h
  | .ints _ none, b, h => by simp [sameShape] at h
  | .objs l, b, h => by
    cases b with
    | objs m =>
      rw [sameShape] at h ⊢
      exact sameShapes_symm l m h
    | _ => simp [sameShape] at h
  | .absent, _, h => by simp [sameShape] at h
  | .nilInts _, _, h => by simp [sameShape] at h
  | .nilObjs, _, h => by simp [sameShape] at h
  | .objsNil, _, h => by simp [sameShape] at h

theorem sameShapes_symm : ∀ a b : List CmpObj, sameShapes a b → sameShapes b a
  | [], [], h => h
  | [], _ :: _, h => by simp [sameShapes] at h
  | _ :: _, [], h => by simp [sameShapes] at h
  | a :: l, b :: m, h => by
    rw [sameShapes] at h ⊢
    exact ⟨sameShape_symm a b h.1, sameShapes_symm l m h.2⟩
end

theorem sameShapes_length : ∀ {l m : List CmpObj}, sameShapes l m → l.length = m.length
  | [], [], _ => rfl
  | [], _ :: _, h => by simp [sameShapes] at h
  | _ :: _, [], h => by simp [sameShapes] at h
  | a :: l, b :: m, h => by
    rw [sameShapes] at h
    simp [sameShapes_length h.2]

theorem sameShapes_at : ∀ {p q s t : List CmpObj} {x y : CmpObj}, p.length = q.length → sameShapes (p ++ x :: s) (q ++ y :: t) → sameShape x y
  | [], [], _, _, _, _, _, h => by
    rw [List.nil_append, List.nil_append, sameShapes] at h
    exact h.1
  | [], _ :: _, _, _, _, _, h, _ => by simp at h
  | _ :: _, [], _, _, _, _, h, _ => by simp at h
  | a :: p, b :: q, s, t, x, y, hl, h => by
    rw [List.cons_append, List.cons_append, sameShapes] at h
    exact sameShapes_at (by simpa using hl) h.2

theorem not_shorter {a b : CmpObj} (h : Shorter a b) : ¬ sameShape a b := by
  induction h with
  | ints k p t y => simp [sameShape]
  | objs p t y =>
    intro h
    rw [sameShape] at h
    have := sameShapes_length h
    simp at this
  | inside p s t x y _ ih =>
    intro h
    rw [sameShape] at h
    exact ih (sameShapes_at rfl h)

theorem not_mismatch {a b : CmpObj} (h : Mismatch a b) : ¬ sameShape a b := by
  induction h with
  | here a b hk =>
    intro h
    cases a with
    | ints k s =>
      cases s with
      | none => simp [sameShape] at h
      | some s =>
        cases b with
        | ints k' t =>
          cases t with
          | none => simp [sameShape] at h
          | some t =>
            rw [sameShape] at h
            exact hk (by rw [typeOf, typeOf, h.1])
        | _ => simp [sameShape] at h
    | objs l =>
      cases b with
      | objs m => exact hk rfl
      | _ => simp [sameShape] at h
    | _ => simp [sameShape] at h
  | inside p s t x y _ ih =>
    intro h
    rw [sameShape] at h
    exact ih (sameShapes_at rfl h)

/-- C122: comparing two comparable slices of the same shape, of any element types and nesting, returns -1, 0 or 1, with 0 exactly for
equal contents, -1 exactly if the first different integer is smaller, and the negated result the other way round. -/
theorem C122_compare (a b : CmpObj) (h : sameShape a b) :
    ∃ r, a.compare b = .ok r ∧ b.compare a = .ok (-r) ∧ (r = 0 ↔ a = b) ∧ (r = -1 ↔ Smaller a b) ∧ (r = 1 ↔ Smaller b a) := by
  obtain ⟨ha, hb⟩ := sameShape_clean a b h
  rcases compare_outcome a b ha hb with ⟨q, q' | q'⟩ | ⟨q, rfl⟩ | ⟨q, q'⟩ | ⟨q, q' | q'⟩
  · refine ⟨-1, q, (smaller_compare q' ha hb).2, ?_, by simp [q'], ?_⟩
    · simp only [show ((-1 : Int) = 0) = False by simp, false_iff]
      rintro rfl
      rw [compare_self a ha] at q
      simp at q
    · simp only [show ((-1 : Int) = 1) = False by simp, false_iff]
      intro h'
      rw [(smaller_compare h' hb ha).2] at q
      simp at q
  · exact absurd h (not_shorter q')
  · refine ⟨0, q, q, by simp, ?_, ?_⟩
    · simp only [show ((0 : Int) = -1) = False by simp, false_iff]
      intro h'
      rw [(smaller_compare h' ha hb).1] at q
      simp at q
    · simp only [show ((0 : Int) = 1) = False by simp, false_iff]
      intro h'
      rw [(smaller_compare h' ha hb).1] at q
      simp at q
  · refine ⟨1, q, (smaller_compare q' hb ha).1, ?_, ?_, by simp [q']⟩
    · simp only [show ((1 : Int) = 0) = False by simp, false_iff]
      rintro rfl
      rw [compare_self a ha] at q
      simp at q
    · simp only [show ((1 : Int) = -1) = False by simp, false_iff]
      intro h'
      rw [(smaller_compare h' ha hb).1] at q
      simp at q
  · exact absurd (sameShape_symm a b h) (not_shorter q')
  · exact absurd h (not_mismatch q')

example : sameShape (.objs [.ints .int16 (some [3, -4]), .objs [.ints .byte (some [])]])
    (.objs [.ints .int16 (some [3, 9]), .objs [.ints .byte (some [])]]) := by simp [sameShape, sameShapes]

example : (CmpObj.objs [.ints .int16 (some [3, -4])]).compare (.objs [.ints .int16 (some [3, 9])]) = .ok (-1) := by decide +kernel

/-- C122: for slices without anything nil, the results -1 and 1 are transitive. -/
theorem C122_transitive (a b c : CmpObj) (ha : clean a) (hb : clean b) (hc : clean c) (r : Int) (hr : r ≠ 0) (h1 : a.compare b = .ok r)
    (h2 : b.compare c = .ok r) : a.compare c = .ok r := compare_trans hr a b c ha hb hc h1 h2

example : clean (.objs [.ints .byte (some [1])]) ∧ clean (.objs [.ints .byte (some [1, 2])]) ∧ clean (.objs [.ints .byte (some [2])]) ∧
    (CmpObj.objs [.ints .byte (some [1])]).compare (.objs [.ints .byte (some [1, 2])]) = .ok (-1) ∧
    (CmpObj.objs [.ints .byte (some [1, 2])]).compare (.objs [.ints .byte (some [2])]) = .ok (-1) :=
  ⟨by simp [clean, cleans], by simp [clean, cleans], by simp [clean, cleans], by decide +kernel, by decide +kernel⟩

/-- C122: for slices without anything nil, `Equal` returns whether the types and contents are the same. -/
theorem C122_equal (a b : CmpObj) (ha : clean a) (hb : clean b) : ∃ v, a.equal b = .ok v ∧ (v = true ↔ a = b) := equal_clean a b ha hb

example : clean (.objs [.ints .int64 (some [7])]) ∧ clean (.objs [.ints .uint64 (some [7])]) ∧
    (CmpObj.objs [.ints .int64 (some [7])]).equal (.objs [.ints .uint64 (some [7])]) = .ok false :=
  ⟨by simp [clean, cleans], by simp [clean, cleans], by decide +kernel⟩

/-! ### C123 -/

/-- The full claim of C123: for slices of the same type without anything nil, `Compare` returns a result, and the opposite of the result
the other way round. -/
def ComparesAll : Prop := ∀ a b : CmpObj, clean a → clean b → typeOf a = typeOf b → ∃ r, a.compare b = .ok r ∧ b.compare a = .ok (-r)

/-- C123: exactly when a comparison returns what, and when it panics: when the argument ends first, or types differ. -/
theorem C123_outcome_partial (a b : CmpObj) (ha : clean a) (hb : clean b) :
    (a.compare b = .ok (-1) ↔ Smaller a b ∨ Shorter a b) ∧ (a.compare b = .ok 0 ↔ a = b) ∧ (a.compare b = .ok 1 ↔ Smaller b a) ∧
      (a.compare b = .panic ↔ Shorter b a ∨ Mismatch a b) := by
  refine ⟨⟨fun h => ?_, fun h => ?_⟩, ⟨compare_zero ha hb, ?_⟩, ⟨fun h => ?_, fun h => (smaller_compare h hb ha).2⟩, fun h => ?_, fun h => ?_⟩
  · rcases compare_outcome a b ha hb with ⟨-, q⟩ | ⟨q, -⟩ | ⟨q, -⟩ | ⟨q, -⟩
    · exact q
    all_goals (rw [h] at q; simp at q)
  · rcases h with h | h
    · exact (smaller_compare h ha hb).1
    · exact (shorter_compare h ha hb).1
  · rintro rfl
    exact compare_self a ha
  · rcases compare_outcome a b ha hb with ⟨q, -⟩ | ⟨q, -⟩ | ⟨-, q⟩ | ⟨q, -⟩
    · rw [h] at q; simp at q
    · rw [h] at q; simp at q
    · exact q
    · rw [h] at q; simp at q
  · rcases compare_outcome a b ha hb with ⟨q, -⟩ | ⟨q, -⟩ | ⟨q, -⟩ | ⟨-, q⟩
    · rw [h] at q; simp at q
    · rw [h] at q; simp at q
    · rw [h] at q; simp at q
    · exact q
  · rcases h with h | h
    · exact (shorter_compare h hb ha).2
    · exact mismatch_compare h ha hb

example : Shorter (.objs [.ints .byte (some [1])]) (.objs [.ints .byte (some [1, 2])]) ∧
    Mismatch (.objs [.ints .byte (some [1])]) (.objs [.ints .int8 (some [1])]) :=
  ⟨Shorter.inside [] [] [] _ _ (Shorter.ints .byte [1] [] 2), Mismatch.inside [] [] [] _ _ (Mismatch.here _ _ (by simp [typeOf]))⟩

/-- C123: a slice object whose own slice is nil is below everything that is not nil, itself included, and equal to what is nil; nothing
compared with it is below it. -/
theorem C123_nil_partial (k : ElemKind) (c : CmpObj) :
    ((CmpObj.ints k none).compare c = .ok (if c.isNil then 0 else -1)) ∧ (CmpObj.objsNil.compare c = .ok (if c.isNil then 0 else -1)) ∧
      (CmpObj.ints k none).compare (.ints k none) = .ok (-1) ∧ CmpObj.objsNil.compare .objsNil = .ok (-1) ∧
      (CmpObj.ints k none).equal (.ints k none) = .ok true ∧ CmpObj.objsNil.equal .objsNil = .ok true ∧
      CmpObj.objsNil.equal (.objs []) = .ok true ∧ CmpObj.objsNil.compare (.objs []) = .ok (-1) ∧
      (CmpObj.objs []).compare .objsNil = .ok 1 := by
  refine ⟨?_, ?_, rfl, rfl, ?_, rfl, rfl, rfl, rfl⟩
  · rw [CmpObj.compare]
    split <;> rfl
  · rw [CmpObj.compare]
    split <;> rfl
  · simp [CmpObj.equal, equalInts]

/-- C123 as stated does not hold: a slice cannot be compared with one it continues. -/
theorem C123_refuted : ¬ ComparesAll := by
  intro h
  obtain ⟨r, h, -⟩ := h (.ints .int32 (some [1, 2])) (.ints .int32 (some [1])) (by simp [clean]) (by simp [clean]) rfl
  exact absurd h (by
    rw [compare_ints, if_pos rfl]
    simp [intsRec])

end Poodle.Props
