import Verif.Spec.ObjOrder
import Verif.Props.Comparable
import Verif.Props.SortedMap

/-
C201: sorted maps indexed by comparable objects of any types.
-/

namespace Poodle.Props
open Poodle Poodle.Spec

variable {K V : Type}

/-! ### Maps over keys of which some cannot be compared -/

section
variable {ops : KeyOps K} {cmp : K → K → Ordering} {apart : K → K → Prop}

/-- No two keys in the map are apart. -/
def Together (apart : K → K → Prop) (l : List (K × V)) : Prop := ∀ e ∈ l, ∀ e' ∈ l, ¬ apart e.1 e'.1

/-- A search which returns has met no key that is apart from its own; `Q` says that it returns from a tree. -/
theorem search_together (hops : LawfulKeys ops cmp) (ha : ApartKeys ops cmp apart) (k : K) (Q : Tree K V → Prop)
    (hQ : ∀ k0 v0 b l r, Q (.node k0 v0 b l r) → ops.equal k0 k = false →
      ∃ c, ops.compare k0 k = some c ∧ (c < 0 → Q r) ∧ (¬ c < 0 → Q l)) (t : Tree K V) (hs : Increasing cmp (entries t))
    (ht : Together apart (entries t)) (h : Q t) : ∀ e ∈ entries t, ¬ apart e.1 k := by
  have := hops.trans
  induction t with
  | nil => simp [entries]
  | node k0 v0 b l r ihl ihr =>
    simp only [entries] at hs ht ⊢
    have hs' := increasing_append_cons hs
    have h0 : ∀ e ∈ entries l ++ (k0, v0) :: entries r, ¬ apart e.1 k0 := fun e he => ht e he (k0, v0) (by simp)
    by_cases heq : ops.equal k0 k = true
    · rw [← ha.eq _ _ ((hops.equal_iff _ _).mp heq)]
      exact h0
    · have hne : cmp k0 k ≠ .eq := fun h => heq ((hops.equal_iff _ _).mpr h)
      obtain ⟨c, hc, hr, hl⟩ := hQ _ _ _ _ _ h (by simpa using heq)
      have hk0 : ¬ apart k0 k := fun hp => by have := ha.panics _ _ hp; rw [hc] at this; simp at this
      obtain ⟨c1, -⟩ := hops.compare_sign _ _ _ hc
      by_cases hlt : c < 0
      · have hlt' := c1.mp hlt
        intro e he
        rcases List.mem_append.mp he with he | he
        · intro hp
          rcases ha.between _ _ _ (hs'.2.2.1 e he) hlt' hp with q | q
          · exact h0 e (by simp [he]) q
          · exact hk0 q
        · rcases List.mem_cons.mp he with rfl | he
          · exact hk0
          · exact ihr hs'.2.1 (fun e he e' he' => ht e (by simp [he]) e' (by simp [he'])) (hr hlt) e he
      · have hgt := not_lt_cases hne (fun h => hlt (c1.mpr h))
        intro e he
        rcases List.mem_append.mp he with he | he
        · exact ihl hs'.1 (fun e he e' he' => ht e (by simp [he]) e' (by simp [he'])) (hl hlt) e he
        · rcases List.mem_cons.mp he with rfl | he
          · exact hk0
          · intro hp
            rcases ha.between _ _ _ (cmp_swap_lt.mpr hgt) (hs'.2.2.2.1 e he) (ha.symm _ _ hp) with q | q
            · exact hk0 (ha.symm _ _ q)
            · exact h0 e (by simp [he]) (ha.symm _ _ q)

theorem putR_together (hops : LawfulKeys ops cmp) (ha : ApartKeys ops cmp apart) (k : K) (v : V) (t : Tree K V) (hs : Increasing cmp (entries t))
    (ht : Together apart (entries t)) (h : (t.putR ops k v).2 ≠ none) : ∀ e ∈ entries t, ¬ apart e.1 k := by
  refine search_together hops ha k (fun t => (t.putR ops k v).2 ≠ none) ?_ t hs ht h
  intro k0 v0 b l r h heq
  rw [Tree.putR.eq_def] at h
  simp only [heq, Bool.false_eq_true, if_false] at h
  cases hc : ops.compare k0 k with
  | none => rw [hc] at h; simp at h
  | some c =>
    rw [hc] at h
    simp only at h
    refine ⟨c, rfl, fun hlt hn => ?_, fun hlt hn => ?_⟩
    · rw [if_pos hlt] at h
      obtain ⟨T, o⟩ : ∃ T, r.putR ops k v = (T, none) := ⟨_, Prod.ext rfl hn⟩
      rw [o] at h; simp at h
    · rw [if_neg hlt] at h
      obtain ⟨T, o⟩ : ∃ T, l.putR ops k v = (T, none) := ⟨_, Prod.ext rfl hn⟩
      rw [o] at h; simp at h

theorem removeR_together (hops : LawfulKeys ops cmp) (ha : ApartKeys ops cmp apart) (k : K) (t : Tree K V) (hs : Increasing cmp (entries t))
    (ht : Together apart (entries t)) (h : (t.removeR ops k).2 ≠ none) : ∀ e ∈ entries t, ¬ apart e.1 k := by
  refine search_together hops ha k (fun t => (t.removeR ops k).2 ≠ none) ?_ t hs ht h
  intro k0 v0 b l r h heq
  rw [Tree.removeR.eq_def] at h
  simp only [heq, Bool.false_eq_true, if_false] at h
  cases hc : ops.compare k0 k with
  | none => rw [hc] at h; simp at h
  | some c =>
    rw [hc] at h
    simp only at h
    refine ⟨c, rfl, fun hlt hn => ?_, fun hlt hn => ?_⟩
    · rw [if_pos hlt] at h
      obtain ⟨T, o⟩ : ∃ T, r.removeR ops k = (T, none) := ⟨_, Prod.ext rfl hn⟩
      rw [o] at h; simp at h
    · rw [if_neg hlt] at h
      obtain ⟨T, o⟩ : ∃ T, l.removeR ops k = (T, none) := ⟨_, Prod.ext rfl hn⟩
      rw [o] at h; simp at h

theorem getR_together (hops : LawfulKeys ops cmp) (ha : ApartKeys ops cmp apart) (k : K) (t : Tree K V) (hs : Increasing cmp (entries t))
    (ht : Together apart (entries t)) (h : t.getR ops k ≠ none) : ∀ e ∈ entries t, ¬ apart e.1 k := by
  refine search_together hops ha k (fun t => t.getR ops k ≠ none) ?_ t hs ht h
  intro k0 v0 b l r h heq
  rw [Tree.getR.eq_def] at h
  simp only [heq, Bool.false_eq_true, if_false] at h
  cases hc : ops.compare k0 k with
  | none => rw [hc] at h; simp at h
  | some c =>
    rw [hc] at h
    simp only at h
    refine ⟨c, rfl, fun hlt hn => ?_, fun hlt hn => ?_⟩
    · rw [if_pos hlt, hn] at h; simp at h
    · rw [if_neg hlt, hn] at h; simp at h

theorem together_guarded (hops : LawfulKeys ops cmp) (ha : ApartKeys ops cmp apart) {m : SortedMap K V} (ht : Together apart (entries m.root)) :
    GuardedMap ops cmp m := by
  intro e he e' he' h
  rcases ha.guarded _ _ h with h | h
  · exact h
  · exact absurd h (ht e he e' he')

/-- What is put into a map that has no two keys apart. -/
theorem put_together (hops : LawfulKeys ops cmp) (ha : ApartKeys ops cmp apart) (hself : ∀ k, ¬ apart k k) (m : SortedMap K V) (hm : GoodMap cmp m)
    (ht : Together apart (entries m.root)) (k : K) (v : V) :
    ((∃ e ∈ entries m.root, ops.compare e.1 k = none) ∧ m.put ops k v = (m, none)) ∨
    (∃ m', m.put ops k v = (m', some (contents cmp m k)) ∧ GoodMap cmp m' ∧ Together apart (entries m'.root) ∧
      contents cmp m' = (contents cmp m).put cmp k v) := by
  have := hops.trans
  rcases putNode_spec hops m hm k v with ⟨h1, h2⟩ | ⟨m', h1, h2, h3⟩
  · left; exact ⟨h1, by simp [SortedMap.put, h2]⟩
  · right
    have hk : ∀ e ∈ entries m.root, ¬ apart e.1 k := by
      refine putR_together hops ha k v m.root hm.increasing ht ?_
      intro hn
      rw [putNode_eq] at h1
      obtain ⟨T, o⟩ : ∃ T, m.root.putR ops k v = (T, none) := ⟨_, Prod.ext rfl hn⟩
      rw [o] at h1; simp at h1
    refine ⟨m', by simp [SortedMap.put, h1, contents, lookL], h2, ?_, by unfold contents; rw [h3, lookL_insL hm.increasing]⟩
    rw [h3]
    intro e he e' he'
    simp only [insL, List.mem_append, List.mem_cons, List.mem_filter] at he he'
    rcases he with he | rfl | he <;> rcases he' with he' | rfl | he'
    · exact ht _ he.1 _ he'.1
    · exact hk _ he.1
    · exact ht _ he.1 _ he'.1
    · exact fun h => hk _ he'.1 (ha.symm _ _ h)
    · exact hself _
    · exact fun h => hk _ he'.1 (ha.symm _ _ h)
    · exact ht _ he.1 _ he'.1
    · exact hk _ he.1
    · exact ht _ he.1 _ he'.1

theorem remove_together (hops : LawfulKeys ops cmp) (ha : ApartKeys ops cmp apart) (m : SortedMap K V) (hm : GoodMap cmp m)
    (ht : Together apart (entries m.root)) (k : K) :
    ((∃ e ∈ entries m.root, ops.compare e.1 k = none) ∧ m.remove ops k = (m, none)) ∨
    ∃ m', m.remove ops k = (m', some (contents cmp m k)) ∧ GoodMap cmp m' ∧ Together apart (entries m'.root) ∧
      contents cmp m' = (contents cmp m).remove cmp k := by
  have := hops.trans
  rcases removeNode_local hops m (together_guarded hops ha ht) hm k with ⟨h1, h2⟩ | ⟨m', h1, h2, h3⟩
  · left; exact ⟨h1, by simp [SortedMap.remove, h2]⟩
  · right
    refine ⟨m', by simp [SortedMap.remove, h1, contents, lookL], h2, ?_, by unfold contents; rw [h3, lookL_remL hm.increasing]⟩
    rw [h3]
    intro e he e' he'
    exact ht e (List.mem_of_mem_filter he) e' (List.mem_of_mem_filter he')

theorem runMap_together (hops : LawfulKeys ops cmp) (ha : ApartKeys ops cmp apart) (hself : ∀ k, ¬ apart k k) (os : List (MapOp K V))
    (m : SortedMap K V) (hm : GoodMap cmp m) (ht : Together apart (entries m.root)) :
    GoodMap cmp (runMap ops m os).1 ∧ Together apart (entries (runMap ops m os).1.root) ∧
      FMap.Runs cmp (contents cmp m) os (runMap ops m os).2 (contents cmp (runMap ops m os).1) := by
  induction os generalizing m with
  | nil => exact ⟨hm, ht, .nil _⟩
  | cons o os ih =>
    cases o with
    | put k v =>
      simp only [runMap]
      rcases put_together hops ha hself m hm ht k v with ⟨-, h⟩ | ⟨m', h, hm', ht', hc⟩
      · rw [h]
        obtain ⟨i1, i2, i3⟩ := ih m hm ht
        exact ⟨i1, i2, .crash _ _ _ _ _ i3⟩
      · rw [h]
        obtain ⟨i1, i2, i3⟩ := ih m' hm' ht'
        refine ⟨i1, i2, .put _ _ _ _ _ _ ?_⟩
        rw [← hc]; exact i3
    | remove k =>
      simp only [runMap]
      rcases remove_together hops ha m hm ht k with ⟨-, h⟩ | ⟨m', h, hm', ht', hc⟩
      · rw [h]
        obtain ⟨i1, i2, i3⟩ := ih m hm ht
        exact ⟨i1, i2, .crash _ _ _ _ _ i3⟩
      · rw [h]
        obtain ⟨i1, i2, i3⟩ := ih m' hm' ht'
        refine ⟨i1, i2, .remove _ _ _ _ _ ?_⟩
        rw [← hc]; exact i3

end

/-! ### The order of comparable objects -/

theorem typeNo_ints (k k' : ElemKind) (s t : Option (List Int)) : typeNo (.ints k s) = typeNo (.ints k' t) ↔ k = k' := by
  cases k <;> cases k' <;> simp [typeNo]

theorem typeNo_lt (k : ElemKind) (s : Option (List Int)) : typeNo (.ints k s) < 8 := by
  cases k <;> simp [typeNo]

theorem typeNo_objs (l : List CmpObj) : typeNo (.objs l) = 8 := rfl

mutual
theorem objOrder_swap : ∀ a b : CmpObj, objOrder b a = (objOrder a b).swap
  | .objs l, b => by
    cases b with
    | objs m => simp only [objOrder]; exact objsOrder_swap l m
    | _ => simp only [objOrder]; exact Std.OrientedCmp.eq_swap
  | .ints k s, b => by
    cases b with
    | ints k' t =>
      simp only [objOrder, Ordering.swap_then]
      rw [Std.OrientedCmp.eq_swap (cmp := compare) (a := typeNo (.ints k' t)), Std.OrientedCmp.eq_swap (cmp := compare) (a := t.getD [])]
    | _ => simp only [objOrder]; exact Std.OrientedCmp.eq_swap
  | .absent, b => by cases b <;> (simp only [objOrder]; exact Std.OrientedCmp.eq_swap)
  | .nilInts _, b => by cases b <;> (simp only [objOrder]; exact Std.OrientedCmp.eq_swap)
  | .nilObjs, b => by cases b <;> (simp only [objOrder]; exact Std.OrientedCmp.eq_swap)
  | .objsNil, b => by cases b <;> (simp only [objOrder]; exact Std.OrientedCmp.eq_swap)

theorem objsOrder_swap : ∀ l m : List CmpObj, objsOrder m l = (objsOrder l m).swap
  | [], [] => rfl
  | [], _ :: _ => rfl
  | _ :: _, [] => rfl
  | a :: l, b :: m => by
    simp only [objsOrder, Ordering.swap_then]
    rw [objOrder_swap a b, objsOrder_swap l m]
end

mutual
theorem objOrder_eq : ∀ a b : CmpObj, clean a → clean b → (objOrder a b = .eq ↔ a = b)
  | .objs l, b, ha, hb => by
    cases b with
    | objs m =>
      simp only [objOrder, CmpObj.objs.injEq]
      exact objsOrder_eq l m ha hb
    | ints k t =>
      have := typeNo_lt k t
      simp only [objOrder, Nat.compare_eq_eq, typeNo_objs]
      constructor
      · omega
      · intro h; cases h
    | _ => exact absurd hb (by simp [clean])
  | .ints k s, b, ha, hb => by
    cases b with
    | ints k' t =>
      obtain ⟨s, rfl⟩ : ∃ x, s = some x := Option.ne_none_iff_exists'.mp ha
      obtain ⟨t, rfl⟩ : ∃ x, t = some x := Option.ne_none_iff_exists'.mp hb
      simp only [objOrder, Ordering.then_eq_eq, Option.getD_some, Std.LawfulEqCmp.compare_eq_iff_eq, typeNo_ints, CmpObj.ints.injEq,
        Option.some.injEq]
    | objs m =>
      have := typeNo_lt k s
      simp only [objOrder, Nat.compare_eq_eq, typeNo_objs]
      constructor
      · omega
      · intro h; cases h
    | _ => exact absurd hb (by simp [clean])
  | .absent, _, ha, _ => absurd ha (by simp [clean])
  | .nilInts _, _, ha, _ => absurd ha (by simp [clean])
  | .nilObjs, _, ha, _ => absurd ha (by simp [clean])
  | .objsNil, _, ha, _ => absurd ha (by simp [clean])

theorem objsOrder_eq : ∀ l m : List CmpObj, cleans l → cleans m → (objsOrder l m = .eq ↔ l = m)
  | [], [], _, _ => by simp [objsOrder]
  | [], _ :: _, _, _ => by simp [objsOrder]
  | _ :: _, [], _, _ => by simp [objsOrder]
  | a :: l, b :: m, ha, hb => by
    simp only [objsOrder, Ordering.then_eq_eq, List.cons.injEq]
    rw [objOrder_eq a b ha.1 hb.1, objsOrder_eq l m ha.2 hb.2]
end

mutual
theorem objOrder_trans : ∀ a b c : CmpObj, clean a → clean b → clean c → objOrder a b = .lt → objOrder b c = .lt → objOrder a c = .lt
  | .objs l, b, c, ha, hb, hc => by
    intro h1 h2
    cases b with
    | objs m =>
      cases c with
      | objs n => exact objsOrder_trans l m n ha hb hc h1 h2
      | ints k t => have := typeNo_lt k t; simp only [objOrder, typeNo_objs, Nat.compare_eq_lt] at h2; omega
      | _ => exact absurd hc (by simp [clean])
    | ints k t => have := typeNo_lt k t; simp only [objOrder, typeNo_objs, Nat.compare_eq_lt] at h1; omega
    | _ => exact absurd hb (by simp [clean])
  | .ints k s, b, c, ha, hb, hc => by
    intro h1 h2
    cases b with
    | objs m =>
      cases c with
      | objs n => exact h1
      | ints k t => have := typeNo_lt k t; simp only [objOrder, typeNo_objs, Nat.compare_eq_lt] at h2; omega
      | _ => exact absurd hc (by simp [clean])
    | ints k' t =>
      cases c with
      | objs n => have := typeNo_lt k s; simp only [objOrder, typeNo_objs, Nat.compare_eq_lt]; omega
      | ints k'' u =>
        simp only [objOrder, Ordering.then_eq_lt, Nat.compare_eq_lt, Nat.compare_eq_eq] at h1 h2 ⊢
        rcases h1 with h1 | ⟨h1, h1'⟩ <;> rcases h2 with h2 | ⟨h2, h2'⟩
        · left; omega
        · left; omega
        · left; omega
        · right; exact ⟨h1.trans h2, Std.TransCmp.lt_trans h1' h2'⟩
      | _ => exact absurd hc (by simp [clean])
    | _ => exact absurd hb (by simp [clean])
  | .absent, _, _, ha, _, _ => absurd ha (by simp [clean])
  | .nilInts _, _, _, ha, _, _ => absurd ha (by simp [clean])
  | .nilObjs, _, _, ha, _, _ => absurd ha (by simp [clean])
  | .objsNil, _, _, ha, _, _ => absurd ha (by simp [clean])

theorem objsOrder_trans : ∀ l m n : List CmpObj, cleans l → cleans m → cleans n → objsOrder l m = .lt → objsOrder m n = .lt → objsOrder l n = .lt
  | [], _, [], _, _, _ => by
    intro h1 h2
    rename_i m _ _ _
    cases m
    · simp [objsOrder] at h1
    · simp [objsOrder] at h2
  | [], _, _ :: _, _, _, _ => fun _ _ => rfl
  | _ :: _, [], _, _, _, _ => by simp [objsOrder]
  | _ :: _, _ :: _, [], _, _, _ => by simp [objsOrder]
  | a :: l, b :: m, c :: n, ha, hb, hc => by
    simp only [objsOrder, Ordering.then_eq_lt]
    rintro (h1 | ⟨h1, h1'⟩) (h2 | ⟨h2, h2'⟩)
    · left; exact objOrder_trans a b c ha.1 hb.1 hc.1 h1 h2
    · left; rw [← (objOrder_eq b c hb.1 hc.1).mp h2]; exact h1
    · left; rw [(objOrder_eq a b ha.1 hb.1).mp h1]; exact h2
    · right
      rw [(objOrder_eq a b ha.1 hb.1).mp h1]
      exact ⟨h2, objsOrder_trans l m n ha.2 hb.2 hc.2 h1' h2'⟩
end

instance cleanOrder_trans : Std.TransCmp cleanOrder where
  eq_swap := objOrder_swap _ _
  isLE_trans := by
    intro a b c h1 h2
    have e : ∀ {a b : CleanObj}, cleanOrder a b = .eq ↔ a = b := fun {a b} => by
      rw [Subtype.ext_iff]; exact objOrder_eq a.1 b.1 a.2 b.2
    rcases hab : cleanOrder a b with - | - | -
    · rcases hbc : cleanOrder b c with - | - | -
      · have := objOrder_trans a.1 b.1 c.1 a.2 b.2 c.2 hab hbc
        unfold cleanOrder; rw [this]; rfl
      · rw [← e.mp hbc, hab]; rfl
      · rw [hbc] at h2; simp at h2
    · rw [e.mp hab]; exact h2
    · rw [hab] at h1; simp at h1

theorem objsOrder_append : ∀ p s t : List CmpObj, cleans p → objsOrder (p ++ s) (p ++ t) = objsOrder s t
  | [], _, _, _ => rfl
  | a :: p, s, t, h => by
    simp only [List.cons_append, objsOrder]
    rw [(objOrder_eq a a h.1 h.1).mpr rfl, objsOrder_append p s t h.2]; rfl

theorem ints_append (p s t : List Int) : compare (p ++ s) (p ++ t) = compare s t := by
  induction p with
  | nil => rfl
  | cons a p ih => simp [List.compare_cons_cons, ih]

theorem smaller_order {a b : CmpObj} (h : Smaller a b) : clean a → clean b → objOrder a b = .lt := by
  induction h with
  | ints k p s t x y hxy =>
    intro _ _
    simp [objOrder, Ordering.then_eq_lt, ints_append, List.compare_cons_cons, Int.compare_eq_lt, hxy]
    exact .inr ((typeNo_ints k k _ _).mpr rfl)
  | objs p s t x y _ ih =>
    intro ha hb
    have ha := (cleans_append _ _).mp ha
    have hb := (cleans_append _ _).mp hb
    simp only [objOrder]
    rw [objsOrder_append p _ _ ha.1]
    simp only [objsOrder]
    rw [ih ha.2.1 hb.2.1]; rfl

theorem shorter_order {a b : CmpObj} (h : Shorter a b) : clean a → clean b → objOrder a b = .lt := by
  induction h with
  | ints k p t y =>
    intro _ _
    have := ints_append p [] (y :: t)
    simp at this
    simp [objOrder, Ordering.then_eq_lt, this]
    exact .inr ((typeNo_ints k k _ _).mpr rfl)
  | objs p t y =>
    intro ha hb
    simp only [objOrder]
    have := objsOrder_append p [] (y :: t) ha
    simp at this
    rw [this]; rfl
  | inside p s t x y _ ih =>
    intro ha hb
    have ha := (cleans_append _ _).mp ha
    have hb := (cleans_append _ _).mp hb
    simp only [objOrder]
    rw [objsOrder_append p _ _ ha.1]
    simp only [objsOrder]
    rw [ih ha.2.1 hb.2.1]; rfl

theorem mismatch_symm {a b : CmpObj} (h : Mismatch a b) : Mismatch b a := by
  induction h with
  | here a b h => exact .here _ _ h.symm
  | inside p s t x y _ ih => exact .inside _ _ _ _ _ ih

/-- What lies between two lists with a common prefix has the same prefix. -/
theorem between_prefix : ∀ (p s t m : List CmpObj) (x y : CmpObj), cleans p → cleans m → objsOrder (p ++ x :: s) m = .lt → objsOrder m (p ++ y :: t) = .lt →
    ∃ z u, m = p ++ z :: u ∧ objOrder x z ≠ .gt ∧ objOrder z y ≠ .gt
  | [], s, t, m, x, y, _, hm, h1, h2 => by
    cases m with
    | nil => simp [objsOrder] at h1
    | cons z u =>
      refine ⟨z, u, rfl, ?_, ?_⟩
      · simp only [List.nil_append, objsOrder, Ordering.then_eq_lt] at h1
        rcases h1 with h1 | ⟨h1, -⟩ <;> simp [h1]
      · simp only [List.nil_append, objsOrder, Ordering.then_eq_lt] at h2
        rcases h2 with h2 | ⟨h2, -⟩ <;> simp [h2]
  | a :: p, s, t, m, x, y, hp, hm, h1, h2 => by
    cases m with
    | nil => simp [objsOrder] at h1
    | cons z u =>
      simp only [List.cons_append, objsOrder, Ordering.then_eq_lt] at h1 h2
      have hza := objOrder_swap a z
      rcases h1 with h1 | ⟨h1, h1'⟩
      · rw [h1] at hza
        rcases h2 with h2 | ⟨h2, -⟩ <;> (rw [h2] at hza; simp at hza)
      · have e := (objOrder_eq a z hp.1 hm.1).mp h1
        subst e
        rcases h2 with h2 | ⟨h2, h2'⟩
        · rw [h1] at h2; simp at h2
        · obtain ⟨z, u, rfl, q⟩ := between_prefix p s t u x y hp.2 hm.2 h1' h2'
          exact ⟨z, u, rfl, q⟩

theorem mismatch_between {a c : CmpObj} (h : Mismatch a c) : clean a → clean c → ∀ b, clean b → objOrder a b = .lt → objOrder b c = .lt →
    Mismatch a b ∨ Mismatch b c := by
  induction h with
  | here a c h =>
    intro _ _ b _ _ _
    by_cases h' : typeOf a = typeOf b
    · right; exact .here _ _ (h' ▸ h)
    · left; exact .here _ _ h'
  | inside p s t x y hxy ih =>
    intro ha hc b hb h1 h2
    have ha' := (cleans_append _ _).mp ha
    have hc' := (cleans_append _ _).mp hc
    cases b with
    | objs m =>
      obtain ⟨z, u, rfl, q1, q2⟩ := between_prefix p s t m x y ha'.1 hb h1 h2
      have hb' := (cleans_append _ _).mp hb
      rcases hxz : objOrder x z with - | - | -
      · rcases hzy : objOrder z y with - | - | -
        · rcases ih ha'.2.1 hc'.2.1 z hb'.2.1 hxz hzy with i | i
          · left; exact .inside _ _ _ _ _ i
          · right; exact .inside _ _ _ _ _ i
        · left; rw [(objOrder_eq z y hb'.2.1 hc'.2.1).mp hzy]; exact .inside _ _ _ _ _ hxy
        · exact absurd hzy q2
      · right; rw [← (objOrder_eq x z ha'.2.1 hb'.2.1).mp hxz]; exact .inside _ _ _ _ _ hxy
      · exact absurd hxz q1
    | ints k t => left; exact .here _ _ (by simp [typeOf])
    | _ => exact absurd hb (by simp [clean])

theorem mismatch_irrefl (a : CmpObj) (ha : clean a) : ¬ Mismatch a a := by
  intro h
  have := mismatch_compare h ha ha
  rw [compare_self a ha] at this
  simp at this

mutual
theorem sameShape_trans : ∀ a b c : CmpObj, sameShape a b → sameShape b c → sameShape a c
  | .ints k (some a), b, c, h1, h2 => by
    cases b with
    | ints k' b =>
      cases b with
      | none => simp [sameShape] at h1
      | some b =>
        cases c with
        | ints k'' c =>
          cases c with
          | none => simp [sameShape] at h2
          | some c => exact ⟨h1.1.trans h2.1, h1.2.trans h2.2⟩
        | _ => simp [sameShape] at h2
    | _ => simp [sameShape] at h1
  | .objs l, b, c, h1, h2 => by
    cases b with
    | objs m =>
      cases c with
      | objs n => exact sameShapes_trans l m n h1 h2
      | _ => simp [sameShape] at h2
    | _ => simp [sameShape] at h1
  | .ints k none, _, _, h1, _ => by simp [sameShape] at h1
  | .absent, _, _, h1, _ => by simp [sameShape] at h1
  | .nilInts _, _, _, h1, _ => by simp [sameShape] at h1
  | .nilObjs, _, _, h1, _ => by simp [sameShape] at h1
  | .objsNil, _, _, h1, _ => by simp [sameShape] at h1

theorem sameShapes_trans : ∀ l m n : List CmpObj, sameShapes l m → sameShapes m n → sameShapes l n
  | [], [], [], _, _ => trivial
  | a :: l, b :: m, c :: n, h1, h2 => ⟨sameShape_trans a b c h1.1 h2.1, sameShapes_trans l m n h1.2 h2.2⟩
  | [], _ :: _, _, h1, _ => by simp [sameShapes] at h1
  | _ :: _, [], _, h1, _ => by simp [sameShapes] at h1
  | [], [], _ :: _, _, h2 => by simp [sameShapes] at h2
  | _ :: _, _ :: _, [], _, h2 => by simp [sameShapes] at h2
end

/-! ### C201 A sorted map can be indexed by comparable objects -/

/-- Comparable objects as keys of a sorted map, as used by /repo/src/collection/avl.go:172, :179, :225, :242, :266, :270, with the methods of
/repo/src/collection/comparable.go:52-104, :120-161 and their copies. -/
def objKeyOps : KeyOps CleanObj where
  equal a b := match a.1.equal b.1 with
    | .ok v => v
    | _ => false
  compare a b := match a.1.compare b.1 with
    | .ok c => some c
    | _ => none

/-- The key `k` cannot be looked up behind `e`: it ends where `e` goes on, or they have slices of different types where they differ first. -/
def ObjBlocks (e k : CleanObj) : Prop := Shorter k.1 e.1 ∨ Mismatch e.1 k.1

theorem objCompare_none (a b : CleanObj) : objKeyOps.compare a b = none ↔ ObjBlocks a b := by
  have h := (C123_outcome_partial a.1 b.1 a.2 b.2).2.2.2
  unfold ObjBlocks
  rw [← h]
  simp only [objKeyOps]
  rcases compare_outcome a.1 b.1 a.2 b.2 with ⟨q, -⟩ | ⟨q, -⟩ | ⟨q, -⟩ | ⟨q, -⟩ <;> simp [q]

theorem objKeyOps_lawful : LawfulKeys objKeyOps cleanOrder where
  trans := inferInstance
  equal_iff a b := by
    obtain ⟨v, h1, h2⟩ := equal_clean a.1 b.1 a.2 b.2
    simp only [objKeyOps, h1, h2, cleanOrder]
    exact (objOrder_eq a.1 b.1 a.2 b.2).symm
  compare_sign a b c h := by
    obtain ⟨o1, o2, o3, -⟩ := C123_outcome_partial a.1 b.1 a.2 b.2
    simp only [objKeyOps] at h
    rcases compare_outcome a.1 b.1 a.2 b.2 with ⟨q, -⟩ | ⟨q, -⟩ | ⟨q, -⟩ | ⟨q, -⟩
    all_goals (simp only [q, Option.some.injEq, reduceCtorEq] at h)
    · subst h
      have : cleanOrder a b = .lt := by
        rcases o1.mp q with r | r
        · exact smaller_order r a.2 b.2
        · exact shorter_order r a.2 b.2
      simp [this]
    · subst h
      have : cleanOrder a b = .eq := (objOrder_eq a.1 b.1 a.2 b.2).mpr (o2.mp q)
      simp [this]
    · subst h
      have : cleanOrder a b = .gt := by
        unfold cleanOrder
        rw [objOrder_swap b.1 a.1, smaller_order (o3.mp q) b.2 a.2]; rfl
      simp [this]

theorem objKeyOps_apart : ApartKeys objKeyOps cleanOrder (fun a b => Mismatch a.1 b.1) where
  eq a b h := Subtype.ext ((objOrder_eq a.1 b.1 a.2 b.2).mp h)
  symm _ _ h := mismatch_symm h
  panics a b h := (objCompare_none a b).mpr (.inr h)
  guarded a b h := by
    rcases (objCompare_none a b).mp h with h | h
    · left; unfold cleanOrder; rw [objOrder_swap b.1 a.1, shorter_order h b.2 a.2]; rfl
    · exact .inr h
  between a b c h1 h2 h3 := mismatch_between h3 a.2 c.2 b.1 b.2 h1 h2

/-- The full claim of C201: whatever the objects, every call returns what the finite map returns. -/
def SortedMapOfObjects : Prop := ∀ os : List (MapOp CleanObj Nat),
  (runMap objKeyOps SortedMap.new os).2 = (FMap.run cleanOrder FMap.empty os).2.map some

/-- C201: the keys of the order of the specification are equal if they are the same, and it extends that of `Compare`. -/
theorem C201_order (a b : CleanObj) : (cleanOrder a b = .eq ↔ a = b) ∧
    (Smaller a.1 b.1 ∨ Shorter a.1 b.1 → cleanOrder a b = .lt ∧ cleanOrder b a = .gt) := by
  refine ⟨?_, fun h => ?_⟩
  · rw [Subtype.ext_iff]; exact objOrder_eq a.1 b.1 a.2 b.2
  · have : objOrder a.1 b.1 = .lt := by
      rcases h with h | h
      · exact smaller_order h a.2 b.2
      · exact shorter_order h a.2 b.2
    exact ⟨this, by unfold cleanOrder; rw [objOrder_swap a.1 b.1, this]; rfl⟩

theorem objMap_good (os : List (MapOp CleanObj V)) :
    GoodMap cleanOrder (runMap objKeyOps SortedMap.new os).1 ∧
      Together (fun a b => Mismatch a.1 b.1) (entries (runMap objKeyOps (SortedMap.new : SortedMap CleanObj V) os).1.root) ∧
      FMap.Runs cleanOrder FMap.empty os (runMap objKeyOps SortedMap.new os).2
        (contents cleanOrder (runMap objKeyOps (SortedMap.new : SortedMap CleanObj V) os).1) := by
  have := runMap_together objKeyOps_lawful objKeyOps_apart (fun k => mismatch_irrefl k.1 k.2) os (SortedMap.new : SortedMap CleanObj V)
    (new_good (cmp := cleanOrder)) (by intro e he; simp [SortedMap.new, entries] at he)
  rwa [contents_new] at this

/-- C201, what holds of all objects: a call returns what the finite map returns, or it panics and has no effect, and it panics only if its key
is blocked by a key in the map.  Iteration finds every key smaller or shorter than the ones after it. -/
theorem C201_blocked_partial (os : List (MapOp CleanObj V)) :
    let m := (runMap objKeyOps SortedMap.new os).1
    ∃ f : FMap CleanObj V, FMap.Runs cleanOrder FMap.empty os (runMap objKeyOps SortedMap.new os).2 f ∧
      (∀ k, m.get objKeyOps k = some (f k) ∨ m.get objKeyOps k = none ∧ ∃ e, (f e).isSome ∧ ObjBlocks e k) ∧
      (∀ k v, (m.put objKeyOps k v).2 = some (f k) ∨ m.put objKeyOps k v = (m, none) ∧ ∃ e, (f e).isSome ∧ ObjBlocks e k) ∧
      (∀ k, (m.remove objKeyOps k).2 = some (f k) ∨ m.remove objKeyOps k = (m, none) ∧ ∃ e, (f e).isSome ∧ ObjBlocks e k) ∧
      (∃ n : Nat, m.size = n ∧ f.HasSize cleanOrder n) ∧
      (entries m.root).Pairwise (fun e e' => Smaller e.1.1 e'.1.1 ∨ Shorter e.1.1 e'.1.1) ∧
      ∀ k v, (k, v) ∈ entries m.root ↔ f k = some v := by
  intro m
  obtain ⟨hm, ht, hr⟩ := objMap_good os
  have key : ∀ k, (∃ e ∈ entries m.root, objKeyOps.compare e.1 k = none) → ∃ e, (contents cleanOrder m e).isSome ∧ ObjBlocks e k := by
    rintro k ⟨e, he, h⟩
    refine ⟨e.1, ?_, (objCompare_none _ _).mp h⟩
    unfold contents lookL
    rw [Option.isSome_map, findL_isSome_iff]
    exact ⟨e, he, Std.ReflCmp.compare_self⟩
  refine ⟨_, hr, fun k => ?_, fun k v => ?_, fun k => ?_, ⟨_, hm.size, lookL_hasSize hm.increasing⟩, ?_, fun k v => ?_⟩
  · rcases get_step objKeyOps_lawful _ hm k with ⟨h1, h⟩ | h
    · exact .inr ⟨h, key k h1⟩
    · exact .inl h
  · rcases put_step objKeyOps_lawful _ hm k v with ⟨h1, h⟩ | ⟨m', h, -⟩
    · exact .inr ⟨h, key k h1⟩
    · left; rw [h]
  · rcases remove_together objKeyOps_lawful objKeyOps_apart _ hm ht k with ⟨h1, h⟩ | ⟨m', h, -⟩
    · exact .inr ⟨h, key k h1⟩
    · left; rw [h]
  · have hi := hm.increasing
    refine List.Pairwise.imp_of_mem ?_ hi
    intro e e' he he' hlt
    have hne : e.1.1 ≠ e'.1.1 := fun h => by
      rw [show e.1 = e'.1 from Subtype.ext h, Std.ReflCmp.compare_self (cmp := cleanOrder)] at hlt; simp at hlt
    obtain ⟨o1, o2, o3, o4⟩ := C123_outcome_partial e.1.1 e'.1.1 e.1.2 e'.1.2
    have hgt : ¬ cleanOrder e'.1 e.1 = .lt := fun h => by
      have := objOrder_swap e.1.1 e'.1.1
      unfold cleanOrder at h hlt
      rw [h, hlt] at this; simp at this
    rcases compare_outcome e.1.1 e'.1.1 e.1.2 e'.1.2 with ⟨q, -⟩ | ⟨q, -⟩ | ⟨q, -⟩ | ⟨q, -⟩
    · exact o1.mp q
    · exact absurd (o2.mp q) hne
    · exact absurd (smaller_order (o3.mp q) e'.1.2 e.1.2) hgt
    · rcases o4.mp q with r | r
      · exact absurd (shorter_order r e'.1.2 e.1.2) hgt
      · exact absurd r (ht e he e' he')
  · unfold contents lookL
    simp only [Option.map_eq_some_iff, findL_eq_some_iff hm.increasing]
    constructor
    · intro h; exact ⟨(k, v), ⟨h, Std.ReflCmp.compare_self⟩, rfl⟩
    · rintro ⟨⟨k', v'⟩, ⟨h, he⟩, rfl⟩
      rw [← objKeyOps_apart.eq _ _ he]; exact h

/-- C201: a map with one key that has a slice of another type where it differs first from `k` can be asked for nothing about `k`: every call
panics, wherever that key is in the tree. -/
theorem C201_types_partial (os : List (MapOp CleanObj V)) (k e : CleanObj) (v w : V) :
    let m := (runMap objKeyOps SortedMap.new os).1
    m.get objKeyOps e = some (some w) → Mismatch e.1 k.1 →
      m.get objKeyOps k = none ∧ m.put objKeyOps k v = (m, none) ∧ m.remove objKeyOps k = (m, none) := by
  intro m he hmis
  obtain ⟨hm, ht, -⟩ := objMap_good os
  have hmem : ∃ x ∈ entries m.root, x.1 = e := by
    rcases get_step objKeyOps_lawful _ hm e with ⟨-, h⟩ | h
    · rw [he] at h; simp at h
    · rw [he, Option.some.injEq] at h
      have : (contents cleanOrder m e).isSome := by rw [← h]; rfl
      unfold contents lookL at this
      rw [Option.isSome_map, findL_isSome_iff] at this
      obtain ⟨x, hx, hxe⟩ := this
      exact ⟨x, hx, objKeyOps_apart.eq _ _ hxe⟩
  obtain ⟨x, hx, rfl⟩ := hmem
  have hl := objKeyOps_lawful
  have hap := objKeyOps_apart
  refine ⟨?_, ?_, ?_⟩
  · by_contra hn
    refine getR_together hl hap k m.root hm.increasing ht ?_ x hx hmis
    intro h
    simp [SortedMap.get, SortedMap.getNode, h] at hn
  · rcases put_step hl _ hm k v with ⟨-, h⟩ | ⟨m', h, -⟩
    · exact h
    · exfalso
      refine putR_together hl hap k v m.root hm.increasing ht ?_ x hx hmis
      intro hn
      have h' : (m.put objKeyOps k v).2 ≠ none := by rw [h]; simp
      apply h'
      obtain ⟨T, o⟩ : ∃ T, m.root.putR objKeyOps k v = (T, none) := ⟨_, Prod.ext rfl hn⟩
      simp [SortedMap.put, putNode_eq, o]
  · rcases remove_together hl hap _ hm ht k with ⟨-, h⟩ | ⟨m', h, -⟩
    · exact h
    · exfalso
      refine removeR_together hl hap k m.root hm.increasing ht ?_ x hx hmis
      intro hn
      have h' : (m.remove objKeyOps k).2 ≠ none := by rw [h]; simp
      apply h'
      obtain ⟨T, o⟩ : ∃ T, m.root.removeR objKeyOps k = (T, none) := ⟨_, Prod.ext rfl hn⟩
      simp [SortedMap.remove, SortedMap.removeNode, o]

/-- C201 for objects of which none blocks another: the map is a finite map. -/
theorem C201_unblocked_partial (P : CleanObj → Prop) (hP : ∀ a b, P a → P b → ¬ ObjBlocks a b)
    (os : List (MapOp CleanObj V)) (hos : ∀ o ∈ os, P (opKey o)) :
    (runMap objKeyOps SortedMap.new os).2 = (FMap.run cleanOrder FMap.empty os).2.map some ∧
      ∀ k, P k → ((runMap objKeyOps SortedMap.new os).1).get objKeyOps k = some ((FMap.run cleanOrder FMap.empty os).1 k) := by
  have hP' : ∀ a b, P a → P b → objKeyOps.compare a b ≠ none := fun a b ha hb h => hP a b ha hb ((objCompare_none a b).mp h)
  obtain ⟨h1, h2, h3, h4⟩ := runs_keys objKeyOps_lawful P os hos hP' SortedMap.new new_good (by simp [SortedMap.new, entries])
  rw [contents_new] at h1 h2
  refine ⟨h1, fun k hk => ?_⟩
  rcases get_step objKeyOps_lawful _ h3 k with ⟨⟨e, he, h⟩, -⟩ | h
  · exact absurd h (hP' _ _ (h4 e he) hk)
  · rw [h, h2]

/-- C201 for objects of the same types and lengths everywhere: the map is a finite map. -/
theorem C201_same_shape_partial (x : CmpObj) (os : List (MapOp CleanObj V)) (hos : ∀ o ∈ os, sameShape x (opKey o).1) :
    (runMap objKeyOps SortedMap.new os).2 = (FMap.run cleanOrder FMap.empty os).2.map some ∧
      ∀ k : CleanObj, sameShape x k.1 → ((runMap objKeyOps SortedMap.new os).1).get objKeyOps k = some ((FMap.run cleanOrder FMap.empty os).1 k) := by
  refine C201_unblocked_partial (fun k => sameShape x k.1) ?_ os hos
  rintro a b ha hb (h | h)
  · exact not_shorter h (sameShape_trans _ _ _ (sameShape_symm _ _ hb) ha)
  · exact not_mismatch h (sameShape_trans _ _ _ (sameShape_symm _ _ ha) hb)


/-- A slice of integers as a key. -/
def intsKey (k : ElemKind) (l : List Int) : CleanObj := ⟨.ints k (some l), by simp [clean]⟩

/-- Two slices of integers as a key. -/
def pairKey (k k' : ElemKind) (l l' : List Int) : CleanObj := ⟨.objs [.ints k (some l), .ints k' (some l')], by simp [clean, cleans]⟩

/-- C201 does not hold: a key of another type than those in the map, or one that ends where one in the map goes on, cannot be put. -/
theorem C201_refuted : ¬ SortedMapOfObjects ∧
    (runMap objKeyOps SortedMap.new [.put (intsKey .int32 [1]) 1, .put (intsKey .int64 [1]) 2]).2 = [some none, none] ∧
    (runMap objKeyOps SortedMap.new [.put (intsKey .byte [1, 2]) 1, .put (intsKey .byte [1]) 2]).2 = [some none, none] := by
  have h1 : (runMap objKeyOps SortedMap.new [.put (intsKey .int32 [1]) 1, .put (intsKey .int64 [1]) 2]).2 = [some none, none] := by decide +kernel
  refine ⟨fun h => ?_, h1, by decide +kernel⟩
  have := h [.put (intsKey .int32 [1]) 1, .put (intsKey .int64 [1]) 2]
  rw [h1] at this
  simp [FMap.run] at this

/-- In the order of numbers, with another type inside, and one key shorter than another. -/
example : (runMap objKeyOps SortedMap.new [.put (pairKey .byte .int32 [1] [5]) 1, .put (pairKey .byte .int32 [2] [7]) 2,
    .put (pairKey .byte .int64 [1] [5]) 3, .put (pairKey .byte .int64 [3] [5]) 4, .put (pairKey .byte .int32 [1] [5, 6]) 5,
    .remove (pairKey .byte .int32 [2] [7])]).2 = [some none, some none, none, some none, some none, some (some (2 : Nat))] := by decide +kernel

example : let m := (runMap objKeyOps SortedMap.new [.put (pairKey .byte .int32 [1] [5]) (1 : Nat), .put (pairKey .byte .int32 [2] [7]) 2]).1
    m.get objKeyOps (pairKey .byte .int32 [1] [5]) = some (some 1) ∧
      Mismatch (pairKey .byte .int32 [1] [5]).1 (pairKey .byte .int64 [1] [5]).1 :=
  ⟨by decide +kernel, .inside [.ints .byte (some [1])] [] [] _ _ (.here _ _ (by decide))⟩

theorem pairs_alike : ∀ o ∈ ([.put (pairKey .byte .int32 [1] [5]) 1, .put (pairKey .byte .int32 [2] [7]) 2] : List (MapOp CleanObj Nat)),
    sameShape (pairKey .byte .int32 [0] [0]).1 (opKey o).1 := by
  intro o ho
  rcases List.mem_cons.mp ho with rfl | ho
  · exact ⟨⟨rfl, rfl⟩, ⟨rfl, rfl⟩, trivial⟩
  · rw [List.mem_singleton.mp ho]
    exact ⟨⟨rfl, rfl⟩, ⟨rfl, rfl⟩, trivial⟩

/-- Slices of different lengths, none a prefix of another one. -/
theorem ints_unblocked : ∀ a b : CleanObj, (a = intsKey .byte [1, 2] ∨ a = intsKey .byte [3]) → (b = intsKey .byte [1, 2] ∨ b = intsKey .byte [3]) → ¬ ObjBlocks a b := by
  intro a b ha hb
  rw [← objCompare_none]
  rcases ha with rfl | rfl <;> rcases hb with rfl | rfl <;> decide +kernel

example : cleanOrder (intsKey .byte [1, 2]) (intsKey .byte [3]) = .lt ∧ Smaller (intsKey .byte [1, 2]).1 (intsKey .byte [3]).1 :=
  ⟨by decide +kernel, .ints .byte [] [2] [] 1 3 (by decide)⟩

example := C201_order (intsKey .byte [1, 2]) (intsKey .byte [3])

example := C201_same_shape_partial (pairKey .byte .int32 [0] [0]).1 _ pairs_alike

example := C201_unblocked_partial (fun a => a = intsKey .byte [1, 2] ∨ a = intsKey .byte [3]) ints_unblocked
  [.put (intsKey .byte [1, 2]) 1, .put (intsKey .byte [3]) 2] (by simp [opKey])

end Poodle.Props
