import Verif.Lemmas.AvlHeapIter
import Verif.Lemmas.AvlWorld

namespace Poodle
open Poodle.Spec Poodle.Props

set_option linter.unusedSimpArgs false

variable {K V : Type} {ops : KeyOps K} {cmp : K → K → Ordering}

open PTree

theorem setLink_same {h : AHeap K V} {a : Nat} {n : HNode K V} (e : h[a]? = some n) (dir : Bool) :
    HM.setLink (some a) dir (if dir then n.r else n.l) h = (h, some ()) := by
  obtain ⟨hl, hg⟩ := List.getElem?_eq_some_iff.mp e
  rw [HM.setLink, modify_some e]
  have hs : h.set a n = h := by rw [← hg]; exact List.set_getElem_self hl
  cases dir <;> exact congrArg (·, some ()) hs

/-- Overwriting an existing key changes one node. -/
theorem putR_over (key : K) (value : V) (P : PTree K V) (h : AHeap K V) (hp : Owns h P) (hn : P.addrs.Nodup) (fuel : Nat)
    (hfuel : height P.erase < fuel) {T : Tree K V} {e : K × V} {d : Bool} (hT : P.erase.putR ops key value = (T, some (some e, d))) :
    d = true ∧ ∃ a n, a ∈ P.addrs ∧ h[a]? = some n ∧ e = (n.key, n.val) ∧ ops.equal n.key key = true ∧
      HM.putR ops key value fuel P.ptr h = (h.set a { n with key := key, val := value }, some (P.ptr, some e, true)) := by
  induction P generalizing fuel T d with
  | nil => simp [erase, Tree.putR] at hT
  | node a k v b l r ihl ihr =>
    obtain ⟨f, rfl⟩ : ∃ f, fuel = f + 1 := ⟨fuel - 1, by omega⟩
    obtain ⟨q1, q2, q3⟩ := hp
    have hn' := hn
    simp only [addrs, List.nodup_append, List.nodup_cons, List.mem_cons] at hn'
    simp only [erase, height] at hfuel
    simp only [ptr, HM.putR]
    rw [bind_ok (load_some q1)]
    simp only [erase, Tree.putR] at hT
    by_cases he : ops.equal k key = true
    · simp only [he, if_true, Prod.mk.injEq, Option.some.injEq] at hT ⊢
      obtain ⟨rfl, rfl, rfl⟩ := hT
      refine ⟨rfl, a, _, by simp [addrs], q1, rfl, he, ?_⟩
      rw [HM.setEntry, bind_ok (modify_some q1 _)]
      rfl
    · simp only [he, Bool.false_eq_true, if_false] at hT ⊢
      cases hc : ops.compare k key with
      | none => simp [hc] at hT
      | some c =>
        rw [bind_ok (a := c) (s' := h) (by simp [HM.compare, hc]), bind_ok (link_some q1 _), ptr_dir]
        simp only [hc] at hT
        have fin : ∀ dir : Bool, (decide (c < 0)) = dir → ∀ T0 old0 d0, (if dir then r else l).erase.putR ops key value = (T0, some (old0, d0)) →
            Tree.putFinish k v b l.erase r.erase dir T0 old0 d0 = (T, some (some e, d)) →
            d = true ∧ ∃ a1 n, a1 ∈ (PTree.node a k v b l r).addrs ∧ h[a1]? = some n ∧ e = (n.key, n.val) ∧ ops.equal n.key key = true ∧
              (HM.putR ops key value f (if dir then r else l).ptr >>= fun x =>
                HM.putFinish (some a) dir x.1 x.2.1 x.2.2) h = (h.set a1 { n with key := key, val := value }, some (some a, some e, true)) := by
          intro dir _ T0 old0 d0 h0 hF
          have hold : old0 = some e := by
            unfold Tree.putFinish at hF
            simp only at hF
            split at hF
            · simp only [Prod.mk.injEq, Option.some.injEq] at hF; exact hF.2.1
            · split at hF
              · simp only [Prod.mk.injEq, Option.some.injEq] at hF; exact hF.2.1
              · split at hF
                · simp only [Prod.mk.injEq, Option.some.injEq] at hF; exact hF.2.1
                · split at hF
                  · simp only [Prod.mk.injEq, Option.some.injEq] at hF; exact hF.2.1
                  · simp at hF
          subst hold
          have ih : d0 = true ∧ ∃ a1 n, a1 ∈ (if dir then r else l).addrs ∧ h[a1]? = some n ∧ e = (n.key, n.val) ∧ ops.equal n.key key = true ∧
              HM.putR ops key value f (if dir then r else l).ptr h =
                (h.set a1 { n with key := key, val := value }, some ((if dir then r else l).ptr, some e, true)) := by
            cases dir with
            | false => exact ihl q2 (by grind) f (by omega) h0
            | true => exact ihr q3 (by grind) f (by omega) h0
          obtain ⟨rfl, a1, n, i1, i2, i3, i4, i5⟩ := ih
          simp only [Tree.putFinish, if_true, Prod.mk.injEq, Option.some.injEq] at hF
          refine ⟨hF.2.2.symm, a1, n, child_subset _ i1, i2, i3, i4, ?_⟩
          rw [bind_ok i5]
          have hne : a1 ≠ a := by
            rintro rfl
            cases dir with
            | false => simp only [Bool.false_eq_true, if_false] at i1; exact hn'.2.2 _ i1 _ (.inl rfl) rfl
            | true => simp only [if_true] at i1; exact hn'.2.1.1 i1
          have q1' : (h.set a1 { n with key := key, val := value })[a]? = some ⟨k, v, b, l.ptr, r.ptr⟩ := by
            rw [List.getElem?_set_ne hne]; exact q1
          simp only [HM.putFinish]
          rw [← ptr_dir, bind_ok (setLink_same q1' dir)]
          simp [pure_run]
        by_cases hlt : c < 0
        · simp only [hlt, if_true, decide_true] at hT fin ⊢
          rcases hr : r.erase.putR ops key value with ⟨t, - | ⟨old, done⟩⟩
          · simp [hr] at hT
          · simp only [hr] at hT
            exact fin true rfl _ _ _ hr hT
        · simp only [hlt, if_false, decide_false] at hT fin ⊢
          rcases hr : l.erase.putR ops key value with ⟨t, - | ⟨old, done⟩⟩
          · simp [hr] at hT
          · simp only [hr] at hT
            exact fin false rfl _ _ _ hr hT

theorem removeFinish_found {k0 : K} {v0 : V} {b : Int} {l r : Tree K V} {dir : Bool} {t : Tree K V} {found o : Option (K × V)} {done d : Bool}
    {T : Tree K V} (h : Tree.removeFinish k0 v0 b l r dir t found done = (T, some (o, d))) : found = o := by
  unfold Tree.removeFinish at h
  simp only at h
  split at h
  · simp only [Prod.mk.injEq, Option.some.injEq] at h; exact h.2.1
  · split at h
    · simp only [Prod.mk.injEq, Option.some.injEq] at h; exact h.2.1
    · split at h
      · simp only [Prod.mk.injEq, Option.some.injEq] at h; exact h.2.1
      · split at h
        · simp only [Prod.mk.injEq, Option.some.injEq] at h; exact h.2.1
        · simp at h

/-- Removing a key that is not there changes nothing. -/
theorem removeR_absent (key : K) (P : PTree K V) (h : AHeap K V) (hp : Owns h P) (fuel : Nat)
    (hfuel : height P.erase < fuel) {T : Tree K V} {d : Bool} (hT : P.erase.removeR ops key = (T, some (none, d))) :
    d = true ∧ HM.removeR ops fuel key P.ptr h = (h, some (P.ptr, none, true)) := by
  induction P generalizing fuel T d with
  | nil =>
    obtain ⟨f, rfl⟩ : ∃ f, fuel = f + 1 := ⟨fuel - 1, by omega⟩
    simp only [erase, Tree.removeR, Prod.mk.injEq, Option.some.injEq] at hT
    exact ⟨hT.2.2.symm, rfl⟩
  | node a k v b l r ihl ihr =>
    obtain ⟨f, rfl⟩ : ∃ f, fuel = f + 1 := ⟨fuel - 1, by omega⟩
    obtain ⟨q1, q2, q3⟩ := hp
    simp only [erase, height] at hfuel
    simp only [ptr, HM.removeR]
    rw [bind_ok (load_some q1)]
    rw [erase, Tree.removeR.eq_def] at hT
    simp only at hT
    by_cases he : ops.equal k key = true
    · exfalso
      simp only [he, if_true] at hT
      split at hT
      · simp at hT
      · simp at hT
      · split at hT
        · simp at hT
        · split at hT
          · simp at hT
          · split at hT
            · split at hT
              · simp at hT
              · have := removeFinish_found hT; simp at this
            · split at hT
              · simp at hT
              · have := removeFinish_found hT; simp at this
    · simp only [he, Bool.false_eq_true, if_false] at hT ⊢
      cases hc : ops.compare k key with
      | none => simp [hc] at hT
      | some c =>
        rw [bind_ok (a := c) (s' := h) (by simp [HM.compare, hc]), bind_ok (link_some q1 _), ptr_dir]
        simp only [hc] at hT
        have fin : ∀ dir : Bool, (decide (c < 0)) = dir → ∀ T0 old0 d0, (if dir then r else l).erase.removeR ops key = (T0, some (old0, d0)) →
            Tree.removeFinish k v b l.erase r.erase dir T0 old0 d0 = (T, some (none, d)) →
            d = true ∧ (HM.removeR ops f key (if dir then r else l).ptr >>= fun x =>
                HM.removeFinish (some a) dir x.1 x.2.1 x.2.2) h = (h, some (some a, none, true)) := by
          intro dir _ T0 old0 d0 h0 hF
          obtain rfl := removeFinish_found hF
          have ih : d0 = true ∧ HM.removeR ops f key (if dir then r else l).ptr h = (h, some ((if dir then r else l).ptr, none, true)) := by
            cases dir with
            | false => exact ihl q2 f (by omega) h0
            | true => exact ihr q3 f (by omega) h0
          obtain ⟨rfl, i5⟩ := ih
          simp only [Tree.removeFinish, if_true, Prod.mk.injEq, Option.some.injEq] at hF
          refine ⟨hF.2.2.symm, ?_⟩
          rw [bind_ok i5]
          simp only [HM.removeFinish]
          rw [← ptr_dir, bind_ok (setLink_same q1 dir)]
          simp [pure_run]
        by_cases hlt : c < 0
        · simp only [hlt, if_true, decide_true] at hT fin ⊢
          rcases hr : r.erase.removeR ops key with ⟨t, - | ⟨old, done⟩⟩
          · simp [hr] at hT
          · simp only [hr] at hT
            exact fin true rfl _ _ _ hr hT
        · simp only [hlt, if_false, decide_false] at hT fin ⊢
          rcases hr : l.erase.removeR ops key with ⟨t, - | ⟨old, done⟩⟩
          · simp [hr] at hT
          · simp only [hr] at hT
            exact fin false rfl _ _ _ hr hT

/-- The tree at an address is determined. -/
theorem owns_unique {h : AHeap K V} (P Q : PTree K V) (hp : Owns h P) (hq : Owns h Q) (he : P.ptr = Q.ptr) : P = Q := by
  induction P generalizing Q with
  | nil => cases Q with
    | nil => rfl
    | node => simp [ptr] at he
  | node a k v b l r ihl ihr =>
    cases Q with
    | nil => simp [ptr] at he
    | node a' k' v' b' l' r' =>
      simp only [ptr, Option.some.injEq] at he
      subst he
      have := hp.1.symm.trans hq.1
      simp only [Option.some.injEq, HNode.mk.injEq] at this
      obtain ⟨rfl, rfl, rfl, h4, h5⟩ := this
      rw [ihl l' hp.2.1 hq.2.1 h4, ihr r' hp.2.2 hq.2.2 h5]

/-- The tree with another entry at an address. -/
def over (a : Nat) (k : K) (v : V) : PTree K V → PTree K V
  | .nil => .nil
  | .node a' k' v' b l r => .node a' (if a' = a then k else k') (if a' = a then v else v') b (over a k v l) (over a k v r)

theorem over_ptr (a : Nat) (k : K) (v : V) (P : PTree K V) : (over a k v P).ptr = P.ptr := by cases P <;> rfl

theorem over_addrs (a : Nat) (k : K) (v : V) (P : PTree K V) : (over a k v P).addrs = P.addrs := by
  induction P with
  | nil => rfl
  | node a' k' v' b l r ihl ihr => simp [over, addrs, ihl, ihr]

theorem over_remA (a : Nat) (k : K) (v : V) (P : PTree K V) : remA (over a k v P) = remA P := by
  cases P with
  | nil => rfl
  | node a' k' v' b l r => simp [over, remA, over_addrs]

theorem over_owns {h : AHeap K V} {a : Nat} {n : HNode K V} (k : K) (v : V) (he : h[a]? = some n) (P : PTree K V) (hp : Owns h P) :
    Owns (h.set a { n with key := k, val := v }) (over a k v P) := by
  induction P with
  | nil => trivial
  | node a' k' v' b l r ihl ihr =>
    obtain ⟨h1, h2, h3⟩ := hp
    refine ⟨?_, ihl h2, ihr h3⟩
    rw [over_ptr, over_ptr]
    by_cases ha : a' = a
    · subst ha
      rw [h1] at he
      simp only [Option.some.injEq] at he
      subst he
      simp [List.getElem?_set, (List.getElem?_eq_some_iff.mp h1).1]
    · rw [List.getElem?_set_ne (Ne.symm ha), h1]
      simp [ha]

/-- Entries with equal keys. -/
def SameKeys (cmp : K → K → Ordering) (l l' : List (K × V)) : Prop := List.Forall₂ (fun x y => cmp x.1 y.1 = .eq) l l'

section
variable [Std.TransCmp cmp]

theorem sameKeys_refl (l : List (K × V)) : SameKeys cmp l l := by
  induction l with
  | nil => exact .nil
  | cons x l ih => exact .cons Std.ReflCmp.compare_self ih

omit [Std.TransCmp cmp] in
theorem SameKeys.append {l l' m m' : List (K × V)} (h1 : SameKeys cmp l l') (h2 : SameKeys cmp m m') : SameKeys cmp (l ++ m) (l' ++ m') := by
  unfold SameKeys at *
  induction h1 with
  | nil => exact h2
  | cons h _ ih => exact .cons h ih

theorem over_key {h : AHeap K V} {a a' : Nat} {n n' : HNode K V} {k : K} (he : h[a]? = some n) (hk : cmp n.key k = .eq)
    (h1 : h[a']? = some n') : cmp n'.key (if a' = a then k else n'.key) = .eq := by
  by_cases ha : a' = a
  · subst ha
    rw [h1] at he
    simp only [Option.some.injEq] at he
    subst he
    simpa using hk
  · simp only [ha, if_false]
    exact Std.ReflCmp.compare_self

theorem over_entries {h : AHeap K V} {a : Nat} {n : HNode K V} {k : K} (v : V) (he : h[a]? = some n) (hk : cmp n.key k = .eq) (P : PTree K V)
    (hp : Owns h P) : SameKeys cmp (entries P.erase) (entries (over a k v P).erase) := by
  induction P with
  | nil => exact .nil
  | node a' k' v' b l r ihl ihr =>
    obtain ⟨h1, h2, h3⟩ := hp
    exact SameKeys.append (ihl h2) (.cons (over_key he hk h1) (ihr h3))

theorem SameKeys.increasing {l l' : List (K × V)} (h : SameKeys cmp l l') (hi : Increasing cmp l) : Increasing cmp l' := by
  unfold SameKeys at h
  induction h with
  | nil => exact hi
  | @cons x y l l' hxy hll ih =>
    obtain ⟨h1, h2⟩ := incr_tail hi
    refine List.Pairwise.cons ?_ (ih h1)
    intro z hz
    obtain ⟨u, hu1, hu2⟩ : ∃ u ∈ l, cmp u.1 z.1 = .eq := by
      clear ih h1 h2 hi
      induction hll with
      | nil => simp at hz
      | @cons u z' l l' huz _ ih =>
        simp only [List.mem_cons] at hz
        rcases hz with rfl | hz
        · exact ⟨u, by simp, huz⟩
        · obtain ⟨u', h1, h2⟩ := ih hz
          exact ⟨u', by simp [h1], h2⟩
    have := cmp_lt_eq (h2 u hu1) hu2
    rw [← this]
    exact (Std.TransCmp.congr_left hxy).symm

theorem SameKeys.below {l l' : List (K × V)} (h : SameKeys cmp l l') (stop : Option K) : SameKeys cmp (below cmp stop l) (below cmp stop l') := by
  cases stop with
  | none => exact h
  | some e =>
    unfold SameKeys at *
    simp only [Poodle.below]
    induction h with
    | nil => exact .nil
    | @cons x y l l' hxy _ ih =>
      have : cmp x.1 e = cmp y.1 e := Std.TransCmp.congr_left hxy
      simp only [List.takeWhile_cons, this]
      split
      · exact .cons hxy ih
      · exact .nil

end

theorem over_nil_iff {a : Nat} {k : K} {v : V} {P : PTree K V} : (over a k v P).erase = .nil ↔ P.erase = .nil := by
  cases P <;> simp [over, erase]

section
variable [Std.TransCmp cmp]

/-- An iterator over nodes of which one gets another entry with an equal key. -/
theorem iter_over {h : AHeap K V} {A : List Nat} {it : HIter K} {C : PTree K V} {Qs : List (PTree K V)} (R : IterRep h A it C Qs)
    (hst : it.start = none) (hw : WfIter cmp (plainIter it C Qs)) {a : Nat} {n : HNode K V} {k : K} (v : V) (he : h[a]? = some n)
    (hk : cmp n.key k = .eq) :
    IterRep (h.set a { n with key := k, val := v }) A it (over a k v C) (Qs.map (over a k v)) ∧
      WfIter cmp (plainIter it (over a k v C) (Qs.map (over a k v))) ∧
      SameKeys cmp (out cmp (plainIter it C Qs)) (out cmp (plainIter it (over a k v C) (Qs.map (over a k v)))) := by
  have hpath : SameKeys cmp (pathOut (Qs.map erase)) (pathOut ((Qs.map (over a k v)).map erase)) := by
    have hq := R.oq
    clear R hw
    induction Qs with
    | nil => exact .nil
    | cons Q Qs ih =>
      have ih := ih fun Q hQ => hq Q (by simp [hQ])
      have hQ := hq Q (by simp)
      cases Q with
      | nil => exact ih
      | node a' k' v' b l r =>
        exact SameKeys.append (.cons (over_key he hk hQ.1) (over_entries v he hk r hQ.2.2)) ih
  have hrem : SameKeys cmp (rem (plainIter it C Qs)) (rem (plainIter it (over a k v C) (Qs.map (over a k v)))) := by
    have hC := R.oc
    cases C with
    | nil => exact hpath
    | node a' k' v' b l r =>
      have hr := over_entries (cmp := cmp) v he hk r hC.2.2
      simp only [rem, plainIter, over, erase]
      by_cases hpos : it.pos = 0
      · simp only [hpos, if_true]
        exact SameKeys.append (l := (k', v') :: entries r.erase) (l' := (_, _) :: entries (over a k v r).erase)
          (.cons (over_key he hk hC.1) hr) hpath
      · simp only [hpos, if_false]
        exact SameKeys.append hr hpath
  refine ⟨⟨by rw [over_ptr]; exact R.curr, ?_, over_owns k v he C R.oc, ?_, ?_, ?_, ?_⟩, ⟨hw.pos, ?_, hrem.increasing hw.sorted, ?_⟩, ?_⟩
  · rw [R.paths]
    simp [over_ptr]
  · intro Q hQ
    obtain ⟨Q0, h1, rfl⟩ := List.mem_map.mp hQ
    exact over_owns k v he Q0 (R.oq Q0 h1)
  · rw [over_remA]
    have : (Qs.map (over a k v)).flatMap remA = Qs.flatMap remA := by
      rw [List.flatMap_map]
      congr 1
      funext x
      exact over_remA _ _ _ _
    rw [this]
    exact R.sub
  · rw [over_addrs]; exact R.subC
  · intro Q hQ
    obtain ⟨Q0, h1, rfl⟩ := List.mem_map.mp hQ
    rw [over_addrs]
    exact R.subQ Q0 h1
  · intro p hp
    simp only [plainIter, List.map_map, List.mem_map, Function.comp] at hp
    obtain ⟨Q, h1, rfl⟩ := hp
    rw [Ne, over_nil_iff]
    exact hw.paths _ (by simp only [plainIter, List.mem_map]; exact ⟨Q, h1, rfl⟩)
  · simp [plainIter, hst]
  · unfold out
    simp only [plainIter, hst] at hrem ⊢
    exact hrem.below _

end

/-! ### Live iterators -/

/-- The iterator `it` of the map with the tree `P` has the keys `ks` to come. -/
def Live (cmp : K → K → Ordering) (h : AHeap K V) (P : PTree K V) (it : HIter K) (ks : List K) : Prop :=
  ∃ C Qs, IterRep h P.addrs it C Qs ∧ it.start = none ∧ WfIter cmp (plainIter it C Qs) ∧
    List.Forall₂ (fun k (e : K × V) => cmp k e.1 = .eq) ks (out cmp (plainIter it C Qs))

theorem Live.framed {h h' : AHeap K V} {P : PTree K V} {it : HIter K} {ks : List K} (L : Live cmp h P it ks) {A : List Nat}
    (hf : Frame h h' A) (hd : ∀ x ∈ P.addrs, x ∉ A) : Live cmp h' P it ks := by
  obtain ⟨C, Qs, R, h1, h2, h3⟩ := L
  exact ⟨C, Qs, ⟨R.curr, R.paths, Owns.framed C R.oc hf fun x hx => hd x (R.subC x hx),
    fun Q hQ => Owns.framed Q (R.oq Q hQ) hf fun x hx => hd x (R.subQ Q hQ x hx), R.sub, R.subC, R.subQ⟩, h1, h2, h3⟩

section
variable [Std.TransCmp cmp]

theorem Live.over {h : AHeap K V} {P : PTree K V} {it : HIter K} {ks : List K} (L : Live cmp h P it ks) {a : Nat} {n : HNode K V} {k : K} (v : V)
    (he : h[a]? = some n) (hk : cmp n.key k = .eq) : Live cmp (h.set a { n with key := k, val := v }) (over a k v P) it ks := by
  obtain ⟨C, Qs, R, h1, h2, h3⟩ := L
  obtain ⟨i1, i2, i3⟩ := iter_over R h1 h2 v he hk
  refine ⟨_, _, by rw [over_addrs]; exact i1, h1, i2, ?_⟩
  unfold SameKeys at i3
  clear i1 i2 R h1 h2
  generalize Poodle.out cmp (plainIter it C Qs) = o at h3 i3
  generalize Poodle.out cmp (plainIter it (Poodle.over a k v C) (Qs.map (Poodle.over a k v))) = o' at i3 ⊢
  induction h3 generalizing o' with
  | nil => cases i3; exact .nil
  | cons h _ ih =>
    cases i3 with
    | cons h' t => exact .cons (Std.TransCmp.eq_trans h h') (ih _ t)

theorem mem_entries_iff {h : AHeap K V} (P : PTree K V) (hp : Owns h P) (e : K × V) :
    e ∈ entries P.erase ↔ ∃ a ∈ P.addrs, ∃ n, h[a]? = some n ∧ (n.key, n.val) = e := by
  induction P with
  | nil => simp [erase, entries, addrs]
  | node a k v b l r ihl ihr =>
    obtain ⟨h1, h2, h3⟩ := hp
    simp only [erase, entries, addrs, List.mem_append, List.mem_cons, ihl h2, ihr h3]
    constructor
    · rintro (⟨x, hx, hy⟩ | rfl | ⟨x, hx, hy⟩)
      · exact ⟨x, .inl hx, hy⟩
      · exact ⟨a, .inr (.inl rfl), _, h1, rfl⟩
      · exact ⟨x, .inr (.inr hx), hy⟩
    · rintro ⟨x, hx | rfl | hx, n, hn, rfl⟩
      · exact .inl ⟨x, hx, n, hn, rfl⟩
      · rw [h1] at hn
        simp only [Option.some.injEq] at hn
        subst hn
        exact .inr (.inl rfl)
      · exact .inr (.inr ⟨x, hx, n, hn, rfl⟩)

theorem pathOut_mem {e : K × V} {Qs : List (Tree K V)} (he : e ∈ pathOut Qs) : ∃ Q ∈ Qs, e ∈ entries Q := by
  induction Qs with
  | nil => simp [pathOut] at he
  | cons Q Qs ih =>
    cases Q with
    | nil => obtain ⟨Q, h1, h2⟩ := ih he; exact ⟨Q, by simp [h1], h2⟩
    | node k v b l r =>
      simp only [pathOut, List.cons_append, List.mem_cons, List.mem_append] at he
      rcases he with rfl | he | he
      · exact ⟨.node k v b l r, by simp, by simp [entries]⟩
      · exact ⟨.node k v b l r, by simp, by simp [entries, he]⟩
      · obtain ⟨Q, h1, h2⟩ := ih he; exact ⟨Q, by simp [h1], h2⟩

omit [Std.TransCmp cmp] in
theorem below_sub {stop : Option K} {l : List (K × V)} {e : K × V} (he : e ∈ below cmp stop l) : e ∈ l := by
  cases stop with
  | none => exact he
  | some x => exact (List.takeWhile_sublist _).subset he

theorem out_mem {h : AHeap K V} {P : PTree K V} (hp : Owns h P) {it : HIter K} {C : PTree K V} {Qs : List (PTree K V)}
    (R : IterRep h P.addrs it C Qs) (hst : it.start = none) {e : K × V} (he : e ∈ out cmp (plainIter it C Qs)) : e ∈ entries P.erase := by
  have hm : ∀ Q : PTree K V, Owns h Q → (∀ x ∈ Q.addrs, x ∈ P.addrs) → e ∈ entries Q.erase → e ∈ entries P.erase := by
    intro Q hQ hs he
    obtain ⟨a, h1, h2⟩ := (mem_entries_iff Q hQ e).mp he
    exact (mem_entries_iff P hp e).mpr ⟨a, hs a h1, h2⟩
  have hrem : e ∈ rem (plainIter it C Qs) := by
    unfold out at he
    simp only [plainIter, hst] at he ⊢
    exact below_sub he
  have hq : e ∈ pathOut (Qs.map erase) → e ∈ entries P.erase := by
    intro h1
    obtain ⟨Q, h2, h3⟩ := pathOut_mem h1
    obtain ⟨Q0, h4, rfl⟩ := List.mem_map.mp h2
    exact hm Q0 (R.oq Q0 h4) (R.subQ Q0 h4) h3
  cases C with
  | nil => exact hq hrem
  | node a k v b l r =>
    have hr : e ∈ entries (PTree.node a k v b l r).erase ∨ e ∈ pathOut (Qs.map erase) := by
      simp only [rem, plainIter, erase] at hrem
      by_cases hpos : it.pos = 0
      · simp only [hpos, if_true, List.cons_append, List.mem_cons, List.mem_append] at hrem
        simp only [erase, entries, List.mem_append, List.mem_cons]
        rcases hrem with h | h | h
        · exact .inl (.inr (.inl h))
        · exact .inl (.inr (.inr h))
        · exact .inr h
      · simp only [hpos, if_false, List.mem_append] at hrem
        simp only [erase, entries, List.mem_append, List.mem_cons]
        rcases hrem with h | h
        · exact .inl (.inr (.inr h))
        · exact .inr h
    rcases hr with h | h
    · exact hm _ R.oc R.subC h
    · exact hq h

section
variable [Std.TransCmp cmp]

/-- A call on a live iterator. -/
theorem Live.call (hops : LawfulKeys ops cmp) (ht : TotalKeys ops) {h : AHeap K V} {P : PTree K V} (hp : Owns h P) (hn : P.addrs.Nodup)
    {it : HIter K} {ks : List K} (L : Live cmp h P it ks) (c : IterCall) :
    ∃ it' o, HIter.sortedCall ops h it c = (it', (listCall .crash o c).2) ∧
      Live cmp h P it' (if c = .next then ks.tail else ks) ∧
      List.Forall₂ (fun k (e : K × V) => cmp k e.1 = .eq) ks o ∧ (∀ e ∈ o, e ∈ entries P.erase) := by
  obtain ⟨C, Qs, R, h1, h2, h3⟩ := L
  obtain ⟨it', C', Qs', e1, e2, e3, e4⟩ := sortedCall_sim hops ht h P.addrs hn (Owns.lt P hp) it C Qs R h1 h2 c
  obtain ⟨w1, w2⟩ := sortedCall_spec hops ht _ h2 c
  rw [← e3] at w1 w2
  refine ⟨it', out cmp (plainIter it C Qs), ?_, ⟨C', Qs', e2, e4, w1, ?_⟩, h3, fun e he => out_mem hp R h1 he⟩
  · rw [e1, ← w2]
  · rw [show out cmp (plainIter it' C' Qs') = (listCall .crash (out cmp (plainIter it C Qs)) c).1 by rw [← w2]]
    generalize out cmp (plainIter it C Qs) = o at h3
    cases h3 with
    | nil => cases c <;> simp [listCall]
    | cons h t => cases c <;> simp [listCall, h, t]

/-- A new iterator is live. -/
theorem new_live {h : AHeap K V} {P : PTree K V} (hp : Owns h P) (hn : P.addrs.Nodup) (hi : Increasing cmp (entries P.erase)) (stop : Option K) :
    ∃ it, HIter.new ops h P.ptr none stop = some it ∧
      Live cmp h P it (((entries P.erase).map Prod.fst).filter (InRange cmp none stop)) := by
  obtain ⟨it, C, Qs, e1, e2, e3, e4⟩ := new_sim (ops := ops) h P hp hn stop
  obtain ⟨w1, w2⟩ := new_spec (cmp := cmp) P.erase none stop hi _ e3
  refine ⟨it, e1, C, Qs, e2, e4, w1, ?_⟩
  rw [w2]
  simp only [rangeOut]
  have : (below cmp stop (entries P.erase)) = (entries P.erase).filter fun x => InRange cmp none stop x.1 := by
    generalize entries P.erase = l at hi
    cases stop with
    | none => simp [below, InRange]
    | some e =>
      simp only [below, InRange, Bool.true_and]
      induction l with
      | nil => rfl
      | cons x l ih =>
        obtain ⟨i1, i2⟩ := incr_tail hi
        simp only [List.takeWhile_cons, List.filter_cons]
        by_cases hx : cmp x.1 e = .lt
        · simp only [hx, decide_true, if_true, beq_self_eq_true, List.cons.injEq, true_and]
          exact ih i1
        · simp only [hx, decide_false, Bool.false_eq_true, if_false, beq_iff_eq]
          symm
          rw [List.filter_eq_nil_iff]
          intro y hy
          simp only [beq_iff_eq]
          exact fun hye => hx (cmp_lt_trans (i2 y hy) hye)
  rw [this]
  rw [List.filter_map]
  generalize entries P.erase = l
  clear this w2 w1 e3 e2 e1 hi
  induction l with
  | nil => exact .nil
  | cons x l ih =>
    simp only [List.filter_cons, Function.comp]
    split
    · exact .cons Std.ReflCmp.compare_self ih
    · exact ih

end

end

end Poodle
