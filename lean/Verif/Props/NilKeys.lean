import Verif.Props.SortedMap

/-
C25 with the nil slice among the keys.
-/

namespace Poodle.Props
open Poodle Poodle.Spec

variable {K V : Type}

/-- The same operations, but a key compared with itself gives zero. -/
def selfZero (ops : KeyOps K) : KeyOps K where
  equal := ops.equal
  compare a b := if ops.equal a b then some 0 else ops.compare a b

theorem putR_selfZero (ops : KeyOps K) (k : K) (v : V) (t : Tree K V) : t.putR (selfZero ops) k v = t.putR ops k v := by
  induction t with
  | nil => rfl
  | node k0 v0 b l r ihl ihr =>
    simp only [Tree.putR, selfZero] at ihl ihr ⊢
    by_cases h : ops.equal k0 k = true
    · simp [h]
    · simp only [h, Bool.false_eq_true, if_false, ihl, ihr]

theorem getR_selfZero (ops : KeyOps K) (k : K) (t : Tree K V) : t.getR (selfZero ops) k = t.getR ops k := by
  induction t with
  | nil => rfl
  | node k0 v0 b l r ihl ihr =>
    simp only [Tree.getR, selfZero] at ihl ihr ⊢
    by_cases h : ops.equal k0 k = true
    · simp [h]
    · simp only [h, Bool.false_eq_true, if_false, ihl, ihr]

/-- Keys that compare with themselves as not less can be removed as usual. -/
theorem removeR_selfZero (ops : KeyOps K) (hrefl : ∀ a, ops.equal a a = true) (t : Tree K V)
    (h : ∀ e ∈ entries t, ∃ c, ops.compare e.1 e.1 = some c ∧ ¬ c < 0) (k : K) : t.removeR (selfZero ops) k = t.removeR ops k := by
  induction t generalizing k with
  | nil => rfl
  | node k0 v0 b l r ihl ihr =>
    have hl := ihl (fun e he => h e (by simp [entries, he]))
    have hr := ihr (fun e he => h e (by simp [entries, he]))
    rw [Tree.removeR.eq_def, Tree.removeR.eq_def ops]
    simp only
    by_cases heq : ops.equal k0 k = true
    · have heq' : (selfZero ops).equal k0 k = true := heq
      simp only [heq, heq', if_true]
      cases l with
      | nil => rfl
      | node lk lv lb ll lr =>
        cases r with
        | nil => rfl
        | node rk rv rb rl rr =>
          simp only
          obtain ⟨⟨hk, hv⟩, A, m1, m2⟩ := rightmost_spec (.node lk lv lb ll lr) (by simp)
          obtain ⟨c, hc, hc0⟩ := h (hk, hv) (by simp only [entries] at m2 ⊢; rw [m2]; simp)
          simp only [m1, hc, if_neg hc0]
          have : (selfZero ops).compare hk hk = some 0 := by simp [selfZero, hrefl]
          simp only [this, Int.lt_irrefl, if_false, hl]
    · have heq' : ¬ (selfZero ops).equal k0 k = true := heq
      have hcmp : (selfZero ops).compare k0 k = ops.compare k0 k := by simp [selfZero, heq]
      rw [if_neg heq', if_neg heq, hcmp]
      simp only [hl, hr]

/-- So can the smallest key of a tree. -/
theorem removeR_least {ops : KeyOps K} {cmp : K → K → Ordering} (hops : LawfulKeys (selfZero ops) cmp) (k : K) (t : Tree K V)
    (hs : Increasing cmp (entries t)) (hmin : ∀ e ∈ entries t, cmp e.1 k ≠ .lt) : t.removeR (selfZero ops) k = t.removeR ops k := by
  have := hops.trans
  induction t with
  | nil => rfl
  | node k0 v0 b l r ihl ihr =>
    simp only [entries] at hs hmin
    have hs' := increasing_append_cons hs
    have hl := ihl hs'.1 (fun e he => hmin e (by simp [he]))
    have hr := ihr hs'.2.1 (fun e he => hmin e (by simp [he]))
    rw [Tree.removeR.eq_def, Tree.removeR.eq_def ops]
    simp only
    by_cases heq : ops.equal k0 k = true
    · have heq' : (selfZero ops).equal k0 k = true := heq
      have hc := (hops.equal_iff _ _).mp heq'
      simp only [heq, heq', if_true]
      cases l with
      | nil => rfl
      | node lk lv lb ll lr =>
        exfalso
        have h1 := hs'.2.2.1 (lk, lv) (by simp [entries])
        have h2 := hmin (lk, lv) (by simp [entries])
        exact h2 (Std.TransCmp.lt_of_lt_of_eq h1 hc)
    · have heq' : ¬ (selfZero ops).equal k0 k = true := heq
      have hcmp : (selfZero ops).compare k0 k = ops.compare k0 k := by simp [selfZero, heq]
      rw [if_neg heq', if_neg heq, hcmp]
      simp only [hl, hr]

/-- So can the greatest key of a tree. -/
theorem removeR_greatest {ops : KeyOps K} {cmp : K → K → Ordering} (hops : LawfulKeys (selfZero ops) cmp) (k : K) (t : Tree K V)
    (hs : Increasing cmp (entries t)) (hmax : ∀ e ∈ entries t, cmp k e.1 ≠ .lt) : t.removeR (selfZero ops) k = t.removeR ops k := by
  have := hops.trans
  induction t with
  | nil => rfl
  | node k0 v0 b l r ihl ihr =>
    simp only [entries] at hs hmax
    have hs' := increasing_append_cons hs
    have hl := ihl hs'.1 (fun e he => hmax e (by simp [he]))
    have hr := ihr hs'.2.1 (fun e he => hmax e (by simp [he]))
    rw [Tree.removeR.eq_def, Tree.removeR.eq_def ops]
    simp only
    by_cases heq : ops.equal k0 k = true
    · have heq' : (selfZero ops).equal k0 k = true := heq
      have hc := (hops.equal_iff _ _).mp heq'
      simp only [heq, heq', if_true]
      cases l with
      | nil => rfl
      | node lk lv lb ll lr =>
        cases r with
        | nil => rfl
        | node rk rv rb rl rr =>
          exfalso
          have h1 := hs'.2.2.2.1 (rk, rv) (by simp [entries])
          have h2 := hmax (rk, rv) (by simp [entries])
          exact h2 (Std.TransCmp.lt_of_eq_of_lt (Std.OrientedCmp.eq_symm hc) h1)
    · have heq' : ¬ (selfZero ops).equal k0 k = true := heq
      have hcmp : (selfZero ops).compare k0 k = ops.compare k0 k := by simp [selfZero, heq]
      rw [if_neg heq', if_neg heq, hcmp]
      simp only [hl, hr]

/-- And keys that are not in the tree. -/
theorem removeR_missing {ops : KeyOps K} {cmp : K → K → Ordering} (hops : LawfulKeys (selfZero ops) cmp) (k : K) (t : Tree K V)
    (habs : ∀ e ∈ entries t, cmp e.1 k ≠ .eq) : t.removeR (selfZero ops) k = t.removeR ops k := by
  induction t with
  | nil => rfl
  | node k0 v0 b l r ihl ihr =>
    simp only [entries] at habs
    have hl := ihl (fun e he => habs e (by simp [he]))
    have hr := ihr (fun e he => habs e (by simp [he]))
    have heq' : ¬ (selfZero ops).equal k0 k = true := fun h => habs (k0, v0) (by simp) ((hops.equal_iff _ _).mp h)
    have heq : ¬ ops.equal k0 k = true := heq'
    rw [Tree.removeR.eq_def, Tree.removeR.eq_def ops]
    simp only
    have hcmp : (selfZero ops).compare k0 k = ops.compare k0 k := by simp [selfZero, heq]
    rw [if_neg heq', if_neg heq, hcmp]
    simp only [hl, hr]

/-- And keys such that between them and every smaller key that compares strangely with itself there is another key. -/
theorem removeR_between {ops : KeyOps K} {cmp : K → K → Ordering} (hops : LawfulKeys (selfZero ops) cmp) (hrefl : ∀ a, ops.equal a a = true)
    (k : K) (t : Tree K V) (hs : Increasing cmp (entries t))
    (h : ∀ e ∈ entries t, (¬ ∃ c, ops.compare e.1 e.1 = some c ∧ ¬ c < 0) → cmp e.1 k = .lt →
      ∃ e' ∈ entries t, cmp e.1 e'.1 = .lt ∧ cmp e'.1 k = .lt) : t.removeR (selfZero ops) k = t.removeR ops k := by
  have := hops.trans
  induction t with
  | nil => rfl
  | node k0 v0 b l r ihl ihr =>
    simp only [entries] at hs h
    have hs' := increasing_append_cons hs
    rw [Tree.removeR.eq_def, Tree.removeR.eq_def ops]
    simp only
    by_cases heq : ops.equal k0 k = true
    · have heq' : (selfZero ops).equal k0 k = true := heq
      have hc := (hops.equal_iff _ _).mp heq'
      simp only [heq, heq', if_true]
      cases l with
      | nil => rfl
      | node lk lv lb ll lr =>
        cases r with
        | nil => rfl
        | node rk rv rb rl rr =>
          simp only
          obtain ⟨⟨hk, hv⟩, A, m1, m2⟩ := rightmost_spec (.node lk lv lb ll lr) (by simp)
          have hsl := hs'.1
          rw [m2] at hsl
          have hA := (increasing_append_cons (B := []) hsl).2.2.1
          have hmem : (hk, hv) ∈ entries (Tree.node lk lv lb ll lr) := by rw [m2]; simp
          have hlast : ∀ e ∈ entries (Tree.node lk lv lb ll lr), cmp hk e.1 ≠ .lt := by
            intro e he hlt
            rw [m2] at he
            rcases List.mem_append.mp he with he | he
            · have := Std.TransCmp.lt_trans hlt (hA e he)
              rw [Std.ReflCmp.compare_self (cmp := cmp)] at this; simp at this
            · simp only [List.mem_singleton] at he
              subst he
              simp only at hlt
              rw [Std.ReflCmp.compare_self (cmp := cmp)] at hlt; simp at hlt
          have hkk : cmp hk k = .lt := Std.TransCmp.lt_of_lt_of_eq (hs'.2.2.1 (hk, hv) hmem) hc
          have hgood : ∃ c, ops.compare hk hk = some c ∧ ¬ c < 0 := by
            by_contra hbad
            obtain ⟨e', he', h1, h2⟩ := h (hk, hv) (by simp only [List.mem_append]; exact .inl hmem) hbad hkk
            rcases List.mem_append.mp he' with he' | he'
            · exact hlast e' he' h1
            · rcases List.mem_cons.mp he' with rfl | he'
              · simp only at h2; rw [hc] at h2; simp at h2
              · have h3 := Std.TransCmp.lt_trans (hs'.2.2.2.1 e' he') h2
                rw [hc] at h3; simp at h3
          obtain ⟨c, hcc, hc0⟩ := hgood
          simp only [m1, hcc, if_neg hc0]
          have : (selfZero ops).compare hk hk = some 0 := by simp [selfZero, hrefl]
          have hl := removeR_greatest hops hk _ hs'.1 hlast
          simp only [this, Int.lt_irrefl, if_false, hl]
    · have heq' : ¬ (selfZero ops).equal k0 k = true := heq
      have hcmp : (selfZero ops).compare k0 k = ops.compare k0 k := by simp [selfZero, heq]
      rw [if_neg heq', if_neg heq, hcmp]
      rcases hc : ops.compare k0 k with - | c
      · rfl
      · have hsgn := hops.compare_sign k0 k c (hcmp.trans hc)
        by_cases h0 : c < 0
        · have hlt := hsgn.1.mp h0
          have hr := ihr hs'.2.1 (fun e he hb hek => by
            obtain ⟨e', he', h1, h2⟩ := h e (by simp [he]) hb hek
            rcases List.mem_append.mp he' with he' | he'
            · exfalso
              have := Std.TransCmp.lt_trans (hs'.2.2.2.2 e' he' e he) h1
              rw [Std.ReflCmp.compare_self (cmp := cmp)] at this; simp at this
            · rcases List.mem_cons.mp he' with rfl | he'
              · exfalso
                have := Std.TransCmp.lt_trans (hs'.2.2.2.1 e he) h1
                rw [Std.ReflCmp.compare_self (cmp := cmp)] at this; simp at this
              · exact ⟨e', he', h1, h2⟩)
          simp only [h0, if_true, hr]
        · have hgt : cmp k0 k = .gt := not_lt_cases (fun hh => heq' ((hops.equal_iff _ _).mpr hh)) (fun hh => h0 (hsgn.1.mpr hh))
          have hl := ihl hs'.1 (fun e he hb hek => by
            obtain ⟨e', he', h1, h2⟩ := h e (by simp [he]) hb hek
            rcases List.mem_append.mp he' with he' | he'
            · exact ⟨e', he', h1, h2⟩
            · exfalso
              rcases List.mem_cons.mp he' with rfl | he'
              · simp only at h2; rw [hgt] at h2; simp at h2
              · have h3 := Std.TransCmp.lt_trans (hs'.2.2.2.1 e' he') h2
                simp only at h3; rw [hgt] at h3; simp at h3)
          simp only [h0, if_false, hl]

/-! ### Byte slices with nil -/

theorem byteSliceOps_equal (a b : Slice) : byteSliceOps.equal a b = true ↔ a = b := by
  show comparableByteSliceEqual a b = true ↔ a = b
  unfold comparableByteSliceEqual
  split
  · rename_i h
    simp only [Bool.false_eq_true, false_iff]
    rintro rfl; exact h rfl
  · rw [equalByteSlice_iff]

/-- The key `k` is a strict prefix of `e`; nil is a prefix of nothing. -/
def StrictPrefix (k e : Slice) : Prop := ∃ a b, e = some a ∧ k = some b ∧ b <+: a ∧ b ≠ a

theorem sliceZero_compare (a b : Slice) : ((selfZero byteSliceOps).compare a b = none ↔ StrictPrefix b a) ∧
    ∀ c, (selfZero byteSliceOps).compare a b = some c → c = ordInt (compare a b) := by
  by_cases heq : byteSliceOps.equal a b = true
  · have e : (selfZero byteSliceOps).compare a b = some 0 := by simp [selfZero, heq]
    have := (byteSliceOps_equal a b).mp heq
    subst this
    rw [e]
    refine ⟨⟨fun h => by simp at h, ?_⟩, fun c h => ?_⟩
    · rintro ⟨x, y, rfl, h, -, hne⟩
      cases h; exact absurd rfl hne
    · simp only [Option.some.injEq] at h
      subst h
      rw [Std.ReflOrd.compare_self]; rfl
  · have e : (selfZero byteSliceOps).compare a b = byteSliceOps.compare a b := by simp [selfZero, heq]
    rw [e]
    cases a with
    | none =>
      refine ⟨⟨fun h => by simp [byteSliceOps, comparableByteSliceCompare] at h, ?_⟩, fun c h => ?_⟩
      · rintro ⟨x, y, h, -⟩; simp at h
      · simp only [byteSliceOps, comparableByteSliceCompare, Option.some.injEq] at h
        subst h
        cases b with
        | none => exact absurd ((byteSliceOps_equal none none).mpr rfl) heq
        | some b => rfl
    | some a =>
      have e : byteSliceOps.compare (some a) b = match compareByteSlice (some a) b with
        | .ok c => some c
        | _ => none := rfl
      rw [e]
      by_cases h : ∃ x y, (some a : Slice) = some x ∧ b = some y ∧ y <+: x ∧ y ≠ x
      · rw [(C17_compare_panics_iff_partial (some a) b).mpr h]
        exact ⟨⟨fun _ => h, fun _ => rfl⟩, fun c hc => by simp at hc⟩
      · rw [C17_compare_lexicographic_partial (some a) b h]
        exact ⟨⟨fun h => by simp at h, fun h' => absurd h' h⟩, fun c hc => by simp only [Option.some.injEq] at hc; exact hc.symm⟩

theorem sliceZero_lawful : LawfulKeys (selfZero byteSliceOps) compare ∧ GuardedKeys (selfZero byteSliceOps) compare := by
  refine ⟨⟨inferInstanceAs (Std.TransOrd Slice), fun a b => ?_, fun a b c h => ?_⟩, fun a b h => ?_⟩
  · rw [Std.LawfulEqCmp.compare_eq_iff_eq]; exact byteSliceOps_equal a b
  · rw [(sliceZero_compare a b).2 c h]; exact ordInt_sign _
  · obtain ⟨x, y, rfl, rfl, h1, h2⟩ := (sliceZero_compare a b).1.mp h
    have := bytesOps_lawful.2 x y (by rw [bytesOps_compare, if_pos ⟨h1, h2⟩])
    exact this

theorem put_selfZero (ops : KeyOps K) (m : SortedMap K V) (k : K) (v : V) : m.put (selfZero ops) k v = m.put ops k v := by
  simp only [SortedMap.put, putNode_eq, putR_selfZero]

theorem get_selfZero (ops : KeyOps K) (m : SortedMap K V) (k : K) : m.get (selfZero ops) k = m.get ops k := by
  simp only [SortedMap.get, SortedMap.getNode, getR_selfZero]

/-- The keys in a map, in order. -/
def keysIn (m : SortedMap Slice V) : List Slice := (entries m.root).map Prod.fst

/-- The key is in the map, and so is nil, and no key in between. -/
def AfterNil (m : SortedMap Slice V) (k : Slice) : Prop :=
  k ≠ none ∧ none ∈ keysIn m ∧ k ∈ keysIn m ∧ ∀ e ∈ keysIn m, e ≠ none → compare e k ≠ .lt

/-- Unless the key after nil is removed, it does not matter how nil compares with itself. -/
theorem remove_selfZero (m : SortedMap Slice V) (hm : GoodMap compare m) (k : Slice) (h : ¬ AfterNil m k) :
    m.remove (selfZero byteSliceOps) k = m.remove byteSliceOps k := by
  have hself : ∀ e : Slice, (¬ ∃ c, byteSliceOps.compare e e = some c ∧ ¬ c < 0) → e = none := by
    intro e he
    cases e with
    | none => rfl
    | some a =>
      refine absurd ⟨0, ?_, by decide⟩ he
      have e : byteSliceOps.compare (some a) (some a) = bytesOps.compare a a := rfl
      rw [e, bytesOps_compare, if_neg (fun h => h.2 rfl), Std.ReflOrd.compare_self]; rfl
  have key : m.root.removeR (selfZero byteSliceOps) k = m.root.removeR byteSliceOps k := by
    by_cases h1 : k = none
    · subst h1
      refine removeR_least sliceZero_lawful.1 none m.root hm.increasing ?_
      rintro ⟨a, v⟩ -
      cases a <;> simp [compare]
    by_cases h2 : k ∈ keysIn m
    · refine removeR_between sliceZero_lawful.1 (fun a => (byteSliceOps_equal a a).mpr rfl) k m.root hm.increasing ?_
      intro e he hb hek
      have hn := hself e.1 hb
      have h3 : ∃ x ∈ keysIn m, x ≠ none ∧ compare x k = .lt := by
        by_contra hc
        exact h ⟨h1, List.mem_map.mpr ⟨e, he, hn⟩, h2, fun x hx hxn hlt => hc ⟨x, hx, hxn, hlt⟩⟩
      obtain ⟨x, hx, hxn, hlt⟩ := h3
      obtain ⟨e', he', rfl⟩ := List.mem_map.mp hx
      refine ⟨e', he', ?_, hlt⟩
      rw [hn]
      cases hx' : e'.1 with
      | none => exact absurd hx' hxn
      | some a => rfl
    · refine removeR_missing sliceZero_lawful.1 k m.root ?_
      intro e he hc
      exact h2 (List.mem_map.mpr ⟨e, he, Std.LawfulEqCmp.compare_eq_iff_eq.mp hc⟩)
  simp only [SortedMap.remove, SortedMap.removeNode, key]

/-- The key after nil is never removed. -/
def NilSafe (m : SortedMap Slice V) : List (MapOp Slice V) → Prop
  | [] => True
  | .put k v :: os => NilSafe (m.put byteSliceOps k v).1 os
  | .remove k :: os => ¬ AfterNil m k ∧ NilSafe (m.remove byteSliceOps k).1 os

theorem runMap_nilSafe (os : List (MapOp Slice V)) (m : SortedMap Slice V) (hm : GoodMap compare m) (h : NilSafe m os) :
    runMap byteSliceOps m os = runMap (selfZero byteSliceOps) m os := by
  induction os generalizing m with
  | nil => rfl
  | cons o os ih =>
    cases o with
    | put k v =>
      simp only [runMap, NilSafe] at h ⊢
      rw [put_selfZero]
      have hm' : GoodMap compare (m.put byteSliceOps k v).1 := by
        rw [← put_selfZero]
        rcases put_step sliceZero_lawful.1 m hm k v with ⟨-, e⟩ | ⟨m', e, hm', -⟩
        · rw [e]; exact hm
        · rw [e]; exact hm'
      rw [ih _ hm' h]
    | remove k =>
      simp only [runMap, NilSafe] at h ⊢
      rw [remove_selfZero m hm k h.1]
      have hm' : GoodMap compare (m.remove byteSliceOps k).1 := by
        rw [← remove_selfZero m hm k h.1]
        rcases remove_step sliceZero_lawful.1 sliceZero_lawful.2 m hm k with ⟨-, e⟩ | ⟨m', e, hm', -⟩
        · rw [e]; exact hm
        · rw [e]; exact hm'
      rw [ih _ hm' h.2]

/-- C25 with the nil slice among the keys: as long as the smallest other key is not removed while nil is in the map, it behaves as a finite
map, and a call panics only if its key is a strict prefix of a key in the map, without any effect. -/
theorem C25_nil_partial (os : List (MapOp Slice V)) (h : NilSafe SortedMap.new os) :
    let m := (runMap byteSliceOps SortedMap.new os).1
    ∃ f : FMap Slice V, FMap.Runs compare FMap.empty os (runMap byteSliceOps SortedMap.new os).2 f ∧
      (∀ k, m.get byteSliceOps k = some (f k) ∨ m.get byteSliceOps k = none ∧ ∃ e, (f e).isSome ∧ StrictPrefix k e) ∧
      (∀ k v, (m.put byteSliceOps k v).2 = some (f k) ∨ m.put byteSliceOps k v = (m, none) ∧ ∃ e, (f e).isSome ∧ StrictPrefix k e) ∧
      (∀ k, k = none ∨ f none = none ∨ f k = none ∨ (∃ e, (f e).isSome ∧ e ≠ none ∧ compare e k = .lt) →
        (m.remove byteSliceOps k).2 = some (f k) ∨
        m.remove byteSliceOps k = (m, none) ∧ ∃ e, (f e).isSome ∧ StrictPrefix k e) ∧
      Balanced m.root ∧ ((entries m.root).map Prod.fst).Pairwise (fun a b => compare a b = .lt) ∧
      ∃ n : Nat, m.size = n ∧ f.HasSize compare n := by
  intro m
  have := sliceZero_lawful.1.trans
  have e := runMap_nilSafe os SortedMap.new new_good h
  obtain ⟨hm, hr⟩ := runMap_runs sliceZero_lawful.1 sliceZero_lawful.2 os (SortedMap.new : SortedMap Slice V) new_good
  rw [← e] at hm hr
  rw [contents_new] at hr
  have key : ∀ k, (∃ e ∈ entries m.root, (selfZero byteSliceOps).compare e.1 k = none) → ∃ e, (contents compare m e).isSome ∧ StrictPrefix k e := by
    rintro k ⟨e, he, h⟩
    refine ⟨e.1, ?_, (sliceZero_compare e.1 k).1.mp h⟩
    unfold contents lookL
    rw [Option.isSome_map, findL_isSome_iff]
    exact ⟨e, he, Std.ReflCmp.compare_self⟩
  have hget : ∀ k, m.get byteSliceOps k = some (contents compare m k) ∨
      m.get byteSliceOps k = none ∧ ∃ e, (contents compare m e).isSome ∧ StrictPrefix k e := by
    intro k
    rw [← get_selfZero]
    rcases get_step sliceZero_lawful.1 _ hm k with ⟨h1, h⟩ | h
    · exact .inr ⟨h, key k h1⟩
    · exact .inl h
  refine ⟨_, hr, hget, fun k v => ?_, fun k hk => ?_, hm.balanced, ?_, ⟨_, hm.size, lookL_hasSize hm.increasing⟩⟩
  · rw [← put_selfZero]
    rcases put_step sliceZero_lawful.1 _ hm k v with ⟨h1, h⟩ | ⟨m', h, -⟩
    · exact .inr ⟨h, key k h1⟩
    · left; rw [h]
  · rw [← remove_selfZero m hm k]
    · rcases remove_step sliceZero_lawful.1 sliceZero_lawful.2 _ hm k with ⟨h1, h⟩ | ⟨m', h, -⟩
      · exact .inr ⟨h, key k h1⟩
      · left; rw [h]
    · have hin : ∀ x, x ∈ keysIn m ↔ (contents compare m x).isSome := by
        intro x
        unfold contents lookL keysIn
        rw [Option.isSome_map, findL_isSome_iff]
        simp only [Std.LawfulEqCmp.compare_eq_iff_eq, List.mem_map]
      rintro ⟨h1, h2, h3, h4⟩
      rw [hin] at h2 h3
      rcases hk with hk | hk | hk | ⟨x, hx, hxn, hlt⟩
      · exact h1 hk
      · have hk : contents compare m none = none := hk
        rw [hk] at h2; simp at h2
      · have hk : contents compare m k = none := hk
        rw [hk] at h3; simp at h3
      · exact h4 x ((hin x).mpr hx) hxn hlt
  · exact List.pairwise_map.mpr hm.increasing

/-- Nil is in the map when "b" and "c" are removed, and "a" is there as well; "a" is removed when nil is not there. -/
def nilHistory : List (MapOp Slice Nat) :=
  [.put (some [97]) 1, .put none 0, .put (some [98]) 2, .put (some [99]) 3, .remove (some [98]), .remove (some [120]), .remove none, .remove (some [97]), .put none 5]

theorem nilHistory_safe : NilSafe SortedMap.new nilHistory := by
  simp only [NilSafe, nilHistory, AfterNil]
  decide +kernel

example := C25_nil_partial nilHistory nilHistory_safe

example : (runMap byteSliceOps SortedMap.new nilHistory).2 =
    [some none, some none, some none, some none, some (some 2), some none, some (some 0), some (some 1), some (none : Option Nat)] := by decide +kernel

/-- The key after nil is removed in the history of `C25_nil_key_refuted`. -/
example : ¬ NilSafe (SortedMap.new : SortedMap Slice Nat) [.put (some [97]) 1, .put none 0, .put (some [98]) 2, .remove (some [97])] := by
  simp only [NilSafe, AfterNil]
  decide +kernel

end Poodle.Props
