import Verif.Lemmas.Avl

set_option linter.unusedSectionVars false

namespace Poodle
open Poodle.Spec

variable {K V : Type} {cmp : K → K → Ordering}

/-! ### Ordered lists of entries -/

def insL (cmp : K → K → Ordering) (k : K) (v : V) (l : List (K × V)) : List (K × V) :=
  l.filter (fun e => cmp e.1 k = .lt) ++ (k, v) :: l.filter (fun e => cmp e.1 k = .gt)

def remL (cmp : K → K → Ordering) (k : K) (l : List (K × V)) : List (K × V) := l.filter fun e => cmp e.1 k ≠ .eq

def findL (cmp : K → K → Ordering) (k : K) (l : List (K × V)) : Option (K × V) := l.find? fun e => cmp e.1 k = .eq

theorem increasing_append_cons {A B : List (K × V)} {x : K × V} (h : Increasing cmp (A ++ x :: B)) :
    Increasing cmp A ∧ Increasing cmp B ∧ (∀ a ∈ A, cmp a.1 x.1 = .lt) ∧ (∀ b ∈ B, cmp x.1 b.1 = .lt) ∧
      (∀ a ∈ A, ∀ b ∈ B, cmp a.1 b.1 = .lt) := by
  unfold Increasing at *
  rw [List.pairwise_append, List.pairwise_cons] at h
  refine ⟨h.1, h.2.1.2, fun a ha => h.2.2 a ha x (by simp), h.2.1.1, fun a ha b hb => h.2.2 a ha b (by simp [hb])⟩

theorem increasing_append_cons_iff {A B : List (K × V)} {x : K × V} : Increasing cmp (A ++ x :: B) ↔
    Increasing cmp A ∧ Increasing cmp B ∧ (∀ a ∈ A, cmp a.1 x.1 = .lt) ∧ (∀ b ∈ B, cmp x.1 b.1 = .lt) ∧
      (∀ a ∈ A, ∀ b ∈ B, cmp a.1 b.1 = .lt) := by
  refine ⟨increasing_append_cons, fun ⟨h1, h2, h3, h4, h5⟩ => ?_⟩
  unfold Increasing at *
  rw [List.pairwise_append, List.pairwise_cons]
  refine ⟨h1, ⟨h4, h2⟩, fun a ha b hb => ?_⟩
  simp at hb
  rcases hb with rfl | hb
  · exact h3 a ha
  · exact h5 a ha b hb

section
variable [Std.TransCmp cmp]

theorem cmp_lt_trans {a b c : K} (h1 : cmp a b = .lt) (h2 : cmp b c = .lt) : cmp a c = .lt := Std.TransCmp.lt_trans h1 h2

theorem cmp_swap_lt {a b : K} : cmp a b = .lt ↔ cmp b a = .gt := by
  rw [Std.OrientedCmp.eq_swap (cmp := cmp) (a := a) (b := b)]; cases cmp b a <;> simp

theorem cmp_lt_eq {a b c : K} (h1 : cmp a b = .lt) (h2 : cmp b c = .eq) : cmp a c = .lt :=
  Std.TransCmp.lt_of_lt_of_eq h1 h2

theorem cmp_eq_symm {a b : K} : cmp a b = .eq ↔ cmp b a = .eq := Std.OrientedCmp.eq_comm

/-- Everything below a key that is below `k`. -/
theorem filters_lt {A : List (K × V)} {k : K} (h : ∀ a ∈ A, cmp a.1 k = .lt) :
    A.filter (fun e => cmp e.1 k = .lt) = A ∧ A.filter (fun e => cmp e.1 k = .gt) = [] ∧ remL cmp k A = A ∧
      findL cmp k A = none := by
  refine ⟨?_, ?_, ?_, ?_⟩
  · rw [List.filter_eq_self]; intro a ha; simp [h a ha]
  · rw [List.filter_eq_nil_iff]; intro a ha; simp [h a ha]
  · unfold remL; rw [List.filter_eq_self]; intro a ha; simp [h a ha]
  · unfold findL; rw [List.find?_eq_none]; intro a ha; simp [h a ha]

theorem filters_gt {A : List (K × V)} {k : K} (h : ∀ a ∈ A, cmp k a.1 = .lt) :
    A.filter (fun e => cmp e.1 k = .lt) = [] ∧ A.filter (fun e => cmp e.1 k = .gt) = A ∧ remL cmp k A = A ∧
      findL cmp k A = none := by
  have h : ∀ a ∈ A, cmp a.1 k = .gt := fun a ha => cmp_swap_lt.mp (h a ha)
  refine ⟨?_, ?_, ?_, ?_⟩
  · rw [List.filter_eq_nil_iff]; intro a ha; simp [h a ha]
  · rw [List.filter_eq_self]; intro a ha; simp [h a ha]
  · unfold remL; rw [List.filter_eq_self]; intro a ha; simp [h a ha]
  · unfold findL; rw [List.find?_eq_none]; intro a ha; simp [h a ha]

variable {A B : List (K × V)} {x : K × V} {k : K} {v : V}

theorem list_ops_lt (h : Increasing cmp (A ++ x :: B)) (hk : cmp x.1 k = .lt) :
    insL cmp k v (A ++ x :: B) = A ++ x :: insL cmp k v B ∧ remL cmp k (A ++ x :: B) = A ++ x :: remL cmp k B ∧
      findL cmp k (A ++ x :: B) = findL cmp k B := by
  obtain ⟨-, -, h3, -, -⟩ := increasing_append_cons h
  obtain ⟨f1, f2, f3, f4⟩ := filters_lt (A := A) (k := k) fun a ha => cmp_lt_trans (h3 a ha) hk
  refine ⟨?_, ?_, ?_⟩
  · unfold insL; rw [List.filter_append, List.filter_append, f1, f2]; simp [hk]
  · unfold remL at *; rw [List.filter_append, f3]; simp [hk]
  · unfold findL at *; rw [List.find?_append, f4]; simp [hk]

theorem list_ops_gt (h : Increasing cmp (A ++ x :: B)) (hk : cmp x.1 k = .gt) :
    insL cmp k v (A ++ x :: B) = insL cmp k v A ++ x :: B ∧ remL cmp k (A ++ x :: B) = remL cmp k A ++ x :: B ∧
      findL cmp k (A ++ x :: B) = findL cmp k A := by
  obtain ⟨-, -, -, h4, -⟩ := increasing_append_cons h
  obtain ⟨f1, f2, f3, f4⟩ := filters_gt (A := B) (k := k) fun a ha => cmp_lt_trans (cmp_swap_lt.mpr hk) (h4 a ha)
  refine ⟨?_, ?_, ?_⟩
  · unfold insL; rw [List.filter_append, List.filter_append, List.filter_cons, List.filter_cons, f1, f2]; simp [hk]
  · unfold remL at *; rw [List.filter_append, List.filter_cons, f3]; simp [hk]
  · unfold findL at *; rw [List.find?_append, List.find?_cons, f4]; simp [hk]

theorem list_ops_eq (h : Increasing cmp (A ++ x :: B)) (hk : cmp x.1 k = .eq) :
    insL cmp k v (A ++ x :: B) = A ++ (k, v) :: B ∧ remL cmp k (A ++ x :: B) = A ++ B ∧
      findL cmp k (A ++ x :: B) = some x := by
  obtain ⟨-, -, h3, h4, -⟩ := increasing_append_cons h
  obtain ⟨f1, f2, f3, f4⟩ := filters_lt (A := A) (k := k) fun a ha => cmp_lt_eq (h3 a ha) hk
  obtain ⟨g1, g2, g3, g4⟩ := filters_gt (A := B) (k := k) fun a ha => Std.TransCmp.lt_of_eq_of_lt (cmp_eq_symm.mp hk) (h4 a ha)
  refine ⟨?_, ?_, ?_⟩
  · unfold insL; rw [List.filter_append, List.filter_append, List.filter_cons, List.filter_cons, f1, f2, g1, g2]; simp [hk]
  · unfold remL at *; rw [List.filter_append, List.filter_cons, f3, g3]; simp [hk]
  · unfold findL at *; rw [List.find?_append, List.find?_cons, f4]; simp [hk]

theorem insL_increasing {l : List (K × V)} (h : Increasing cmp l) (k : K) (v : V) : Increasing cmp (insL cmp k v l) := by
  unfold insL
  rw [increasing_append_cons_iff]
  have lt_of {a b : K × V} (ha : cmp a.1 k = .lt) (hb : cmp b.1 k = .gt) : cmp a.1 b.1 = .lt :=
    cmp_lt_trans ha (cmp_swap_lt.mpr hb)
  refine ⟨h.filter _, h.filter _, fun a ha => ?_, fun b hb => ?_, fun a ha b hb => ?_⟩
  · simpa using (List.mem_filter.mp ha).2
  · exact cmp_swap_lt.mpr (by simpa using (List.mem_filter.mp hb).2)
  · exact lt_of (by simpa using (List.mem_filter.mp ha).2) (by simpa using (List.mem_filter.mp hb).2)

theorem remL_increasing {l : List (K × V)} (h : Increasing cmp l) (k : K) : Increasing cmp (remL cmp k l) := h.filter _

/-! ### Insertion -/

variable {ops : KeyOps K}

theorem not_lt_cases {a b : K} (h1 : cmp a b ≠ .eq) (h2 : cmp a b ≠ .lt) : cmp a b = .gt := by
  cases h : cmp a b <;> simp_all

theorem putR_spec (hops : LawfulKeys ops cmp) (k : K) (v : V) (t : Tree K V) (hb : Balanced t)
    (hs : Increasing cmp (entries t)) :
    ((∃ e ∈ entries t, ops.compare e.1 k = none) ∧ t.putR ops k v = (t, none)) ∨
    ∃ T done, t.putR ops k v = (T, some (findL cmp k (entries t), done)) ∧ entries T = insL cmp k v (entries t) ∧
      Balanced T ∧ PutOk t T done := by
  induction t with
  | nil =>
    right
    refine ⟨.node k v 0 .nil .nil, false, rfl, rfl, ?_, ?_⟩
    · simp [Balanced, height]
    · simp [PutOk, height]
  | node k0 v0 b l r ihl ihr =>
    have hb' := hb
    obtain ⟨b1, b2, b3, hl, hr⟩ := hb
    simp only [entries] at hs
    have hs' := increasing_append_cons hs
    simp only [Tree.putR]
    by_cases heq : ops.equal k0 k = true
    · right
      have hc := (hops.equal_iff _ _).mp heq
      obtain ⟨e1, -, e3⟩ := list_ops_eq (v := v) hs hc
      rw [if_pos heq]
      refine ⟨.node k v b l r, true, ?_, ?_, ⟨b1, b2, b3, hl, hr⟩, ?_⟩
      · simp only [entries]; rw [e3]
      · simp only [entries]; rw [e1]
      · simp [PutOk, height]
    · rw [if_neg heq]
      have hne : cmp k0 k ≠ .eq := fun h => heq ((hops.equal_iff _ _).mpr h)
      cases hc : ops.compare k0 k with
      | none => left; exact ⟨⟨(k0, v0), by simp [entries], hc⟩, rfl⟩
      | some c =>
        obtain ⟨c1, -⟩ := hops.compare_sign _ _ _ hc
        simp only
        by_cases hlt : c < 0
        · rw [if_pos hlt]
          obtain ⟨e1, -, e3⟩ := list_ops_lt (v := v) hs (c1.mp hlt)
          rcases ihr hr hs'.2.1 with ⟨⟨e, he, hp⟩, hp'⟩ | ⟨T, done, h1, h2, h3, h4⟩
          · left; rw [hp']; exact ⟨⟨e, by simp [entries, he], hp⟩, rfl⟩
          · right
            rw [h1]
            obtain ⟨T', done', g1, g2, g3, g4⟩ := putFinish_true k0 v0 b l r T (findL cmp k (entries r)) done hb' h3 h4
            exact ⟨T', done', by simp only [entries]; rw [e3, g1], by simp only [entries]; rw [e1, g2, h2], g3, g4⟩
        · rw [if_neg hlt]
          have hgt := not_lt_cases hne (fun h => hlt (c1.mpr h))
          obtain ⟨e1, -, e3⟩ := list_ops_gt (v := v) hs hgt
          rcases ihl hl hs'.1 with ⟨⟨e, he, hp⟩, hp'⟩ | ⟨T, done, h1, h2, h3, h4⟩
          · left; rw [hp']; exact ⟨⟨e, by simp [entries, he], hp⟩, rfl⟩
          · right
            rw [h1]
            obtain ⟨T', done', g1, g2, g3, g4⟩ := putFinish_false k0 v0 b l r T (findL cmp k (entries l)) done hb' h3 h4
            exact ⟨T', done', by simp only [entries]; rw [e3, g1], by simp only [entries]; rw [e1, g2, h2], g3, g4⟩

/-! ### Lookup -/

theorem getR_spec (hops : LawfulKeys ops cmp) (k : K) (t : Tree K V) (hs : Increasing cmp (entries t)) :
    ((∃ e ∈ entries t, ops.compare e.1 k = none) ∧ t.getR ops k = none) ∨
    ∃ n, t.getR ops k = some (findL cmp k (entries t), n) ∧ n ≤ height t := by
  induction t with
  | nil => right; exact ⟨0, rfl, Nat.le_refl _⟩
  | node k0 v0 b l r ihl ihr =>
    simp only [entries] at hs
    have hs' := increasing_append_cons hs
    simp only [Tree.getR, height]
    by_cases heq : ops.equal k0 k = true
    · right
      have hc := (hops.equal_iff _ _).mp heq
      obtain ⟨-, -, e3⟩ := list_ops_eq (v := v0) hs hc
      rw [if_pos heq]
      refine ⟨1, ?_, by omega⟩
      simp only [entries]; rw [e3]
    · rw [if_neg heq]
      have hne : cmp k0 k ≠ .eq := fun h => heq ((hops.equal_iff _ _).mpr h)
      cases hc : ops.compare k0 k with
      | none => left; exact ⟨⟨(k0, v0), by simp [entries], hc⟩, rfl⟩
      | some c =>
        obtain ⟨c1, -⟩ := hops.compare_sign _ _ _ hc
        simp only
        by_cases hlt : c < 0
        · rw [if_pos hlt]
          obtain ⟨-, -, e3⟩ := list_ops_lt (v := v0) hs (c1.mp hlt)
          rcases ihr hs'.2.1 with ⟨⟨e, he, hp⟩, hp'⟩ | ⟨n, h1, h2⟩
          · left; rw [hp']; exact ⟨⟨e, by simp [entries, he], hp⟩, rfl⟩
          · right; rw [h1]; refine ⟨n + 1, ?_, by omega⟩; simp only [entries]; rw [e3]; rfl
        · rw [if_neg hlt]
          have hgt := not_lt_cases hne (fun h => hlt (c1.mpr h))
          obtain ⟨-, -, e3⟩ := list_ops_gt (v := v0) hs hgt
          rcases ihl hs'.1 with ⟨⟨e, he, hp⟩, hp'⟩ | ⟨n, h1, h2⟩
          · left; rw [hp']; exact ⟨⟨e, by simp [entries, he], hp⟩, rfl⟩
          · right; rw [h1]; refine ⟨n + 1, ?_, by omega⟩; simp only [entries]; rw [e3]; rfl

/-! ### Removal -/

theorem rightmost_spec (t : Tree K V) (h : t ≠ .nil) :
    ∃ x A, t.rightmost = some x ∧ entries t = A ++ [x] := by
  induction t with
  | nil => exact absurd rfl h
  | node k v b l r _ ihr =>
    cases r with
    | nil => exact ⟨(k, v), entries l, rfl, rfl⟩
    | node rk rv rb rl rr =>
      obtain ⟨x, A, h1, h2⟩ := ihr (by simp)
      exact ⟨x, entries l ++ (k, v) :: A, by simpa [Tree.rightmost] using h1, by
        simp only [entries] at h2 ⊢; rw [h2]; simp⟩

/-- `t` is not touched by a panic, provided comparisons of keys of `t` panic only when the receiver is greater. -/
theorem removeR_spec (hops : LawfulKeys ops cmp) (k : K) (t : Tree K V) (hb : Balanced t)
    (hs : Increasing cmp (entries t)) (hg : ∀ e ∈ entries t, ∀ e' ∈ entries t, ops.compare e.1 e'.1 = none → cmp e.1 e'.1 = .gt) :
    ((∃ e ∈ entries t, ops.compare e.1 k = none) ∧ t.removeR ops k = (t, none)) ∨
    ∃ T done, t.removeR ops k = (T, some (findL cmp k (entries t), done)) ∧ entries T = remL cmp k (entries t) ∧
      Balanced T ∧ RemOk t T done := by
  induction t generalizing k with
  | nil =>
    right
    exact ⟨.nil, true, rfl, rfl, trivial, by simp [RemOk]⟩
  | node k0 v0 b l r ihl ihr =>
    have hb' := hb
    obtain ⟨b1, b2, b3, hl, hr⟩ := hb
    simp only [entries] at hs
    have hs' := increasing_append_cons hs
    have hgl : ∀ e ∈ entries l, ∀ e' ∈ entries l, ops.compare e.1 e'.1 = none → cmp e.1 e'.1 = .gt :=
      fun e he e' he' => hg e (by simp [entries, he]) e' (by simp [entries, he'])
    have hgr : ∀ e ∈ entries r, ∀ e' ∈ entries r, ops.compare e.1 e'.1 = none → cmp e.1 e'.1 = .gt :=
      fun e he e' he' => hg e (by simp [entries, he]) e' (by simp [entries, he'])
    by_cases heq : ops.equal k0 k = true
    · right
      have hc := (hops.equal_iff _ _).mp heq
      obtain ⟨-, e2, e3⟩ := list_ops_eq (v := v0) hs hc
      simp only [entries]
      rw [e2, e3]
      cases l with
      | nil =>
        refine ⟨r, false, by simp [Tree.removeR, heq], by simp [entries], hr, by simp, ?_⟩
        simp [height]
      | node lk lv lb ll lr =>
        cases r with
        | nil =>
          refine ⟨.node lk lv lb ll lr, false, by simp [Tree.removeR, heq], by simp [entries], hl, by simp, ?_⟩
          intro _
          simp only [height]; omega
        | node rk rv rb rl rr =>
          obtain ⟨⟨hk, hv⟩, A, m1, m2⟩ := rightmost_spec (.node lk lv lb ll lr) (by simp)
          have hself : cmp hk hk = .eq := Std.ReflCmp.compare_self
          have hsl := hs'.1
          rw [m2] at hsl
          have hA := (increasing_append_cons (B := []) hsl).2.2.1
          cases hcc : ops.compare hk hk with
          | none => have := hgl (hk, hv) (by rw [m2]; simp) (hk, hv) (by rw [m2]; simp) hcc; rw [hself] at this; simp at this
          | some c =>
            have hc0 : ¬ c < 0 := by
              rw [(hops.compare_sign _ _ _ hcc).1, hself]; simp
            rcases ihl hk hl hs'.1 hgl with ⟨⟨e, he, hp⟩, -⟩ | ⟨T, done, h1, h2, h3, h4⟩
            · exfalso
              have := hgl e he (hk, hv) (by rw [m2]; simp) hp
              rw [m2] at he
              simp at he
              rcases he with he | rfl
              · rw [hA e he] at this; simp at this
              · rw [hself] at this; simp at this
            · obtain ⟨T', done', g1, g2, g3, g4⟩ := removeFinish_false k0 v0 hk hv b (.node lk lv lb ll lr) (.node rk rv rb rl rr) T
                (some (k0, v0)) done hb' h3 h4
              refine ⟨T', done', ?_, ?_, g3, g4⟩
              · rw [Tree.removeR.eq_def]
                simp only [if_pos heq]
                simp only [m1, hcc, if_neg hc0, h1]
                exact g1
              · have e4 : remL cmp hk (A ++ [(hk, hv)]) = A := by
                  have := (list_ops_eq (v := v0) (B := []) hsl hself).2.1
                  simpa using this
                rw [g2, h2, m2, e4]; simp
    · have hne : cmp k0 k ≠ .eq := fun h => heq ((hops.equal_iff _ _).mpr h)
      rw [Tree.removeR.eq_def]
      simp only [if_neg heq]
      cases hc : ops.compare k0 k with
      | none => left; exact ⟨⟨(k0, v0), by simp [entries], hc⟩, rfl⟩
      | some c =>
        obtain ⟨c1, -⟩ := hops.compare_sign _ _ _ hc
        simp only
        by_cases hlt : c < 0
        · rw [if_pos hlt]
          obtain ⟨-, e2, e3⟩ := list_ops_lt (v := v0) hs (c1.mp hlt)
          rcases ihr k hr hs'.2.1 hgr with ⟨⟨e, he, hp⟩, hp'⟩ | ⟨T, done, h1, h2, h3, h4⟩
          · left; rw [hp']; exact ⟨⟨e, by simp [entries, he], hp⟩, rfl⟩
          · right
            rw [h1]
            obtain ⟨T', done', g1, g2, g3, g4⟩ := removeFinish_true k0 v0 k0 v0 b l r T (findL cmp k (entries r)) done hb' h3 h4
            exact ⟨T', done', by simp only [entries]; rw [e3, g1], by simp only [entries]; rw [e2, g2, h2], g3, g4⟩
        · rw [if_neg hlt]
          have hgt := not_lt_cases hne (fun h => hlt (c1.mpr h))
          obtain ⟨-, e2, e3⟩ := list_ops_gt (v := v0) hs hgt
          rcases ihl k hl hs'.1 hgl with ⟨⟨e, he, hp⟩, hp'⟩ | ⟨T, done, h1, h2, h3, h4⟩
          · left; rw [hp']; exact ⟨⟨e, by simp [entries, he], hp⟩, rfl⟩
          · right
            rw [h1]
            obtain ⟨T', done', g1, g2, g3, g4⟩ := removeFinish_false k0 v0 k0 v0 b l r T (findL cmp k (entries l)) done hb' h3 h4
            exact ⟨T', done', by simp only [entries]; rw [e3, g1], by simp only [entries]; rw [e2, g2, h2], g3, g4⟩

/-! ### View as a finite map -/

/-- Lookup in a list of entries. -/
def lookL (cmp : K → K → Ordering) (l : List (K × V)) : FMap K V := fun k => (findL cmp k l).map Prod.snd

omit [Std.TransCmp cmp] in
theorem findL_isSome_iff {l : List (K × V)} {k : K} : (findL cmp k l).isSome ↔ ∃ e ∈ l, cmp e.1 k = .eq := by
  unfold findL; simp

/-- In an increasing list, the entry of a key is unique. -/
theorem findL_eq_some_iff {l : List (K × V)} (h : Increasing cmp l) {k : K} {e : K × V} :
    findL cmp k l = some e ↔ e ∈ l ∧ cmp e.1 k = .eq := by
  constructor
  · intro he
    exact ⟨List.mem_of_find?_eq_some he, by simpa using List.find?_some he⟩
  · rintro ⟨he, hk⟩
    obtain ⟨A, B, rfl⟩ := List.append_of_mem he
    exact (list_ops_eq (v := e.2) h hk).2.2

theorem cmp_congr_right {a b c : K} (h : cmp b c = .eq) : cmp a b = cmp a c := Std.TransCmp.congr_right h

theorem lookL_insL {l : List (K × V)} (h : Increasing cmp l) (k : K) (v : V) :
    lookL cmp (insL cmp k v l) = (lookL cmp l).put cmp k v := by
  funext x
  unfold FMap.put lookL
  have hi := insL_increasing h k v
  split
  · rename_i hx
    have : findL cmp x (insL cmp k v l) = some (k, v) := by
      rw [findL_eq_some_iff hi]
      exact ⟨by simp [insL], cmp_eq_symm.mp hx⟩
    simp [this]
  · rename_i hx
    have hx' : cmp k x ≠ .eq := fun hc => hx (cmp_eq_symm.mp hc)
    congr 1
    rcases hf : findL cmp x l with - | e
    · have : ¬ (findL cmp x (insL cmp k v l)).isSome := by
        rw [findL_isSome_iff]
        rintro ⟨e, he, hex⟩
        simp only [insL, List.mem_append, List.mem_cons, List.mem_filter] at he
        have : e ∈ l → False := fun hel => by
          have := findL_isSome_iff.mpr ⟨e, hel, hex⟩
          rw [hf] at this; simp at this
        rcases he with he | rfl | he
        · exact this he.1
        · exact hx' hex
        · exact this he.1
      simpa using this
    · obtain ⟨he, hek⟩ := (findL_eq_some_iff h).mp hf
      rw [findL_eq_some_iff hi]
      refine ⟨?_, hek⟩
      simp only [insL, List.mem_append, List.mem_cons, List.mem_filter]
      have hne : cmp e.1 k ≠ .eq := fun hc => hx (by
        have h1 : cmp x e.1 = .eq := cmp_eq_symm.mp hek
        rw [cmp_congr_right hc] at h1; exact h1)
      cases hc : cmp e.1 k
      · left; exact ⟨he, by simp⟩
      · exact absurd hc hne
      · right; right; exact ⟨he, by simp⟩

theorem lookL_remL {l : List (K × V)} (h : Increasing cmp l) (k : K) :
    lookL cmp (remL cmp k l) = (lookL cmp l).remove cmp k := by
  funext x
  unfold FMap.remove lookL
  have hi := remL_increasing h k
  split
  · rename_i hx
    have : ¬ (findL cmp x (remL cmp k l)).isSome := by
      rw [findL_isSome_iff]
      rintro ⟨e, he, hex⟩
      simp only [remL, List.mem_filter] at he
      rw [cmp_congr_right hx] at hex
      simp [hex] at he
    simp at this
    simp [this]
  · rename_i hx
    congr 1
    rcases hf : findL cmp x l with - | e
    · have : ¬ (findL cmp x (remL cmp k l)).isSome := by
        rw [findL_isSome_iff]
        rintro ⟨e, he, hex⟩
        simp only [remL, List.mem_filter] at he
        have := findL_isSome_iff.mpr ⟨e, he.1, hex⟩
        rw [hf] at this; simp at this
      simpa using this
    · obtain ⟨he, hek⟩ := (findL_eq_some_iff h).mp hf
      rw [findL_eq_some_iff hi]
      refine ⟨?_, hek⟩
      simp only [remL, List.mem_filter]
      refine ⟨he, ?_⟩
      have hne : cmp e.1 k ≠ .eq := fun hc => hx (by
        have h1 : cmp x e.1 = .eq := cmp_eq_symm.mp hek
        rw [cmp_congr_right hc] at h1; exact h1)
      simpa using hne

theorem lookL_hasSize {l : List (K × V)} (h : Increasing cmp l) : (lookL cmp l).HasSize cmp l.length := by
  refine ⟨l.map Prod.fst, by simp, ?_, fun k => ?_⟩
  · rw [List.pairwise_map]
    refine List.Pairwise.imp ?_ h
    intro a b hab hc
    rw [hab] at hc; simp at hc
  · unfold lookL
    rw [Option.isSome_map, findL_isSome_iff]
    simp only [List.mem_map]
    constructor
    · rintro ⟨e, he, hk⟩; exact ⟨e.1, ⟨e, he, rfl⟩, cmp_eq_symm.mp hk⟩
    · rintro ⟨_, ⟨e, he, rfl⟩, hk⟩; exact ⟨e, he, cmp_eq_symm.mp hk⟩

theorem entries_length (t : Tree K V) : (entries t).length = count t := by
  induction t with
  | nil => rfl
  | node k v b l r ihl ihr => simp [entries, count, ihl, ihr]; omega

theorem length_insL {l : List (K × V)} (h : Increasing cmp l) (k : K) (v : V) :
    (insL cmp k v l).length = if (findL cmp k l).isNone then l.length + 1 else l.length := by
  rcases hf : findL cmp k l with - | e
  · have hn : ∀ e ∈ l, cmp e.1 k ≠ .eq := by
      intro e he hk
      have := findL_isSome_iff.mpr ⟨e, he, hk⟩
      rw [hf] at this; simp at this
    have : ∀ l : List (K × V), (∀ e ∈ l, cmp e.1 k ≠ .eq) → (insL cmp k v l).length = l.length + 1 := by
      intro l
      induction l with
      | nil => intro _; simp [insL]
      | cons e l ih =>
        intro hn
        have hr := ih fun x hx => hn x (by simp [hx])
        have he := hn e (by simp)
        simp only [insL, List.length_append, List.length_cons, List.filter_cons] at hr ⊢
        cases hc : cmp e.1 k
        · simp; omega
        · exact absurd hc he
        · simp; omega
    simpa using this l hn
  · obtain ⟨he, hk⟩ := (findL_eq_some_iff h).mp hf
    obtain ⟨A, B, rfl⟩ := List.append_of_mem he
    rw [(list_ops_eq (v := v) h hk).1]
    simp

theorem length_remL {l : List (K × V)} (h : Increasing cmp l) (k : K) :
    ((remL cmp k l).length : Int) = if (findL cmp k l).isNone then (l.length : Int) else l.length - 1 := by
  rcases hf : findL cmp k l with - | e
  · have hn : remL cmp k l = l := by
      unfold remL
      rw [List.filter_eq_self]
      intro e he
      have : cmp e.1 k ≠ .eq := fun hk => by
        have := findL_isSome_iff.mpr ⟨e, he, hk⟩
        rw [hf] at this; simp at this
      simpa using this
    simp [hn]
  · obtain ⟨he, hk⟩ := (findL_eq_some_iff h).mp hf
    obtain ⟨A, B, rfl⟩ := List.append_of_mem he
    rw [(list_ops_eq (v := e.2) h hk).2.1]
    simp; omega

end

end Poodle
