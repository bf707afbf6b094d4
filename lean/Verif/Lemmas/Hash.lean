import Verif.Spec.HashMap

namespace Poodle
open Poodle.Spec

variable {K V : Type} {ops : HashOps K}

/-- All entries, bucket by bucket. -/
def HashTab.all (h : HashTab K V) : List (K × V) := h.array.flatten

/-- No two entries have equal keys. -/
def Distinct (ops : HashOps K) (l : List (K × V)) : Prop := l.Pairwise fun a b => ops.equal a.1 b.1 = false

/-- Every entry is in the bucket its hash selects. -/
def Placed (ops : HashOps K) (arr : List (List (K × V))) : Prop :=
  ∀ (i : Nat) (c : List (K × V)), arr[i]? = some c → ∀ e ∈ c, HashTab.index ops arr.length e.1 = some i

structure GoodTab (ops : HashOps K) (h : HashTab K V) : Prop where
  floor : 10 ≤ h.array.length
  mod : h.array.length < 2 ^ 32
  placed : Placed ops h.array
  distinct : Distinct ops h.all
  size : h.size = h.all.length

/-- Lookup in a list of entries. -/
def lookE (ops : HashOps K) (k : K) (l : List (K × V)) : Option (K × V) := l.find? fun e => ops.equal e.1 k

theorem distinct_perm (hl : LawfulHash ops) {l l' : List (K × V)} (h : l.Perm l') : Distinct ops l ↔ Distinct ops l' := by
  unfold Distinct
  apply h.pairwise_iff
  intro a b hab
  by_contra hc
  rw [hl.symm _ _ (by simpa using hc)] at hab
  simp at hab

theorem lookE_eq_some_iff (hl : LawfulHash ops) {l : List (K × V)} (h : Distinct ops l) {k : K} {e : K × V} :
    lookE ops k l = some e ↔ e ∈ l ∧ ops.equal e.1 k = true := by
  constructor
  · intro he
    exact ⟨List.mem_of_find?_eq_some he, by simpa using List.find?_some he⟩
  · rintro ⟨he, hk⟩
    induction l with
    | nil => simp at he
    | cons x l ih =>
      unfold Distinct at h
      rw [List.pairwise_cons] at h
      unfold lookE
      rw [List.find?_cons]
      rw [List.mem_cons] at he
      rcases he with rfl | he
      · simp [hk]
      · have : ops.equal x.1 k = false := by
          by_contra hc
          have := h.1 e he
          rw [hl.trans _ _ _ (by simpa using hc) (hl.symm _ _ hk)] at this
          simp at this
        simp only [this]
        exact ih h.2 he

theorem lookE_perm (hl : LawfulHash ops) {l l' : List (K × V)} (h : l.Perm l') (hd : Distinct ops l) (k : K) :
    lookE ops k l = lookE ops k l' := by
  have hd' := (distinct_perm hl h).mp hd
  rcases h1 : lookE ops k l with - | e
  · rcases h2 : lookE ops k l' with - | e
    · rfl
    · obtain ⟨h3, h4⟩ := (lookE_eq_some_iff hl hd').mp h2
      rw [(lookE_eq_some_iff hl hd).mpr ⟨h.mem_iff.mpr h3, h4⟩] at h1
      simp at h1
  · obtain ⟨h3, h4⟩ := (lookE_eq_some_iff hl hd).mp h1
    rw [(lookE_eq_some_iff hl hd').mpr ⟨h.mem_iff.mp h3, h4⟩]

theorem split_at {α : Type} (arr : List α) (i : Nat) (c : α) (h : arr[i]? = some c) :
    ∃ A B, arr = A ++ c :: B ∧ A.length = i ∧ ∀ c', arr.set i c' = A ++ c' :: B := by
  obtain ⟨hi, rfl⟩ := List.getElem?_eq_some_iff.mp h
  refine ⟨arr.take i, arr.drop (i + 1), ?_, by simp; omega, fun c' => ?_⟩
  · rw [← List.drop_eq_getElem_cons hi, List.take_append_drop]
  · rw [List.set_eq_take_append_cons_drop, if_pos hi]

theorem set_perm (arr : List (List (K × V))) (i : Nat) (c c' : List (K × V)) (h : arr[i]? = some c) :
    ∃ R, arr.flatten.Perm (c ++ R) ∧ (arr.set i c').flatten.Perm (c' ++ R) ∧
      (∀ e ∈ R, ∃ j d, j ≠ i ∧ arr[j]? = some d ∧ e ∈ d) := by
  obtain ⟨A, B, h1, h2, h3⟩ := split_at arr i c h
  refine ⟨A.flatten ++ B.flatten, ?_, ?_, ?_⟩
  · rw [h1]
    simp only [List.flatten_append, List.flatten_cons]
    exact List.perm_append_comm_assoc _ _ _
  · rw [h3]
    simp only [List.flatten_append, List.flatten_cons]
    exact List.perm_append_comm_assoc _ _ _
  · intro e he
    rw [List.mem_append] at he
    rcases he with he | he
    · obtain ⟨d, hd, hed⟩ := List.mem_flatten.mp he
      obtain ⟨j, hj, rfl⟩ := List.getElem_of_mem hd
      refine ⟨j, _, by omega, ?_, hed⟩
      rw [h1, List.getElem?_append_left hj, List.getElem?_eq_getElem hj]
    · obtain ⟨d, hd, hed⟩ := List.mem_flatten.mp he
      obtain ⟨j, hj, rfl⟩ := List.getElem_of_mem hd
      refine ⟨A.length + 1 + j, _, by omega, ?_, hed⟩
      rw [h1, List.getElem?_append_right (by omega)]
      have : A.length + 1 + j - A.length = j + 1 := by omega
      rw [this, List.getElem?_cons_succ, List.getElem?_eq_getElem hj]

theorem placed_set (arr : List (List (K × V))) (i : Nat) (c' : List (K × V)) (h : Placed ops arr)
    (hc : ∀ e ∈ c', HashTab.index ops arr.length e.1 = some i) : Placed ops (arr.set i c') := by
  intro j d hj e he
  rw [List.length_set]
  by_cases hij : i = j
  · subst hij
    rw [List.getElem?_set] at hj
    simp only [if_true] at hj
    split at hj
    · simp only [Option.some.injEq] at hj; subst hj; exact hc e he
    · simp at hj
  · rw [List.getElem?_set_ne hij] at hj
    exact h j d hj e he

theorem index_congr (hl : LawfulHash ops) {a b : K} (h : ops.equal a b = true) (n : Nat) :
    HashTab.index ops n a = HashTab.index ops n b := by
  unfold HashTab.index; rw [hl.hash a b h]

theorem index_ok (ops : HashOps K) (arr : List (List (K × V))) (h0 : 0 < arr.length) (hlt : arr.length < 2 ^ 32) (k : K) :
    ∃ i c, HashTab.index ops arr.length k = some i ∧ arr[i]? = some c := by
  unfold HashTab.index
  rw [Nat.mod_eq_of_lt hlt, if_neg (by omega)]
  refine ⟨_, arr[(ops.hash k).toNat % arr.length]'(Nat.mod_lt _ h0), rfl, ?_⟩
  exact List.getElem?_eq_getElem _

theorem chainGet_eq (k : K) (c : List (K × V)) : HashTab.chainGet ops k c = lookE ops k c := by
  induction c with
  | nil => rfl
  | cons e es ih =>
    simp only [HashTab.chainGet, lookE, List.find?_cons]
    cases ops.equal e.1 k <;> simp [ih, lookE]

theorem chainPut_spec (k : K) (v : V) (c : List (K × V)) :
    (HashTab.chainPut ops k v c = none ∧ ∀ e ∈ c, ops.equal e.1 k = false) ∨
    ∃ old c' A B, HashTab.chainPut ops k v c = some (old, c') ∧ c = A ++ old :: B ∧ c' = A ++ (k, v) :: B ∧
      ops.equal old.1 k = true := by
  induction c with
  | nil => left; simp [HashTab.chainPut]
  | cons e es ih =>
    simp only [HashTab.chainPut]
    rcases he : ops.equal e.1 k
    · simp only [Bool.false_eq_true, if_false]
      rcases ih with ⟨h1, h2⟩ | ⟨old, c', A, B, h1, rfl, rfl, h4⟩
      · left; rw [h1]; simp [he]; exact fun a b hab => h2 (a, b) hab
      · right; exact ⟨old, _, e :: A, B, by rw [h1]; rfl, rfl, rfl, h4⟩
    · right
      exact ⟨e, _, [], es, by simp, rfl, rfl, he⟩

theorem chainRemove_spec (k : K) (c : List (K × V)) :
    (HashTab.chainRemove ops k c = none ∧ ∀ e ∈ c, ops.equal e.1 k = false) ∨
    ∃ old A B, HashTab.chainRemove ops k c = some (old, A ++ B) ∧ c = A ++ old :: B ∧ ops.equal old.1 k = true := by
  induction c with
  | nil => left; simp [HashTab.chainRemove]
  | cons e es ih =>
    simp only [HashTab.chainRemove]
    rcases he : ops.equal e.1 k
    · simp only [Bool.false_eq_true, if_false]
      rcases ih with ⟨h1, h2⟩ | ⟨old, A, B, h1, rfl, h4⟩
      · left; rw [h1]; simp [he]; exact fun a b hab => h2 (a, b) hab
      · right; exact ⟨old, e :: A, B, by rw [h1]; rfl, rfl, h4⟩
    · right
      exact ⟨e, [], es, by simp, rfl, he⟩

/-- Entries equal to `k` are only in `k`'s bucket. -/
theorem other_ne (hl : LawfulHash ops) {arr : List (List (K × V))} (hp : Placed ops arr) {i : Nat} {k : K}
    (hi : HashTab.index ops arr.length k = some i) {e : K × V} (h : ∃ j d, j ≠ i ∧ arr[j]? = some d ∧ e ∈ d) :
    ops.equal e.1 k = false := by
  obtain ⟨j, d, hj, hd, he⟩ := h
  by_contra hc
  have h1 := hp j d hd e he
  rw [index_congr hl (by simpa using hc), hi] at h1
  simp only [Option.some.injEq] at h1
  exact hj h1.symm

theorem getNode_spec (hl : LawfulHash ops) (h : HashTab K V) (hg : GoodTab ops h) (k : K) :
    h.getNode ops k = some (lookE ops k h.all) := by
  obtain ⟨i, c, h1, h2⟩ := index_ok ops h.array (by have := hg.floor; omega) hg.mod k
  unfold HashTab.getNode
  rw [h1]
  simp only
  rw [h2]
  simp only [chainGet_eq]
  congr 1
  obtain ⟨R, hp, -, hR⟩ := set_perm h.array i c c h2
  rw [HashTab.all, lookE_perm hl hp hg.distinct]
  unfold lookE
  rw [List.find?_append]
  have : R.find? (fun e => ops.equal e.1 k) = none := by
    rw [List.find?_eq_none]
    intro e he
    rw [other_ne hl hg.placed h1 (hR e he)]
    simp
  rw [this]
  simp

/-! ### Resize -/

theorem rehash1_spec (ops : HashOps K) (arr : List (List (K × V))) (h0 : 0 < arr.length) (hlt : arr.length < 2 ^ 32)
    (hp : Placed ops arr) (e : K × V) :
    ∃ arr', HashTab.rehash1 ops arr e = some arr' ∧ arr'.length = arr.length ∧ Placed ops arr' ∧
      arr'.flatten.Perm (e :: arr.flatten) := by
  obtain ⟨i, c, h1, h2⟩ := index_ok ops arr h0 hlt e.1
  refine ⟨arr.set i (e :: c), ?_, by simp, ?_, ?_⟩
  · unfold HashTab.rehash1; rw [h1]; simp only; rw [h2]
  · refine placed_set arr i _ hp fun x hx => ?_
    rw [List.mem_cons] at hx
    rcases hx with rfl | hx
    · exact h1
    · exact hp i c h2 x hx
  · obtain ⟨R, p1, p2, -⟩ := set_perm arr i c (e :: c) h2
    exact p2.trans (List.Perm.cons e p1.symm)

theorem rehashChain_spec (ops : HashOps K) (c : List (K × V)) (arr : List (List (K × V))) (h0 : 0 < arr.length)
    (hlt : arr.length < 2 ^ 32) (hp : Placed ops arr) :
    ∃ arr', HashTab.rehashChain ops arr c = some arr' ∧ arr'.length = arr.length ∧ Placed ops arr' ∧
      arr'.flatten.Perm (c ++ arr.flatten) := by
  induction c generalizing arr with
  | nil => exact ⟨arr, rfl, rfl, hp, List.Perm.refl _⟩
  | cons e es ih =>
    obtain ⟨a1, h1, h2, h3, h4⟩ := rehash1_spec ops arr h0 hlt hp e
    obtain ⟨a2, k1, k2, k3, k4⟩ := ih a1 (by omega) (by omega) h3
    refine ⟨a2, by simp only [HashTab.rehashChain, h1, k1], by omega, k3, ?_⟩
    refine k4.trans ((List.Perm.append_left es h4).trans ?_)
    exact List.perm_middle

theorem rehash_spec (ops : HashOps K) (old : List (List (K × V))) (arr : List (List (K × V))) (h0 : 0 < arr.length)
    (hlt : arr.length < 2 ^ 32) (hp : Placed ops arr) :
    ∃ arr', HashTab.rehash ops arr old = some arr' ∧ arr'.length = arr.length ∧ Placed ops arr' ∧
      arr'.flatten.Perm (old.flatten ++ arr.flatten) := by
  induction old generalizing arr with
  | nil => exact ⟨arr, rfl, rfl, hp, List.Perm.refl _⟩
  | cons c cs ih =>
    obtain ⟨a1, h1, h2, h3, h4⟩ := rehashChain_spec ops c arr h0 hlt hp
    obtain ⟨a2, k1, k2, k3, k4⟩ := ih a1 (by omega) (by omega) h3
    refine ⟨a2, by simp only [HashTab.rehash, h1, k1], by omega, k3, ?_⟩
    refine k4.trans ((List.Perm.append_left _ h4).trans ?_)
    rw [List.flatten_cons, List.append_assoc]
    exact List.perm_append_comm_assoc _ _ _

theorem placed_replicate (ops : HashOps K) (n : Nat) : Placed ops (List.replicate n ([] : List (K × V))) := by
  intro i c h e he
  rw [List.getElem?_replicate] at h
  split at h
  · simp only [Option.some.injEq] at h; subst h; simp at he
  · simp at h

theorem flatten_replicate_nil (n : Nat) : (List.replicate n ([] : List (K × V))).flatten = [] := by
  induction n with
  | zero => rfl
  | succ n ih => simp [List.replicate_succ, ih]

theorem resize_spec (hl : LawfulHash ops) (h : HashTab K V) (hg : GoodTab ops h) (n : Int) (hn : n < 2 ^ 32) :
    ∃ h', h.resize ops n = some h' ∧ GoodTab ops h' ∧ h'.all.Perm h.all ∧ h'.size = h.size ∧
      (h'.array.length : Int) = max 10 n := by
  unfold HashTab.resize
  simp only
  by_cases hc : h.array.length = (if n < 10 then 10 else n.toNat)
  · rw [if_pos hc]
    refine ⟨h, rfl, hg, List.Perm.refl _, rfl, ?_⟩
    rw [hc]; split <;> omega
  · rw [if_neg hc]
    set m := (if n < 10 then 10 else n.toNat) with hm
    have hm1 : 10 ≤ m ∧ m < 2 ^ 32 ∧ (m : Int) = max 10 n := by rw [hm]; split <;> omega
    rw [if_neg (by omega)]
    obtain ⟨arr, h1, h2, h3, h4⟩ := rehash_spec ops h.array (List.replicate m []) (by simp; omega) (by simp; omega)
      (placed_replicate ops m)
    rw [h1]
    rw [flatten_replicate_nil, List.append_nil] at h4
    rw [List.length_replicate] at h2
    refine ⟨⟨arr, h.size⟩, rfl, ⟨by simp only; omega, by simp only; omega, h3, ?_, ?_⟩, h4, rfl, by simp only; omega⟩
    · exact (distinct_perm hl h4).mpr hg.distinct
    · simp only [HashTab.all]
      rw [hg.size, h4.length_eq]; rfl

theorem resizeIf_spec (hl : LawfulHash ops) (h : HashTab K V) (hg : GoodTab ops h) (o : Option Int) (ho : ∀ n, o = some n → n < 2 ^ 32) :
    ∃ h', h.resizeIf ops o = some h' ∧ GoodTab ops h' ∧ h'.all.Perm h.all ∧ h'.size = h.size := by
  cases o with
  | none => exact ⟨h, rfl, hg, List.Perm.refl _, rfl⟩
  | some n =>
    obtain ⟨h', h1, h2, h3, h4, -⟩ := resize_spec hl h hg n (ho n rfl)
    exact ⟨h', h1, h2, h3, h4⟩

/-! ### Put and Remove -/

theorem distinct_cons {e : K × V} {l : List (K × V)} :
    Distinct ops (e :: l) ↔ (∀ x ∈ l, ops.equal e.1 x.1 = false) ∧ Distinct ops l := List.pairwise_cons

theorem equal_false_comm (hl : LawfulHash ops) {a b : K} (h : ops.equal a b = false) : ops.equal b a = false := by
  by_contra hc
  rw [hl.symm _ _ (by simpa using hc)] at h
  simp at h

theorem putNode_hash_spec (hl : LawfulHash ops) (pol : ResizePolicy) (h : HashTab K V) (hg : GoodTab ops h) (k : K) (v : V)
    (hpol : ∀ n len c, 0 ≤ n → n ≤ h.size + 1 → len < 2 ^ 32 → pol.grow n len = some c → c < 2 ^ 32) :
    ∃ h', h.putNode ops pol k v = some (h', lookE ops k h.all) ∧ GoodTab ops h' ∧
      ((lookE ops k h.all = none ∧ h'.all.Perm ((k, v) :: h.all)) ∨
       ∃ old R, lookE ops k h.all = some old ∧ h.all.Perm (old :: R) ∧ h'.all.Perm ((k, v) :: R)) := by
  obtain ⟨i, c, h1, h2⟩ := index_ok ops h.array (by have := hg.floor; omega) hg.mod k
  unfold HashTab.putNode
  rw [h1]; simp only; rw [h2]; simp only
  rcases chainPut_spec (ops := ops) k v c with ⟨p1, p2⟩ | ⟨old, c', A, B, p1, rfl, rfl, p4⟩
  · rw [p1]
    simp only
    obtain ⟨R, q1, q2, q3⟩ := set_perm h.array i c ((k, v) :: c) h2
    have hnone : ∀ e ∈ h.all, ops.equal e.1 k = false := by
      intro e he
      have he' := q1.mem_iff.mp he
      rw [List.mem_append] at he'
      rcases he' with he' | he'
      · exact p2 e he'
      · exact other_ne hl hg.placed h1 (q3 e he')
    have hlook : lookE ops k h.all = none := by
      unfold lookE; rw [List.find?_eq_none]; intro e he; simp [hnone e he]
    have hperm : (h.array.set i ((k, v) :: c)).flatten.Perm ((k, v) :: h.all) := q2.trans (List.Perm.cons _ q1.symm)
    have hg' : GoodTab ops (⟨h.array.set i ((k, v) :: c), h.size + 1⟩ : HashTab K V) := by
      refine ⟨by simpa using hg.floor, by simpa using hg.mod, ?_, ?_, ?_⟩
      · refine placed_set h.array i _ hg.placed fun x hx => ?_
        rw [List.mem_cons] at hx
        rcases hx with rfl | hx
        · exact h1
        · exact hg.placed i c h2 x hx
      · refine (distinct_perm hl hperm).mpr (distinct_cons.mpr ⟨fun x hx => equal_false_comm hl (hnone x hx), hg.distinct⟩)
      · simp only [HashTab.all]
        rw [hperm.length_eq, hg.size]; simp
    obtain ⟨h', r1, r2, r3, -⟩ := resizeIf_spec hl _ hg' (pol.grow (h.size + 1) (h.array.set i ((k, v) :: c)).length)
      (fun n hn => hpol _ _ n (by rw [hg.size]; omega) (le_refl _) (by simpa using hg.mod) hn)
    rw [r1]
    exact ⟨h', by rw [hlook], r2, .inl ⟨hlook, r3.trans hperm⟩⟩
  · rw [p1]
    simp only
    obtain ⟨R, q1, q2, q3⟩ := set_perm h.array i _ (A ++ (k, v) :: B) h2
    have hp1 : h.all.Perm (old :: (A ++ B ++ R)) := q1.trans (List.Perm.append_right R List.perm_middle)
    have hp2 : (h.array.set i (A ++ (k, v) :: B)).flatten.Perm ((k, v) :: (A ++ B ++ R)) :=
      q2.trans (List.Perm.append_right R List.perm_middle)
    have hd := (distinct_perm hl hp1).mp hg.distinct
    rw [distinct_cons] at hd
    have hlook : lookE ops k h.all = some old :=
      (lookE_eq_some_iff hl hg.distinct).mpr ⟨hp1.mem_iff.mpr (by simp), p4⟩
    refine ⟨⟨h.array.set i (A ++ (k, v) :: B), h.size⟩, by rw [hlook], ⟨by simpa using hg.floor, by simpa using hg.mod, ?_, ?_, ?_⟩,
      .inr ⟨old, _, hlook, hp1, hp2⟩⟩
    · refine placed_set h.array i _ hg.placed fun x hx => ?_
      have hx' : x = (k, v) ∨ x ∈ A ++ old :: B := by
        simp only [List.mem_append, List.mem_cons] at hx ⊢
        rcases hx with hx | hx | hx
        · exact .inr (.inl hx)
        · exact .inl hx
        · exact .inr (.inr (.inr hx))
      rcases hx' with rfl | hx'
      · exact h1
      · exact hg.placed i _ h2 x hx'
    · refine (distinct_perm hl hp2).mpr (distinct_cons.mpr ⟨fun x hx => ?_, hd.2⟩)
      by_contra hc
      have := hd.1 x hx
      rw [hl.trans _ _ _ p4 (by simpa using hc)] at this
      simp at this
    · simp only [HashTab.all]
      rw [hp2.length_eq, hg.size, hp1.length_eq]; simp

theorem removeNode_hash_spec (hl : LawfulHash ops) (pol : ResizePolicy) (h : HashTab K V) (hg : GoodTab ops h) (k : K)
    (hpol : ∀ n len c, 0 ≤ n → n ≤ h.size → len < 2 ^ 32 → pol.shrink n len = some c → c < 2 ^ 32) :
    ∃ h', h.removeNode ops pol k = some (h', lookE ops k h.all) ∧ GoodTab ops h' ∧
      ((lookE ops k h.all = none ∧ h' = h) ∨
       ∃ old, lookE ops k h.all = some old ∧ h.all.Perm (old :: h'.all)) := by
  obtain ⟨i, c, h1, h2⟩ := index_ok ops h.array (by have := hg.floor; omega) hg.mod k
  unfold HashTab.removeNode
  rw [h1]; simp only; rw [h2]; simp only
  rcases chainRemove_spec (ops := ops) k c with ⟨p1, p2⟩ | ⟨old, A, B, p1, rfl, p4⟩
  · rw [p1]
    simp only
    obtain ⟨R, q1, q2, q3⟩ := set_perm h.array i c c h2
    have hlook : lookE ops k h.all = none := by
      unfold lookE; rw [List.find?_eq_none]; intro e he
      have he' := q1.mem_iff.mp he
      rw [List.mem_append] at he'
      rcases he' with he' | he'
      · simp [p2 e he']
      · simp [other_ne hl hg.placed h1 (q3 e he')]
    exact ⟨h, by rw [hlook], hg, .inl ⟨hlook, rfl⟩⟩
  · rw [p1]
    simp only
    obtain ⟨R, q1, q2, q3⟩ := set_perm h.array i _ (A ++ B) h2
    have hp1 : h.all.Perm (old :: (A ++ B ++ R)) := q1.trans (List.Perm.append_right R List.perm_middle)
    have hd := (distinct_perm hl hp1).mp hg.distinct
    rw [distinct_cons] at hd
    have hlook : lookE ops k h.all = some old :=
      (lookE_eq_some_iff hl hg.distinct).mpr ⟨hp1.mem_iff.mpr (by simp), p4⟩
    have hg' : GoodTab ops (⟨h.array.set i (A ++ B), h.size - 1⟩ : HashTab K V) := by
      refine ⟨by simpa using hg.floor, by simpa using hg.mod, ?_, ?_, ?_⟩
      · refine placed_set h.array i _ hg.placed fun x hx => ?_
        exact hg.placed i _ h2 x (by simp only [List.mem_append, List.mem_cons] at hx ⊢; tauto)
      · exact (distinct_perm hl q2).mpr hd.2
      · simp only [HashTab.all]
        rw [q2.length_eq, hg.size, hp1.length_eq]; simp
    obtain ⟨h', r1, r2, r3, -⟩ := resizeIf_spec hl _ hg' (pol.shrink (h.size - 1) (h.array.set i (A ++ B)).length)
      (fun n hn => hpol _ _ n (by rw [hg.size, hp1.length_eq]; simp; omega) (by omega) (by simpa using hg.mod) hn)
    rw [r1]
    exact ⟨h', by rw [hlook], r2, .inr ⟨old, hlook, hp1.trans (List.Perm.cons _ (r3.trans q2).symm)⟩⟩

/-- The lookup function of a list of entries. -/
def valE (ops : HashOps K) (l : List (K × V)) : K → Option V := fun k => (lookE ops k l).map Prod.snd

theorem valE_cons (e : K × V) (l : List (K × V)) (x : K) :
    valE ops (e :: l) x = if ops.equal e.1 x then some e.2 else valE ops l x := by
  unfold valE lookE
  rw [List.find?_cons]
  cases ops.equal e.1 x <;> simp

theorem equal_comm (hl : LawfulHash ops) (a b : K) : ops.equal a b = ops.equal b a := by
  rcases h : ops.equal b a
  · exact equal_false_comm hl h
  · exact hl.symm _ _ h

theorem valE_perm (hl : LawfulHash ops) {l l' : List (K × V)} (h : l.Perm l') (hd : Distinct ops l) : valE ops l = valE ops l' := by
  funext k; unfold valE; rw [lookE_perm hl h hd]

/-- One call of Put or Remove on a good table. -/
theorem put_hash_step (hl : LawfulHash ops) (pol : ResizePolicy) (h : HashTab K V) (hg : GoodTab ops h) (k : K) (v : V)
    (hpol : ∀ n len c, 0 ≤ n → n ≤ h.size + 1 → len < 2 ^ 32 → pol.grow n len = some c → c < 2 ^ 32) :
    ∃ h', h.putNode ops pol k v = some (h', lookE ops k h.all) ∧ GoodTab ops h' ∧ h'.size ≤ h.size + 1 ∧
      valE ops h'.all = fun x => if ops.equal x k then some v else valE ops h.all x := by
  obtain ⟨h', h1, h2, h3⟩ := putNode_hash_spec hl pol h hg k v hpol
  refine ⟨h', h1, h2, ?_, ?_⟩
  · rw [h2.size, hg.size]
    rcases h3 with ⟨-, p⟩ | ⟨old, R, -, p1, p2⟩
    · rw [p.length_eq]; simp
    · rw [p2.length_eq, p1.length_eq]; simp
  · rcases h3 with ⟨-, p⟩ | ⟨old, R, hlook, p1, p2⟩
    · rw [valE_perm hl p h2.distinct]
      funext x
      rw [valE_cons, equal_comm hl]
    · rw [valE_perm hl p2 h2.distinct, valE_perm hl p1 hg.distinct]
      funext x
      rw [valE_cons, valE_cons, equal_comm hl k x]
      split
      · rfl
      · rename_i hx
        have hok := ((lookE_eq_some_iff hl hg.distinct).mp hlook).2
        have : ops.equal old.1 x = false := by
          by_contra hc
          exact hx (hl.trans _ _ _ (hl.symm _ _ (by simpa using hc)) hok)
        simp [this]

theorem remove_hash_step (hl : LawfulHash ops) (pol : ResizePolicy) (h : HashTab K V) (hg : GoodTab ops h) (k : K)
    (hpol : ∀ n len c, 0 ≤ n → n ≤ h.size → len < 2 ^ 32 → pol.shrink n len = some c → c < 2 ^ 32) :
    ∃ h', h.removeNode ops pol k = some (h', lookE ops k h.all) ∧ GoodTab ops h' ∧ h'.size ≤ h.size ∧
      valE ops h'.all = fun x => if ops.equal x k then none else valE ops h.all x := by
  obtain ⟨h', h1, h2, h3⟩ := removeNode_hash_spec hl pol h hg k hpol
  refine ⟨h', h1, h2, ?_, ?_⟩
  · rw [h2.size, hg.size]
    rcases h3 with ⟨-, rfl⟩ | ⟨old, -, p1⟩
    · exact le_refl _
    · rw [p1.length_eq]; simp
  · rcases h3 with ⟨hn, rfl⟩ | ⟨old, hlook, p1⟩
    · funext x
      split
      · rename_i hx
        unfold valE
        rcases hc : lookE ops x h'.all with - | e
        · rfl
        · obtain ⟨c1, c2⟩ := (lookE_eq_some_iff hl hg.distinct).mp hc
          rw [(lookE_eq_some_iff hl hg.distinct).mpr ⟨c1, hl.trans _ _ _ c2 hx⟩] at hn
          simp at hn
      · rfl
    · have hd := (distinct_perm hl p1).mp hg.distinct
      rw [valE_perm hl p1 hg.distinct]
      rw [distinct_cons] at hd
      have hok := ((lookE_eq_some_iff hl hg.distinct).mp hlook).2
      funext x
      rw [valE_cons]
      rcases hx : ops.equal x k
      · have : ops.equal old.1 x = false := by
          by_contra hc
          rw [hl.symm _ _ (hl.trans _ _ _ (hl.symm _ _ hok) (by simpa using hc))] at hx
          simp at hx
        simp [this]
      · simp only [if_true]
        unfold valE
        rcases hc : lookE ops x h'.all with - | e
        · rfl
        · obtain ⟨c1, c2⟩ := (lookE_eq_some_iff hl hd.2).mp hc
          have := hd.1 e c1
          rw [hl.trans _ _ _ hok (hl.symm _ _ (hl.trans _ _ _ c2 hx))] at this
          simp at this

theorem valE_size (hl : LawfulHash ops) {l : List (K × V)} (hd : Distinct ops l) : SizeE ops.equal (valE ops l) l.length := by
  refine ⟨l.map Prod.fst, by simp, ?_, fun k => ?_⟩
  · rw [List.pairwise_map]; exact hd
  · unfold valE
    rw [Option.isSome_map, Option.isSome_iff_exists]
    simp only [lookE_eq_some_iff hl hd, List.mem_map]
    constructor
    · rintro ⟨e, h1, h2⟩; exact ⟨e.1, ⟨e, h1, rfl⟩, hl.symm _ _ h2⟩
    · rintro ⟨_, ⟨e, h1, rfl⟩, h2⟩; exact ⟨e, h1, hl.symm _ _ h2⟩

theorem new_hash_good (cap : Int) (hc : cap < 2 ^ 32) : GoodTab ops (HashTab.new cap : HashTab K V) := by
  have hlen : (HashTab.new cap : HashTab K V).array.length = if cap < 10 then 10 else cap.toNat := by simp [HashTab.new]
  refine ⟨by rw [hlen]; split <;> omega, by rw [hlen]; split <;> omega, placed_replicate ops _, ?_, ?_⟩
  · simp [HashTab.new, HashTab.all, Distinct]
  · simp [HashTab.new, HashTab.all]

end Poodle
