import Verif.Props.MurmurSeed

/-
Property C219: the number of comparisons of a lookup in a hash map (/repo/src/collection/hash.go:103-117).
-/

namespace Poodle.Props
open Poodle Poodle.Spec

variable {K V : Type} {ops : HashOps K} {pol : ResizePolicy}

/-! ### C219 A lookup compares the key only with keys of its bucket -/

/-- The number of keys among `ks` that fall into bucket `i` of `n`. -/
def inBucket (ops : HashOps K) (n : Nat) (ks : List K) (i : Nat) : Nat := ks.countP fun x => (ops.hash x).toNat % n == i

theorem chainCalls_le (k : K) (c : List (K × V)) : HashTab.chainCalls ops k c ≤ c.length := by
  induction c with
  | nil => simp [HashTab.chainCalls]
  | cons e c ih => simp only [HashTab.chainCalls, List.length_cons]; split <;> omega

theorem chainCalls_pos (k : K) (c : List (K × V)) (h : c ≠ []) : 1 ≤ HashTab.chainCalls ops k c := by
  cases c with
  | nil => simp at h
  | cons e c => simp only [HashTab.chainCalls]; split <;> omega

/-- Looking up all keys of a bucket takes 1 + 2 + … comparisons. -/
theorem chainCalls_sum (hl : LawfulHash ops) (c : List (K × V)) (hd : Distinct ops c) :
    2 * (c.map fun e => HashTab.chainCalls ops e.1 c).sum = c.length * (c.length + 1) := by
  induction c with
  | nil => rfl
  | cons e c ih =>
    have h1 := (List.pairwise_cons.mp hd).1
    have ih := ih (List.pairwise_cons.mp hd).2
    have e1 : (c.map fun x => HashTab.chainCalls ops x.1 (e :: c)).sum = (c.map fun x => HashTab.chainCalls ops x.1 c).sum + c.length := by
      have : ∀ d : List (K × V), (∀ x ∈ d, ops.equal e.1 x.1 = false) →
          (d.map fun x => HashTab.chainCalls ops x.1 (e :: c)).sum = (d.map fun x => HashTab.chainCalls ops x.1 c).sum + d.length := by
        intro d hd
        induction d with
        | nil => rfl
        | cons x d ihd =>
          have hx := hd x (by simp)
          have := ihd fun y hy => hd y (by simp [hy])
          rw [List.map_cons, List.map_cons, List.sum_cons, List.sum_cons, this, List.length_cons, HashTab.chainCalls, hx]
          simp only [Bool.false_eq_true, if_false]
          omega
      exact this c h1
    have e2 : HashTab.chainCalls ops e.1 (e :: c) = 1 := by simp [HashTab.chainCalls, hl.refl]
    rw [List.map_cons, List.sum_cons, e1, e2, List.length_cons]
    have : (c.length + 1) * (c.length + 1 + 1) = c.length * (c.length + 1) + 2 * c.length + 2 := by
      rw [Nat.add_mul, Nat.mul_add, Nat.mul_add]; omega
    rw [this]
    omega

/-- Every entry is in the bucket of its hash: the entries of bucket `i` are counted by it. -/
theorem bucket_count {h : HashTab K V} (hg : GoodTab ops h) (i : Nat) (c : List (K × V)) (hc : h.array[i]? = some c) :
    inBucket ops h.array.length (h.all.map Prod.fst) i = c.length := by
  have hmod := hg.mod
  have hfl := hg.floor
  have hidx : ∀ x : K, HashTab.index ops h.array.length x = some ((ops.hash x).toNat % h.array.length) := by
    intro x
    unfold HashTab.index
    rw [Nat.mod_eq_of_lt hmod, if_neg (by omega)]
  have hp : ∀ j d, h.array[j]? = some d → ∀ e ∈ d, (ops.hash e.1).toNat % h.array.length = j := by
    intro j d hj e he
    have := hg.placed j d hj e he
    rw [hidx] at this
    exact Option.some.inj this
  unfold inBucket HashTab.all
  generalize h.array.length = n at hp
  generalize h.array = arr at hc hp
  clear hmod hfl hidx hg
  have key : ∀ (arr : List (List (K × V))) (s : Nat), (∀ j d, arr[j]? = some d → ∀ e ∈ d, (ops.hash e.1).toNat % n = s + j) →
      ∀ i c, arr[i]? = some c → (arr.flatten.map Prod.fst).countP (fun x => (ops.hash x).toNat % n == s + i) = c.length := by
    intro arr
    induction arr with
    | nil => intro s _ i c hc; simp at hc
    | cons d arr ih =>
      intro s hp i c hc
      rw [List.flatten_cons, List.map_append, List.countP_append]
      have hp' : ∀ j d, arr[j]? = some d → ∀ e ∈ d, (ops.hash e.1).toNat % n = s + 1 + j := by
        intro j d hj e he
        rw [hp (j + 1) d (by simpa using hj) e he]; omega
      have hd := hp 0 d rfl
      cases i with
      | zero =>
        simp only [List.getElem?_cons_zero, Option.some.injEq] at hc
        subst hc
        have h1 : (d.map Prod.fst).countP (fun x => (ops.hash x).toNat % n == s + 0) = d.length := by
          rw [List.countP_eq_length.mpr, List.length_map]
          intro x hx
          obtain ⟨e, he, rfl⟩ := List.mem_map.mp hx
          simpa using hd e he
        have h2 : (arr.flatten.map Prod.fst).countP (fun x => (ops.hash x).toNat % n == s + 0) = 0 := by
          rw [List.countP_eq_zero]
          intro x hx
          obtain ⟨e, he, rfl⟩ := List.mem_map.mp hx
          obtain ⟨b, hb, he⟩ := List.mem_flatten.mp he
          obtain ⟨j, hj⟩ := List.mem_iff_getElem?.mp hb
          have := hp' j b hj e he
          simp only [beq_iff_eq]
          omega
        rw [h1, h2]; rfl
      | succ i =>
        have h1 : (d.map Prod.fst).countP (fun x => (ops.hash x).toNat % n == s + (i + 1)) = 0 := by
          rw [List.countP_eq_zero]
          intro x hx
          obtain ⟨e, he, rfl⟩ := List.mem_map.mp hx
          have := hd e he
          simp only [beq_iff_eq]
          omega
        have h2 := ih (s + 1) hp' i c (by simpa using hc)
        rw [h1, Nat.zero_add, ← h2]
        congr 1
        funext x
        congr 1
        omega
  have := key arr 0 (fun j d hj e he => by rw [hp j d hj e he]; omega) i c hc
  simpa using this

/-- C219: after any history of a hash map, with `n` buckets and the keys `ks`: looking up a key that is not in the map compares it with the
keys of its bucket, all of them once; looking up one that is in the map takes at least one comparison and no more than there are keys in its
bucket; and looking up all keys of the map once takes `b (b + 1) / 2` comparisons for each bucket of `b` keys. -/
theorem C219_lookup_cost (hl : LawfulHash ops) (os : List (MapOp K V)) (cap : Int) (hcap : cap < 2 ^ 32) (hpol : Modest pol os.length) :
    ∃ (h : HashTab K V) (rs : List (Option V)) (ks : List K), runHash ops pol (HashTab.new cap) os = some (h, rs) ∧
      ks.Pairwise (fun a b => ops.equal a b = false) ∧
      (∀ k, ((runE ops.equal (fun _ => none) os).1 k).isSome = ks.any fun x => ops.equal x k) ∧
      (∀ k, ∃ c, h.getCalls ops k = some c ∧
        let b := inBucket ops h.array.length ks ((ops.hash k).toNat % h.array.length)
        ((runE ops.equal (fun _ => none) os).1 k = none → c = b) ∧
        ((runE ops.equal (fun _ => none) os).1 k ≠ none → 1 ≤ c ∧ c ≤ b)) ∧
      ∃ cost : K → Nat, (∀ k ∈ ks, h.getCalls ops k = some (cost k)) ∧
        2 * (ks.map cost).sum = ((List.range h.array.length).map fun i =>
          inBucket ops h.array.length ks i * (inBucket ops h.array.length ks i + 1)).sum := by
  obtain ⟨h, rs, r1, hg, -, r4⟩ := runHash_spec hl os (HashTab.new cap) (new_hash_good cap hcap) os.length (by simp [HashTab.new]) hpol
  have hval := congrArg Prod.fst r4
  simp only at hval
  rw [all_new] at hval
  have hval' : valE ops h.all = (runE ops.equal (fun _ => none) os).1 := hval
  rw [← hval']
  have hmod := hg.mod
  have hfl := hg.floor
  have hidx : ∀ x : K, HashTab.index ops h.array.length x = some ((ops.hash x).toNat % h.array.length) := by
    intro x
    unfold HashTab.index
    rw [Nat.mod_eq_of_lt hmod, if_neg (by omega)]
  have hsome : ∀ k, (valE ops h.all k).isSome = (h.all.map Prod.fst).any fun x => ops.equal x k := by
    intro k
    rw [List.any_map]
    simp only [valE, lookE, Option.isSome_map, List.isSome_find?]
    rfl
  have hchain : ∀ k : K, ∃ c, h.array[(ops.hash k).toNat % h.array.length]? = some c := by
    intro k
    exact ⟨_, List.getElem?_eq_getElem (Nat.mod_lt _ (by omega))⟩
  refine ⟨h, rs, h.all.map Prod.fst, r1, ?_, hsome, fun k => ?_, ?_⟩
  · rw [List.pairwise_map]; exact hg.distinct
  · obtain ⟨c, hc⟩ := hchain k
    refine ⟨HashTab.chainCalls ops k c, by simp only [HashTab.getCalls, hidx, hc], ?_⟩
    rw [bucket_count hg _ c hc]
    refine ⟨fun hn => ?_, fun hs => ⟨?_, chainCalls_le k c⟩⟩
    · apply chainCalls_absent
      intro e he
      have h1 : (valE ops h.all k).isSome = false := by rw [hn]; rfl
      rw [hsome, List.any_eq_false] at h1
      have := h1 e.1 (List.mem_map.mpr ⟨e, List.mem_flatten.mpr ⟨c, List.mem_of_getElem? hc, he⟩, rfl⟩)
      simpa using this
    · apply chainCalls_pos
      rintro rfl
      have h1 : (valE ops h.all k).isSome = true := Option.isSome_iff_ne_none.mpr hs
      rw [hsome, List.any_eq_true] at h1
      obtain ⟨x, hx, hxk⟩ := h1
      obtain ⟨e, he, rfl⟩ := List.mem_map.mp hx
      obtain ⟨b, hb, he⟩ := List.mem_flatten.mp he
      obtain ⟨j, hj⟩ := List.mem_iff_getElem?.mp hb
      have p := hg.placed j b hj e he
      rw [index_congr hl hxk, hidx] at p
      rw [← Option.some.inj p, hc] at hj
      obtain rfl := Option.some.inj hj
      simp at he
  · refine ⟨fun k => HashTab.chainCalls ops k ((h.array[(ops.hash k).toNat % h.array.length]?).getD []), ?_, ?_⟩
    · intro k _
      obtain ⟨c, hc⟩ := hchain k
      simp only [HashTab.getCalls, hidx, hc, Option.getD_some]
    · have hb : ∀ i ∈ List.range h.array.length, inBucket ops h.array.length (h.all.map Prod.fst) i = ((h.array[i]?).getD []).length := by
        intro i hi
        have := List.getElem?_eq_getElem (List.mem_range.mp hi)
        rw [bucket_count hg i _ this, this]; rfl
      have hp : ∀ j d, h.array[j]? = some d → ∀ e ∈ d, (ops.hash e.1).toNat % h.array.length = j := by
        intro j d hj e he
        have := hg.placed j d hj e he
        rw [hidx] at this
        exact Option.some.inj this
      have hds : ∀ d ∈ h.array, Distinct ops d := fun d hd => List.Pairwise.sublist (List.sublist_flatten_of_mem hd) hg.distinct
      have e1 : ∀ arr : List (List (K × V)), (∀ d ∈ arr, d ∈ h.array) →
          2 * ((arr.flatten.map Prod.fst).map fun k => HashTab.chainCalls ops k ((h.array[(ops.hash k).toNat % h.array.length]?).getD [])).sum =
            (arr.map fun d => d.length * (d.length + 1)).sum := by
        intro arr ha
        induction arr with
        | nil => rfl
        | cons d arr ih =>
          obtain ⟨j, hj⟩ := List.mem_iff_getElem?.mp (ha d (by simp))
          have hd : ((d.map Prod.fst).map fun k => HashTab.chainCalls ops k ((h.array[(ops.hash k).toNat % h.array.length]?).getD [])) =
              d.map fun e => HashTab.chainCalls ops e.1 d := by
            rw [List.map_map]
            apply List.map_congr_left
            intro e he
            simp only [Function.comp_apply]
            rw [hp j d hj e he, hj]; rfl
          rw [List.flatten_cons, List.map_append, List.map_append, List.sum_append, hd, Nat.mul_add,
            chainCalls_sum hl d (hds d (ha d (by simp))), ih fun x hx => ha x (by simp [hx]), List.map_cons, List.sum_cons]
      have e2 := e1 h.array (fun d hd => hd)
      rw [show h.array.flatten = h.all from rfl] at e2
      rw [e2]
      have e3 : h.array = (List.range h.array.length).map fun i => (h.array[i]?).getD [] := by
        apply List.ext_getElem (by simp)
        intro i h1 h2
        simp [List.getElem?_eq_getElem h1]
      conv => lhs; rw [e3, List.map_map]
      refine congrArg List.sum (List.map_congr_left fun i hi => ?_)
      simp only [Function.comp_apply, hb i hi]

example := C219_lookup_cost (V := Nat) (C33_byteSlice (murmurHash 7)) 
  [.put (some [1]) 10, .put (some [2]) 20, .remove (some [1])] 10 (by decide) (wildPolicy_modest _)

/-- Three keys in one bucket, another key with the same remainder, and one in another bucket. -/
example : (runHash natHash defaultPolicy (HashTab.new 10) [.put 1 (), .put 4 (), .put 7 (), .put 2 ()]).map (fun r =>
    [1, 4, 7, 10, 2, 3].map fun k => r.1.getCalls natHash k) = some [some 3, some 2, some 1, some 3, some 1, some 0] := by
  decide +kernel

end Poodle.Props
