import Verif.Spec.MphFit
import Verif.Props.Mph

/-
Property C37, conditions on the hash family: when `MPHBuild` (/repo/src/util/mph_util.go:270-344) returns.
-/

namespace Poodle.Props
open Poodle Poodle.Spec

variable {K : Type}

theorem nextPow2_eq (n : Nat) : nextPow2 n = powerAbove n := by
  obtain ⟨k, h1, h2, h3⟩ := nextPow2_spec n
  rw [h1, powerAbove]
  congr 1
  apply Nat.le_antisymm
  · rcases h3 with rfl | h3
    · exact Nat.zero_le _
    · cases k with
      | zero => exact Nat.zero_le _
      | succ k =>
        rw [Nat.pow_succ] at h3
        by_contra hc
        have : Nat.clog 2 n ≤ k := by omega
        have := (Nat.clog_le_iff_le_pow (by decide)).mp this
        omega
  · exact (Nat.clog_le_iff_le_pow (by decide)).mpr h2

theorem and_power (x n : Nat) : x &&& (powerAbove n - 1) = x % powerAbove n := Nat.and_two_pow_sub_one_eq_mod _ _

/-- The slots of the keys with the given indices. -/
theorem slots_eq (hash : UInt32 → K → UInt32) (keys : List K) (n : Nat) (s : UInt32) : ∀ vals : List Nat, (∀ i ∈ vals, i < keys.length) →
    vals.map (slot hash keys (powerAbove n - 1) s) = (vals.filterMap (keys[·]?)).map (slotIn hash (powerAbove n) s)
  | [], _ => rfl
  | i :: vals, h => by
    have hi : i < keys.length := h i (by simp)
    rw [List.map_cons, slots_eq hash keys n s vals (fun j hj => h j (by simp [hj])), List.filterMap_cons, List.getElem?_eq_getElem hi]
    simp only [List.map_cons, slot, List.getElem?_eq_getElem hi, slotIn, and_power]

theorem fits_iff (hash : UInt32 → K → UInt32) (keys : List K) (n : Nat) (vals taken : List Nat) (s : UInt32) (hv : ∀ i ∈ vals, i < keys.length)
    (ht : taken.Nodup) : Fits hash keys (powerAbove n - 1) vals taken s ↔ Places hash (powerAbove n) s (vals.filterMap (keys[·]?)) taken := by
  rw [Fits, slots_eq hash keys n s vals hv, List.nodup_append, Places]
  constructor
  · rintro ⟨h1, -, h3⟩
    exact ⟨h1, fun k hk hc => h3 _ (List.mem_map_of_mem hk) _ hc rfl⟩
  · rintro ⟨h1, h2⟩
    refine ⟨h1, ht, fun a ha b hb hab => ?_⟩
    obtain ⟨k, hk, rfl⟩ := List.mem_map.mp ha
    exact h2 k hk (hab ▸ hb)

theorem range_keys (keys : List K) : (List.range keys.length).filterMap (keys[·]?) = keys := by
  have : ∀ (l : List K) (p : List K), (List.range' p.length l.length).filterMap ((p ++ l)[·]?) = l := by
    intro l
    induction l with
    | nil => intro p; rfl
    | cons a l ih =>
      intro p
      rw [List.length_cons, List.range'_succ, List.filterMap_cons]
      simp only [List.getElem?_append_right (Nat.le_refl _), Nat.sub_self, List.getElem?_cons_zero]
      have := ih (p ++ [a])
      rw [List.length_append, List.append_assoc] at this
      simp only [List.length_singleton, List.singleton_append] at this
      rw [this]
  have h := this keys []
  rw [List.range_eq_range']
  exact h

theorem picked_subperm (keys : List K) (vals : List Nat) (hv : ∀ i ∈ vals, i < keys.length) (hn : vals.Nodup) :
    (vals.filterMap (keys[·]?)).Subperm keys := by
  have h : vals.Subperm (List.range keys.length) := List.subperm_of_subset hn fun i hi => List.mem_range.mpr (hv i hi)
  obtain ⟨l, hp, hs⟩ := h
  have := hs.filterMap (keys[·]?)
  rw [range_keys] at this
  exact ⟨_, hp.filterMap _, this⟩

theorem picked_length (keys : List K) : ∀ (vals : List Nat), (∀ i ∈ vals, i < keys.length) → (vals.filterMap (keys[·]?)).length = vals.length
  | [], _ => rfl
  | i :: vals, h => by
    rw [List.filterMap_cons, List.getElem?_eq_getElem (h i (by simp))]
    simp only [List.length_cons, picked_length keys vals (fun j hj => h j (by simp [hj]))]

/-! ### The buckets hold each index once -/

theorem set_flatten_perm : ∀ (sp : List (List Nat)) (n : Nat) (v : List Nat) (i : Nat), sp[n]? = some v →
    (sp.set n (v ++ [i])).flatten.Perm (i :: sp.flatten)
  | [], n, v, i, h => by simp at h
  | w :: sp, 0, v, i, h => by
    simp only [List.getElem?_cons_zero, Option.some.injEq] at h
    subst h
    simp only [List.set_cons_zero, List.flatten_cons, List.append_assoc, List.singleton_append]
    exact List.perm_middle
  | w :: sp, n + 1, v, i, h => by
    simp only [List.getElem?_cons_succ] at h
    simp only [List.set_cons_succ, List.flatten_cons]
    exact ((set_flatten_perm sp n v i h).append_left w).trans List.perm_middle

theorem mphSparse_perm (hash : UInt32 → K → UInt32) (mask : Nat) : ∀ (ks : List K) (i : Nat) (sp sp' : List (List Nat)),
    mphSparse hash mask ks i sp = .ok sp' → sp'.flatten.Perm (sp.flatten ++ List.range' i ks.length)
  | [], i, sp, sp', h => by
    simp only [mphSparse, Res.ok.injEq] at h
    subst h
    simp
  | k :: ks, i, sp, sp', h => by
    rw [mphSparse] at h
    split at h
    · simp at h
    · rename_i v hv
      refine (mphSparse_perm hash mask ks (i + 1) _ sp' h).trans ?_
      refine ((set_flatten_perm sp _ v i hv).append_right _).trans ?_
      rw [List.length_cons, List.range'_succ, List.cons_append]
      exact List.perm_middle.symm

theorem buckets_flat (sp : List (List Nat)) : (mphBuckets sp).flatMap Prod.snd = sp.flatten := by
  have : ∀ (sp : List (List Nat)) (i : Nat), (((sp.zipIdx i).filter fun p => p.1.length > 0).map fun p => (p.2, p.1)).flatMap Prod.snd = sp.flatten := by
    intro sp
    induction sp with
    | nil => intro i; rfl
    | cons v sp ih =>
      intro i
      rw [List.zipIdx_cons, List.filter_cons, List.flatten_cons, ← ih (i + 1)]
      cases v with
      | nil => rfl
      | cons a v => rfl
  exact this sp 0

theorem rich_fill (hash : UInt32 → K → UInt32) (keys : List K) (hr : Rich hash keys) :
    ∀ (bs : List (Nat × List Nat)) (l0 : List UInt32) (occ : List Bool) (l1 : List UInt32) (P : List (Nat × Nat)),
    (∀ b ∈ bs, b.1 < l0.length ∧ ∀ i ∈ b.2, i < keys.length) → (bs.flatMap Prod.snd).Nodup →
    P.length + (bs.flatMap Prod.snd).length ≤ powerAbove keys.length →
    MphInv (powerAbove keys.length - 1 + 1) keys.length P occ l1 →
    ∃ r, mphFill hash keys (powerAbove keys.length - 1) (2 ^ 32) bs l0 occ l1 = .ok r
  | [], l0, occ, l1, P, _, _, _, _ => ⟨_, rfl⟩
  | b :: bs, l0, occ, l1, P, hb, hn, hl, hI => by
    rw [List.flatMap_cons] at hn hl
    rw [List.length_append] at hl
    obtain ⟨hb0, hbi⟩ := hb b (by simp)
    rw [mphFill]
    rcases mphSearch_spec hash keys (powerAbove keys.length - 1) b.2 P hbi (2 ^ 32) 0 occ l1 hI with ⟨o, l, s, e, -, -, hI'⟩ | ⟨-, hf⟩
    · simp only [e, hb0, if_true]
      refine rich_fill hash keys hr bs _ o l _ (fun c hc => ?_) (List.nodup_append.mp hn).2.1 ?_ hI'
      · rw [List.length_set]
        exact hb c (by simp [hc])
      · rw [List.length_append, List.length_map]
        omega
    · exfalso
      obtain ⟨s, hs⟩ := hr (b.2.filterMap (keys[·]?)) (P.map Prod.snd) (picked_subperm keys b.2 hbi (List.nodup_append.mp hn).1)
        (by rw [picked_length keys b.2 hbi, List.length_map]; omega)
      refine hf s.toNat (UInt32.toNat_lt s) ?_
      rw [UInt32.zero_add, UInt32.ofNat_toNat]
      exact (fits_iff hash keys keys.length b.2 _ s hbi hI.nodup).mpr hs

/-! ### C37, conditions -/

/-- C37, a sufficient condition, for any number of keys: if whatever slots are taken, any of the keys can be placed in the rest by some seed,
then MPHBuild returns. -/
theorem C37_rich_partial (ops : MphOps K) (order : List (Nat × List Nat) → List (Nat × List Nat)) (hord : ∀ l, (order l).Perm l) (vs : UInt32)
    (keys : List K) (byKey : Bool) (hr : Rich ops.hash keys) : MphTerminates ops order vs keys byKey := by
  have p0 := nextPow2_pos (keys.length / 4)
  have p1 := nextPow2_pos keys.length
  obtain ⟨sp, hsp, hlen, -⟩ := mphSparse_spec ops.hash (nextPow2 (keys.length / 4) - 1) keys 0
    (List.replicate (nextPow2 (keys.length / 4)) []) (by rw [List.length_replicate]; omega)
  have hperm := mphSparse_perm _ _ _ _ _ _ hsp
  rw [show (List.replicate (nextPow2 (keys.length / 4)) ([] : List Nat)).flatten = [] by simp, List.nil_append] at hperm
  have hflat : ((order (mphBuckets sp)).flatMap Prod.snd).Perm (List.range' 0 keys.length) := by
    refine ((hord (mphBuckets sp)).flatMap_right Prod.snd).trans ?_
    rw [buckets_flat]
    exact hperm
  have hn : keys.length ≤ powerAbove keys.length := Nat.le_pow_clog (by decide) _
  obtain ⟨r, hF⟩ := rich_fill ops.hash keys hr (order (mphBuckets sp))
    (List.replicate (nextPow2 (keys.length / 4)) 0) (List.replicate (nextPow2 keys.length) false)
    (List.replicate (nextPow2 keys.length) 0) [] (by
      intro b hb
      have hb' := mem_mphBuckets.mp ((hord _).mem_iff.mp hb)
      refine ⟨?_, fun i hi => ?_⟩
      · have := (List.getElem?_eq_some_iff.mp hb'.1).1
        rw [List.length_replicate]; omega
      · have : i ∈ (order (mphBuckets sp)).flatMap Prod.snd := List.mem_flatMap.mpr ⟨b, hb, hi⟩
        have := hflat.mem_iff.mp this
        simpa using this)
    (hflat.nodup_iff.mpr List.nodup_range')
    (by rw [hflat.length_eq, List.length_range']; simpa using hn)
    (by
      rw [← nextPow2_eq, show nextPow2 keys.length - 1 + 1 = nextPow2 keys.length by omega]
      exact mphInv_init _ _)
  rcases mphBuild_spec ops order hord (2 ^ 32) vs keys byKey with e | ⟨t, e, -⟩
  · exfalso
    unfold mphBuild at e
    simp only [hsp, Res.bind_ok] at e
    rw [nextPow2_eq keys.length] at hF e
    rw [hF] at e
    simp at e
  · exact ⟨2 ^ 32, t, e⟩

/-- C37, a necessary condition, for any number of keys: if MPHBuild returns, then all keys that share a first level slot are placed together by
some seed. -/
theorem C37_buckets_partial (ops : MphOps K) (order : List (Nat × List Nat) → List (Nat × List Nat)) (hord : ∀ l, (order l).Perm l) (vs : UInt32)
    (keys : List K) (byKey : Bool) (h : MphTerminates ops order vs keys byKey) (r : Nat) :
    ∃ seed, Places ops.hash (powerAbove keys.length) seed (bucketOf ops.hash keys r) [] := by
  obtain ⟨fuel, t, ht⟩ := h
  have hB := built_of_ok hord ht
  refine ⟨t.level0[r]?.getD 0, ?_, by simp⟩
  rw [List.Nodup, List.pairwise_map, bucketOf, List.pairwise_filter, List.pairwise_iff_getElem]
  intro i j hi hj hij h1 h2 hc
  simp only [decide_eq_true_eq] at h1 h2
  have e0 : t.level0Mask = powerAbove (keys.length / 4) - 1 := by have := hB.size0; rw [nextPow2_eq] at this; omega
  have e1 : t.level1Mask = powerAbove keys.length - 1 := by have := hB.size1; rw [nextPow2_eq] at this; omega
  obtain ⟨li, s, a0, a1⟩ := built_index hB (List.getElem?_eq_getElem hi)
  obtain ⟨lj, s', b0, b1⟩ := built_index hB (List.getElem?_eq_getElem hj)
  rw [e0, and_power] at a0 b0
  rw [e1, and_power] at a1 b1
  rw [slotIn] at h1 h2
  rw [h1] at a0
  rw [h2] at b0
  rw [a0, Option.some.injEq] at b0
  subst b0
  rw [a0, slotIn, slotIn, Option.getD_some] at hc
  rw [hc, b1, Option.some.injEq] at a1
  have := congrArg UInt32.toNat a1
  rw [UInt32.toNat_ofNat', UInt32.toNat_ofNat', Nat.mod_eq_of_lt li, Nat.mod_eq_of_lt lj] at this
  omega

/-- C37, exactly, for up to seven keys (they all share the first level slot): MPHBuild returns if and only if under some seed the keys have
different hashes modulo the number of slots. -/
theorem C37_few_keys_partial (ops : MphOps K) (order : List (Nat × List Nat) → List (Nat × List Nat)) (hord : ∀ l, (order l).Perm l)
    (vs : UInt32) (keys : List K) (hlen : keys.length ≤ 7) (byKey : Bool) :
    MphTerminates ops order vs keys byKey ↔ ∃ seed, (keys.map fun k => (ops.hash seed k).toNat % powerAbove keys.length).Nodup := by
  have h1 : powerAbove (keys.length / 4) = 1 := by
    have : keys.length / 4 = 0 ∨ keys.length / 4 = 1 := by omega
    rcases this with h | h <;> rw [h] <;> rfl
  constructor
  · intro h
    obtain ⟨s, hs, -⟩ := C37_buckets_partial ops order hord vs keys byKey h 0
    refine ⟨s, ?_⟩
    have : bucketOf ops.hash keys 0 = keys := by
      rw [bucketOf, h1]
      exact List.filter_eq_self.mpr fun k _ => by simp [slotIn, Nat.mod_one]
    rwa [this] at hs
  · rintro ⟨s, hs⟩
    have p1 := nextPow2_pos keys.length
    obtain ⟨sp, hsp, hl, -⟩ := mphSparse_spec ops.hash (nextPow2 (keys.length / 4) - 1) keys 0
      (List.replicate (nextPow2 (keys.length / 4)) []) (by rw [List.length_replicate, nextPow2_eq, h1])
    have hperm := mphSparse_perm _ _ _ _ _ _ hsp
    rw [show (List.replicate (nextPow2 (keys.length / 4)) ([] : List Nat)).flatten = [] by simp, List.nil_append] at hperm
    rw [nextPow2_eq, h1] at hl
    obtain ⟨v, rfl⟩ := List.length_eq_one_iff.mp hl
    rw [List.flatten_singleton] at hperm
    have hv : ∀ i ∈ v, i < keys.length := fun i hi => by simpa using hperm.mem_iff.mp hi
    rcases mphBuild_spec ops order hord (2 ^ 32) vs keys byKey with e | ⟨t, e, -⟩
    · exfalso
      unfold mphBuild at e
      simp only [hsp, Res.bind_ok] at e
      cases v with
      | nil =>
        have ho : order (mphBuckets [[]]) = [] := List.perm_nil.mp (hord _)
        rw [ho] at e
        simp [mphFill] at e
      | cons i v =>
        have ho : order (mphBuckets [i :: v]) = [(0, i :: v)] := List.perm_singleton.mp (hord _)
        rw [ho, mphFill, nextPow2_eq keys.length] at e
        rcases mphSearch_spec ops.hash keys (powerAbove keys.length - 1) (i :: v) [] hv (2 ^ 32) 0 (List.replicate (powerAbove keys.length) false)
          (List.replicate (powerAbove keys.length) 0) (by
            rw [← nextPow2_eq, show nextPow2 keys.length - 1 + 1 = nextPow2 keys.length by omega]
            exact mphInv_init _ _) with ⟨o, l, s, e', -⟩ | ⟨-, hf⟩
        · simp only [e', List.length_replicate, nextPow2_eq, h1, Nat.zero_lt_one, if_true, mphFill, Res.bind_ok] at e
          simp at e
        · refine hf s.toNat (UInt32.toNat_lt s) ?_
          rw [UInt32.zero_add, UInt32.ofNat_toNat]
          refine (fits_iff ops.hash keys keys.length (i :: v) _ s hv (by simp)).mpr ⟨?_, by simp⟩
          have hp : ((i :: v).filterMap (keys[·]?)).Perm keys := by
            have := hperm.filterMap (keys[·]?)
            rwa [← List.range_eq_range', range_keys] at this
          exact (hp.map _).nodup_iff.mpr hs
    · exact ⟨2 ^ 32, t, e⟩

/-- Seven keys, with different hashes modulo 8 under seed 66. -/
example : MphTerminates murmurMphOps List.reverse 77 (nineKeys.take 7) true :=
  (C37_few_keys_partial murmurMphOps List.reverse (fun l => List.reverse_perm l) 77 (nineKeys.take 7) (by decide) true).mpr ⟨66, by decide +kernel⟩

example : ∃ t, mphBuild murmurMphOps List.reverse 100 77 nineKeys true = .ok t := by
  have h : (match mphBuild murmurMphOps List.reverse 100 77 nineKeys true with | .ok _ => true | _ => false) = true := by decide +kernel
  split at h
  · exact ⟨_, by assumption⟩
  · simp at h

/-- A family of hash functions that is rich for two keys: the bits of the seed. -/
theorem bits_rich : Rich (fun (seed : UInt32) (k : UInt32) => seed >>> k) [0, 1] := by
  intro ks taken hk hl
  obtain ⟨l, hp, hs⟩ := hk
  have hm : powerAbove [(0 : UInt32), 1].length = 2 := rfl
  rw [hm] at hl ⊢
  rw [← hp.length_eq] at hl
  have hall : ∀ seed, Places (fun (seed : UInt32) (k : UInt32) => seed >>> k) 2 seed l taken →
      Places (fun (seed : UInt32) (k : UInt32) => seed >>> k) 2 seed ks taken := by
    rintro s ⟨h1, h2⟩
    exact ⟨(hp.map _).nodup_iff.mp h1, fun k hk => h2 k (hp.mem_iff.mpr hk)⟩
  have one : ∀ k : UInt32, k = 0 ∨ k = 1 → l = [k] → ∃ seed, Places (fun (seed : UInt32) (k : UInt32) => seed >>> k) 2 seed l taken := by
    rintro k hk rfl
    have : taken.length ≤ 1 := by simpa [Nat.add_comm] using hl
    by_cases h0 : 0 ∈ taken
    · refine ⟨3, by simp, fun x hx => ?_⟩
      have e : slotIn (fun (seed : UInt32) (k : UInt32) => seed >>> k) 2 3 x = 1 := by
        rw [List.mem_singleton] at hx
        subst hx
        rcases hk with rfl | rfl <;> decide
      rw [e]
      match taken, this, h0 with
      | [t], _, h0 => simp only [List.mem_singleton] at h0 ⊢; omega
    · refine ⟨0, by simp, fun x hx => ?_⟩
      have e : slotIn (fun (seed : UInt32) (k : UInt32) => seed >>> k) 2 0 x = 0 := by
        rw [List.mem_singleton] at hx
        subst hx
        rcases hk with rfl | rfl <;> decide
      rw [e]
      exact h0
  have hls' : l = [] ∨ l = [1] ∨ l = [0] ∨ l = [0, 1] := by
    cases hs with
    | cons _ h =>
      cases h with
      | cons _ h => exact .inl (List.sublist_nil.mp h)
      | cons_cons _ h => rw [List.sublist_nil.mp h]; exact .inr (.inl rfl)
    | cons_cons _ h =>
      cases h with
      | cons _ h => rw [List.sublist_nil.mp h]; exact .inr (.inr (.inl rfl))
      | cons_cons _ h => rw [List.sublist_nil.mp h]; exact .inr (.inr (.inr rfl))
  rcases hls' with rfl | rfl | rfl | rfl
  · exact ⟨0, hall 0 ⟨by simp, by simp⟩⟩
  · obtain ⟨s, h⟩ := one 1 (.inr rfl) rfl
    exact ⟨s, hall s h⟩
  · obtain ⟨s, h⟩ := one 0 (.inl rfl) rfl
    exact ⟨s, hall s h⟩
  · have : taken = [] := by
      have : taken.length ≤ 0 := by simpa using hl
      exact List.length_eq_zero_iff.mp (by omega)
    subst this
    exact ⟨1, hall 1 ⟨by decide, by simp⟩⟩

example := C37_rich_partial ⟨fun (seed : UInt32) (k : UInt32) => seed >>> k, fun a b => some (a == b)⟩ id (fun l => List.Perm.refl l) 0 [0, 1] true
  bits_rich

example := C37_buckets_partial murmurMphOps List.reverse (fun l => List.reverse_perm l) 77 (nineKeys.take 7) true
  ((C37_few_keys_partial murmurMphOps List.reverse (fun l => List.reverse_perm l) 77 (nineKeys.take 7) (by decide) true).mpr
    ⟨66, by decide +kernel⟩) 3

end Poodle.Props
