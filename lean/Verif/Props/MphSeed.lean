import Verif.Spec.MphSeed
import Verif.Props.MurmurSeed
import Verif.Props.Rand
import Verif.Lemmas.Conv

/-
Property C199: the verification seed of perfect hash tables (/repo/src/util/mph_util.go).
-/

namespace Poodle.Props
open Poodle Spec

/-- The seed, from the number that the random source delivers. -/
theorem verifySeed_eq (b : Bytes) : mphVerifySeed b = .ok (UInt32.ofNat (beVal b % 15 + 18)) := by
  have h : randUintRange 8 (2 ^^^ 16) ((2 ^^^ 32) - 1) b = .ok (beVal b % 15 + 18) := by
    have e : (2 ^^^ 16 : Nat) = 18 ∧ ((2 ^^^ 32) - 1 : Nat) = 33 := by decide
    rw [e.1, e.2]
    have : beVal b % 15 < 15 := Nat.mod_lt _ (by decide)
    simp only [randUintRange, randUint]
    rw [if_neg (by decide), show (33 + 2 ^ (8 * 8) - 18) % 2 ^ (8 * 8) = 15 by decide, Nat.mod_eq_of_lt (a := beVal b % 15 + 18) (by omega)]
  unfold mphVerifySeed
  rw [h]
  rfl

/-- The claim of C199: every number from 2^16 to 2^32 - 2 may be the seed. -/
def VerifySeedWide : Prop :=
  ∀ seed : UInt32, 2 ^ 16 ≤ seed.toNat → seed.toNat < 2 ^ 32 - 1 → ∃ b : Bytes, b.length = 8 ∧ mphVerifySeed b = .ok seed

/-- C199, exactly: the seed is one of the fifteen numbers from 18 to 32. -/
theorem C199_seeds_partial (seed : UInt32) : (∃ b : Bytes, b.length = 8 ∧ mphVerifySeed b = .ok seed) ↔ 18 ≤ seed.toNat ∧ seed.toNat ≤ 32 := by
  constructor
  · rintro ⟨b, -, h⟩
    rw [verifySeed_eq] at h
    have : beVal b % 15 < 15 := Nat.mod_lt _ (by decide)
    rw [← Res.ok.inj h, UInt32.toNat_ofNat', Nat.mod_eq_of_lt (by omega)]
    omega
  · intro h
    refine ⟨beBytes 8 (seed.toNat - 18), beBytes_length _ _, ?_⟩
    rw [verifySeed_eq, beVal_beBytes, Nat.mod_eq_of_lt (b := 256 ^ 8) (by omega), Nat.mod_eq_of_lt (by omega), Nat.sub_add_cancel h.1,
      UInt32.ofNat_toNat]

example : mphVerifySeed [0, 0, 0, 0, 0, 0, 0, 14] = .ok 32 ∧ mphVerifySeed [255, 255, 255, 255, 255, 255, 255, 255] = .ok 18 := by
  decide +kernel

/-- C199 is refuted. -/
theorem C199_refuted : ¬ VerifySeedWide := by
  intro h
  have := (C199_seeds_partial 65536).mp (h 65536 (by decide) (by decide))
  exact absurd this.2 (by decide)

/-- The byte strings of length eight are the numbers below 2^64. -/
theorem draws_eq (P : Bytes → Prop) : draws P = Set.ncard {n | n < 2 ^ 64 ∧ P (beBytes 8 n)} := by
  have e : beVal '' {b : Bytes | b.length = 8 ∧ P b} = {n | n < 2 ^ 64 ∧ P (beBytes 8 n)} := by
    ext n
    simp only [Set.mem_image, Set.mem_setOf_eq]
    constructor
    · rintro ⟨b, ⟨h1, h2⟩, rfl⟩
      have := beVal_lt b
      rw [h1] at this
      have e := beBytes_beVal b
      rw [h1] at e
      exact ⟨by simpa using this, by rwa [e]⟩
    · rintro ⟨h1, h2⟩
      exact ⟨beBytes 8 n, ⟨beBytes_length _ _, h2⟩, by rw [beVal_beBytes, Nat.mod_eq_of_lt (by simpa using h1)]⟩
  rw [← e, draws]
  refine (Set.ncard_image_of_injOn ?_).symm
  rintro a ⟨ha, -⟩ b ⟨hb, -⟩ h
  exact beVal_injective (ha.trans hb.symm) h

theorem residue_count (i : Nat) (hi : i < 15) : Set.ncard {n | n < 2 ^ 64 ∧ n % 15 = i} = if i = 0 then 2 ^ 64 / 15 + 1 else 2 ^ 64 / 15 := by
  have e : {n | n < 2 ^ 64 ∧ n % 15 = i} = ((Finset.range (2 ^ 64)).filter (· ≡ i [MOD 15]) : Finset Nat) := by
    ext n
    simp only [Set.mem_setOf_eq, Finset.coe_filter, Finset.mem_range, Nat.ModEq, Nat.mod_eq_of_lt hi]
  rw [e, Set.ncard_coe_finset, ← Nat.count_eq_card_filter_range, Nat.count_modEq_card _ (by omega), Nat.mod_eq_of_lt hi,
    show 2 ^ 64 % 15 = 1 by decide]
  split <;> split <;> omega

/-- C199: the fifteen seeds are equally likely, up to one output of the random source. -/
theorem C199_chance_partial (seed : UInt32) (h : 18 ≤ seed.toNat ∧ seed.toNat ≤ 32) :
    draws (fun b => mphVerifySeed b = .ok seed) = if seed = 18 then 2 ^ 64 / 15 + 1 else 2 ^ 64 / 15 := by
  have e : {n | n < 2 ^ 64 ∧ mphVerifySeed (beBytes 8 n) = .ok seed} = {n | n < 2 ^ 64 ∧ n % 15 = seed.toNat - 18} := by
    ext n
    simp only [Set.mem_setOf_eq, verifySeed_eq, Res.ok.injEq]
    refine and_congr_right fun hn => ?_
    rw [beVal_beBytes, Nat.mod_eq_of_lt (b := 256 ^ 8) (by simpa using hn), ← UInt32.toNat_inj, UInt32.toNat_ofNat',
      Nat.mod_eq_of_lt (a := n % 15 + 18) (by omega)]
    omega
  rw [draws_eq, e, residue_count _ (by omega)]
  have : seed.toNat - 18 = 0 ↔ seed = 18 := by
    rw [← UInt32.toNat_inj, show (18 : UInt32).toNat = 18 from rfl]
    omega
  simp only [this]

example : (18 : Nat) ≤ (20 : UInt32).toNat ∧ (20 : UInt32).toNat ≤ 32 := by decide

/-- C199: whatever the keys of the table are, a key that is accepted at all is accepted with a chance of one in fifteen at least. -/
theorem C199_fifteenth_partial (order : List (Nat × List Nat) → List (Nat × List Nat)) (fuel : Nat) (keys : List KeyObj) (s : KeyObj) :
    draws (Accepted order fuel keys s) = 0 ∨ 2 ^ 64 / 15 ≤ draws (Accepted order fuel keys s) := by
  by_cases h : ∃ b : Bytes, Accepted order fuel keys s b
  · right
    obtain ⟨b, hb⟩ := h
    have hsub : {n | n < 2 ^ 64 ∧ n % 15 = beVal b % 15} ⊆ {n | n < 2 ^ 64 ∧ Accepted order fuel keys s (beBytes 8 n)} := by
      rintro n ⟨h1, h2⟩
      refine ⟨h1, ?_⟩
      have e : mphVerifySeed (beBytes 8 n) = mphVerifySeed b := by
        rw [verifySeed_eq, verifySeed_eq, beVal_beBytes, Nat.mod_eq_of_lt (b := 256 ^ 8) (by simpa using h1), h2]
      obtain ⟨t, m, h3, h4⟩ := hb
      refine ⟨t, m, ?_, h4⟩
      rw [mphBuildRandom, e]
      exact h3
    have hfin : {n | n < 2 ^ 64 ∧ Accepted order fuel keys s (beBytes 8 n)}.Finite :=
      (Set.finite_lt_nat (2 ^ 64)).subset fun n hn => hn.1
    rw [draws_eq]
    refine Nat.le_trans ?_ (Set.ncard_le_ncard hsub hfin)
    rw [residue_count _ (Nat.mod_lt _ (by decide))]
    split <;> omega
  · left
    have : {b : Bytes | b.length = 8 ∧ Accepted order fuel keys s b} = ∅ := by
      ext b
      simp only [Set.mem_setOf_eq, Set.mem_empty_iff_false, iff_false]
      exact fun hb => h ⟨b, hb.2⟩
    rw [draws, this, Set.ncard_empty]

/-- A table for one key, with its lookups. -/
theorem accepted_one (order : List (Nat × List Nat) → List (Nat × List Nat)) (hord : ∀ l, (order l).Perm l) (fuel : Nat) (hf : 0 < fuel)
    (k s : KeyObj) (b : Bytes) (seed : UInt32) (hb : mphVerifySeed b = .ok seed) :
    Accepted order fuel [k] s b ↔ murmurMphOps.hash seed s = murmurMphOps.hash seed k := by
  have ho1 : order [(0, [0])] = [(0, [0])] := List.perm_singleton.mp (hord [(0, [0])])
  obtain ⟨f, rfl⟩ : ∃ f, fuel = f + 1 := ⟨fuel - 1, by omega⟩
  have e : mphBuildRandom murmurMphOps order (f + 1) b [k] false = .ok ⟨[0], 0, [0], 0, .hashes seed [murmurMphOps.hash seed k]⟩ := by
    rw [mphBuildRandom, hb, Res.bind_ok]
    simp [mphBuild, nextPow2, nextPow2Loop, mphSparse, mphBuckets, ho1, mphFill, mphSearch, mphPlace]
  simp only [Accepted, e, Res.ok.injEq]
  constructor
  · rintro ⟨t, n, rfl, h⟩
    exact (by simpa [MphTable.lookup] using h : 0 = n ∧ _).2
  · intro h
    exact ⟨_, 0, rfl, by simp [MphTable.lookup, h]⟩

/-- For every seed, every hash value and every byte string there is another one with this hash, of at most eight bytes. -/
theorem preimage (seed v : UInt32) (b : Bytes) : ∃ a : Bytes, a ≠ b ∧ a ≠ [] ∧ a.length ≤ 8 ∧ murmurHash seed a = v := by
  have := u32_finite
  have inj4 : ∀ x y : UInt32, beBytes 4 x.toNat = beBytes 4 y.toNat → x = y := by
    intro x y h
    have := congrArg beVal h
    rw [beVal_beBytes, beVal_beBytes, Nat.mod_eq_of_lt (by have := x.toNat_lt; omega), Nat.mod_eq_of_lt (by have := y.toNat_lt; omega)] at this
    exact UInt32.toNat_inj.mp this
  have len4 : ∀ x : UInt32, (beBytes 4 x.toNat).length = 4 := fun x => beBytes_length _ _
  by_cases hb : b.length = 4
  · have inj : Function.Injective fun x : UInt32 => murmurHash seed ([0, 0, 0, 0] ++ beBytes 4 x.toNat) := by
      intro x y h
      by_contra hne
      refine C153_one_word seed ([0, 0, 0, 0] ++ beBytes 4 x.toNat) ([0, 0, 0, 0] ++ beBytes 4 y.toNat) 1
        ⟨by simp [len4], fun j hj => ?_⟩ (fun e => hne (inj4 x y (List.append_cancel_left e))) h
      rcases hj with hj | hj
      · rw [List.getElem?_append_left (by simpa using hj), List.getElem?_append_left (by simpa using hj)]
      · rw [List.getElem?_eq_none (by simp [len4]; omega), List.getElem?_eq_none (by simp [len4]; omega)]
    obtain ⟨x, hx⟩ := Finite.injective_iff_surjective.mp inj v
    refine ⟨_, ?_, ?_, ?_, hx⟩
    · intro e
      have := congrArg List.length e
      simp [len4, hb] at this
    · simp
    · simp [len4]
  · have inj : Function.Injective fun x : UInt32 => murmurHash seed (beBytes 4 x.toNat) := by
      intro x y h
      by_contra hne
      exact C153_short seed _ _ ((len4 x).trans (len4 y).symm) (by rw [len4]) (fun e => hne (inj4 x y e)) h
    obtain ⟨x, hx⟩ := Finite.injective_iff_surjective.mp inj v
    refine ⟨_, ?_, ?_, ?_, hx⟩
    · intro e
      exact hb (e ▸ len4 x)
    · intro e
      have := len4 x
      rw [e] at this
      simp at this
    · rw [len4]; omega

/-- C199: for every key of one sub key there are fifteen other keys, of one short sub key, one of which the table for this key accepts,
whatever the random source delivers. -/
theorem C199_forged_partial (k : KeyObj) (s : Slice) (hk : k.subKeys = [s]) : ∃ l : List KeyObj, l.length = 15 ∧
    (∀ x ∈ l, ∃ a : Bytes, x.subKeys = [some a] ∧ a ≠ s.bytes ∧ a.length ≤ 8 ∧ x.equal? k = some false) ∧
    ∀ (order : List (Nat × List Nat) → List (Nat × List Nat)) (fuel : Nat) (b : Bytes), (∀ l, (order l).Perm l) → 0 < fuel →
      ∃ x ∈ l, Accepted order fuel [k] x b := by
  choose f h1 h2 h3 h4 using fun i : Nat => preimage (UInt32.ofNat (i + 18)) (murmurMphOps.hash (UInt32.ofNat (i + 18)) k) s.bytes
  have hash : ∀ (seed : UInt32) (a : Bytes), murmurMphOps.hash seed (.key { newKey with keys := [some a] }) = murmurHash seed a := by
    intro seed a
    simp [murmurMphOps, keyMphOps, KeyObj.hash, newKey, Slice.bytes]
  refine ⟨(List.range 15).map fun i => .key { newKey with keys := [some (f i)] }, by simp, ?_, ?_⟩
  · intro x hx
    obtain ⟨i, -, rfl⟩ := List.mem_map.mp hx
    refine ⟨f i, rfl, h1 i, h3 i, ?_⟩
    rw [KeyObj.equal?_eq, hk]
    have : (KeyObj.key { newKey with keys := [some (f i)] }).subKeys ≠ [s] := by
      intro e
      exact h1 i (by rw [← (List.cons.inj e).1]; rfl)
    simp [this]
  · intro order fuel b hord hf
    have hlt : beVal b % 15 < 15 := Nat.mod_lt _ (by decide)
    refine ⟨_, List.mem_map.mpr ⟨beVal b % 15, by simpa using hlt, rfl⟩, ?_⟩
    rw [accepted_one order hord fuel hf k _ b _ (verifySeed_eq b), hash]
    exact h4 _

example : (KeyObj.key (newSimpleKey (some [1, 2, 3, 4]))).subKeys = [some [1, 2, 3, 4]] := rfl

example := C199_fifteenth_partial id 100 [.key (newSimpleKey (some [1])), .key (newSimpleKey (some [2]))] (.key (newSimpleKey (some [3])))

end Poodle.Props
