import Verif.Lemmas.MurmurTail
import Verif.Props.MphFit
import Verif.Props.MurmurSeed

/-
C37 for the Murmur hashes of the code: two keys for which building a perfect hash ends.
-/

namespace Poodle.Props
open Poodle Poodle.Spec

/-- The lowest bit of a hash as a remainder. -/
theorem mod_two_bit (x : UInt32) : x.toNat % 2 = if x.toBitVec.getLsbD 0 then 1 else 0 := by
  rw [BitVec.getLsbD, Nat.testBit_zero, UInt32.toNat_toBitVec]
  by_cases h : x.toNat % 2 = 1
  · simp [h]
  · simp [h]
    omega

/-- Two byte strings with the same whole blocks of four bytes and different last bytes: under some seed one hash is even and the other odd. -/
theorem murmurHash_parity (p a b : Bytes) (hp : p.length % 4 = 0) (ha : a.length < 4) (hb : b.length < 4) (hab : a ≠ b) :
    ∃ seed, (murmurHash seed (p ++ a)).toNat % 2 ≠ (murmurHash seed (p ++ b)).toNat % 2 := by
  obtain ⟨s, hs⟩ := murmur_parity_differs p a b hp ha hb hab
  refine ⟨⟨s⟩, ?_⟩
  rw [mod_two_bit, mod_two_bit, C32_murmur3, C32_murmur3]
  intro h
  apply hs
  revert h
  simp only
  cases (murmur3 s (p ++ a)).getLsbD 0 <;> cases (murmur3 s (p ++ b)).getLsbD 0 <;> simp

/-- Parity of an exclusive or. -/
theorem xor_mod_two (x y : UInt32) : (x ^^^ y).toNat % 2 = (x.toNat % 2 + y.toNat % 2) % 2 := by
  have h := Nat.xor_mod_two_pow (a := x.toNat) (b := y.toNat) (n := 1)
  rw [Nat.pow_one] at h
  rw [UInt32.toNat_xor, h]
  rcases Nat.mod_two_eq_zero_or_one x.toNat with hx | hx <;> rcases Nat.mod_two_eq_zero_or_one y.toNat with hy | hy <;> rw [hx, hy] <;> rfl

/-- C37, positively, for the Murmur hashes of the code: for two keys that have the same sub keys up to one, where these two have the same
whole blocks of four bytes but different last bytes (none to three), MPHBuild returns. -/
theorem C37_two_keys_partial (order : List (Nat × List Nat) → List (Nat × List Nat)) (hord : ∀ l, (order l).Perm l) (vs : UInt32)
    (k1 k2 : KeyObj) (byKey : Bool) (l r : List Slice) (x y : Slice) (p a b : Bytes) (h1 : k1.subKeys = l ++ x :: r)
    (h2 : k2.subKeys = l ++ y :: r) (hx : x.bytes = p ++ a) (hy : y.bytes = p ++ b) (hp : p.length % 4 = 0) (ha : a.length < 4)
    (hb : b.length < 4) (hab : a ≠ b) : MphTerminates murmurMphOps order vs [k1, k2] byKey := by
  obtain ⟨s, hs⟩ := murmurHash_parity p a b hp ha hb hab
  refine (C37_few_keys_partial murmurMphOps order hord vs [k1, k2] (by simp) byKey).mpr ⟨s, ?_⟩
  have hpw : powerAbove [k1, k2].length = 2 := rfl
  have e : ∀ (k : KeyObj) (z : Slice), k.subKeys = l ++ z :: r → (murmurMphOps.hash s k).toNat % 2 =
      ((xorAll (fun z => murmurHash s z.bytes) l).toNat % 2 +
        ((murmurHash s z.bytes).toNat % 2 + (xorAll (fun z => murmurHash s z.bytes) r).toNat % 2)) % 2 := by
    intro k z hk
    have : murmurMphOps.hash s k = xorAll (fun z => murmurHash s z.bytes) l ^^^ (murmurHash s z.bytes ^^^ xorAll (fun z => murmurHash s z.bytes) r) := by
      simp only [murmurMphOps, keyMphOps]
      rw [KeyObj.hash_eq, hk, List.foldl_append, foldl_xor, foldl_xor]
      simp [xorAll]
    rw [this, xor_mod_two, xor_mod_two]
    omega
  rw [hpw]
  simp only [List.map_cons, List.map_nil, List.nodup_cons, List.mem_singleton, List.not_mem_nil, not_false_eq_true, List.nodup_nil, and_true]
  rw [e k1 x h1, e k2 y h2, hx, hy]
  omega

/-- C37 for short keys: for any two keys with one sub key of at most three bytes each, with different bytes, MPHBuild returns. -/
theorem C37_short_partial (order : List (Nat × List Nat) → List (Nat × List Nat)) (hord : ∀ l, (order l).Perm l) (vs : UInt32)
    (k1 k2 : KeyObj) (byKey : Bool) (x y : Slice) (h1 : k1.subKeys = [x]) (h2 : k2.subKeys = [y]) (hx : x.bytes.length ≤ 3)
    (hy : y.bytes.length ≤ 3) (hxy : x.bytes ≠ y.bytes) : MphTerminates murmurMphOps order vs [k1, k2] byKey :=
  C37_two_keys_partial order hord vs k1 k2 byKey [] [] x y [] x.bytes y.bytes h1 h2 rfl rfl rfl (by omega) (by omega) hxy

example : (KeyObj.key { newKey with keys := [some [7], some [1, 2, 3, 4, 5]] }).subKeys = [some [7]] ++ some [1, 2, 3, 4, 5] :: [] ∧
    Slice.bytes (some [1, 2, 3, 4, 5]) = [1, 2, 3, 4] ++ [5] ∧ Slice.bytes (some [1, 2, 3, 4]) = [1, 2, 3, 4] ++ [] := by decide

example : MphTerminates murmurMphOps List.reverse 3 [.key { newKey with keys := [some [1, 2, 3]] }, .key { newKey with keys := [none] }] true :=
  C37_short_partial _ (fun l => List.reverse_perm l) _ _ _ _ (some [1, 2, 3]) none rfl rfl (by decide) (by decide) (by decide)

example := C37_two_keys_partial List.reverse (fun l => List.reverse_perm l) 3 (.key { newKey with keys := [some [7], some [1, 2, 3, 4, 5]] })
  (.key { newKey with keys := [some [7], some [1, 2, 3, 4]] }) true [some [7]] [] (some [1, 2, 3, 4, 5]) (some [1, 2, 3, 4]) [1, 2, 3, 4] [5] []
  rfl rfl rfl rfl rfl (by decide) (by decide) (by decide)

end Poodle.Props
