import Verif.Model.Rand
import Verif.Lemmas.Conv

/-
Properties C69, C70: random ranges (/repo/src/util/rand_util.go).
-/

namespace Poodle.Props
open Poodle Poodle.Spec

/-- C69: for every output of the random source the result lies in [min, max). -/
theorem C69_in_range (w min max : Nat) (bytes : Bytes) (h : min < max) (hm : max < 2 ^ (8 * w)) :
    ∃ x, randUintRange w min max bytes = .ok x ∧ min ≤ x ∧ x < max := by
  have hd : (max + 2 ^ (8 * w) - min) % 2 ^ (8 * w) = max - min := by
    rw [show max + 2 ^ (8 * w) - min = (max - min) + 2 ^ (8 * w) by omega, Nat.add_mod_right, Nat.mod_eq_of_lt (by omega)]
  simp only [randUintRange]
  rw [hd, if_neg (by omega)]
  have hlt : randUint bytes % (max - min) < max - min := Nat.mod_lt _ (by omega)
  exact ⟨_, rfl, by rw [Nat.mod_eq_of_lt (by omega)]; omega, by rw [Nat.mod_eq_of_lt (by omega)]; omega⟩

example := C69_in_range 1 10 20 [0xFF] (by decide) (by decide)

/-- C69: every value of the range is produced by some output of the random source. -/
theorem C69_onto (w min max x : Nat) (hm : max < 2 ^ (8 * w)) (h1 : min ≤ x) (h2 : x < max) :
    ∃ bytes : Bytes, bytes.length = w ∧ randUintRange w min max bytes = .ok x := by
  refine ⟨beBytes w (x - min), beBytes_length _ _, ?_⟩
  have hd : (max + 2 ^ (8 * w) - min) % 2 ^ (8 * w) = max - min := by
    rw [show max + 2 ^ (8 * w) - min = (max - min) + 2 ^ (8 * w) by omega, Nat.add_mod_right, Nat.mod_eq_of_lt (by omega)]
  simp only [randUintRange, randUint]
  rw [hd, if_neg (by omega), beVal_beBytes, show (256 : Nat) = 2 ^ 8 by decide, ← Nat.pow_mul, Nat.mod_eq_of_lt (a := x - min) (by omega),
    Nat.mod_eq_of_lt (a := x - min) (by omega), Nat.mod_eq_of_lt (by omega), Nat.sub_add_cancel h1]

example := C69_onto 1 10 20 13 (by decide) (by decide) (by decide)

/-- C69: an empty range panics. -/
theorem C69_empty_panics (w min : Nat) (bytes : Bytes) : randUintRange w min min bytes = .panic := by
  simp [randUintRange]

example : 10 < 20 ∧ 20 < 2 ^ (8 * 1) ∧ randUintRange 1 10 20 [0xFF] = .ok 15 := by decide +kernel

/-- The claim of C70. -/
def SignedRange : Prop := ∀ (w : Nat) (min max : Int) (bytes : Bytes), w ∈ [1, 2, 4, 8] → -2 ^ (8 * w - 1) ≤ min → min < max →
  max < 2 ^ (8 * w - 1) → bytes.length = w → ∃ x, randIntRange w min max bytes = .ok x ∧ min ≤ x ∧ x < max

/-- C70 is false: RandInt8Range(10, 20) with random byte 0xFF returns 9. -/
theorem C70_refuted : ¬ SignedRange := by
  intro h
  obtain ⟨x, h1, h2, h3⟩ := h 1 10 20 [0xFF] (by decide) (by decide) (by decide) (by decide) rfl
  rw [show randIntRange 1 10 20 [0xFF] = .ok 9 by decide +kernel, Res.ok.injEq] at h1
  omega

/-- C70, exactly: the result lies in the range if and only if the random integer is not negative or is a multiple of the
(wrapped) size of the range. -/
theorem C70_in_range_iff_partial (w : Nat) (min max : Int) (bytes : Bytes) (hw : 0 < w) (h0 : -2 ^ (8 * w - 1) ≤ min) (h : min < max)
    (hm : max < 2 ^ (8 * w - 1)) : ∃ x, randIntRange w min max bytes = .ok x ∧
      ((min ≤ x ∧ x < max) ↔ (0 ≤ randInt w bytes ∨ Int.bmod (max - min) (2 ^ (8 * w)) ∣ randInt w bytes)) := by
  obtain ⟨k, hk⟩ : ∃ k, 8 * w = k + 1 := ⟨8 * w - 1, by omega⟩
  rw [show 8 * w - 1 = k by omega] at h0 hm
  simp only [randIntRange]
  rw [hk]
  generalize randInt w bytes = data
  have hcast : ((2 ^ (k + 1) : Nat) : Int) = 2 * 2 ^ k := by
    rw [Nat.pow_succ]; simp [Int.mul_comm]
  have hpos : (0 : Int) < 2 ^ k := by positivity
  have hposN : 0 < 2 ^ (k + 1) := by positivity
  generalize hM : (2 ^ (k + 1) : Nat) = M at *
  generalize (2 : Int) ^ k = H at *
  have hd : ∃ d, Int.bmod (max - min) M = d ∧ (d = max - min ∧ max - min < H ∨ d = max - min - 2 * H ∧ H ≤ max - min) := by
    by_cases hc : max - min < H
    · exact ⟨max - min, Int.bmod_eq_of_le (by omega) (by omega), Or.inl ⟨rfl, hc⟩⟩
    · refine ⟨max - min - 2 * H, ?_, Or.inr ⟨rfl, by omega⟩⟩
      rw [← hcast, ← Int.sub_bmod_right]
      exact Int.bmod_eq_of_le (by omega) (by omega)
  obtain ⟨d, hd1, hd2⟩ := hd
  rw [hd1, if_neg (by omega)]
  refine ⟨_, rfl, ?_⟩
  have ht : (Int.tmod data d).natAbs < d.natAbs := by
    rw [Int.natAbs_tmod]
    exact Nat.mod_lt _ (by omega)
  have hiff : (0 ≤ data ∨ d ∣ data) ↔ 0 ≤ Int.tmod data d := by
    constructor
    · rintro (h | h)
      · exact Int.tmod_nonneg _ h
      · rw [Int.tmod_eq_zero_of_dvd h]
    · intro h
      by_contra hc
      push Not at hc
      obtain ⟨h1, h2⟩ := hc
      have h3 : Int.tmod data d ≤ 0 := by
        have := Int.tmod_nonneg (a := -data) d (by omega)
        rw [Int.neg_tmod] at this
        omega
      exact h2 (Int.dvd_of_tmod_eq_zero (by omega))
  rw [hiff]
  generalize Int.tmod data d = t at *
  by_cases hlow : -H ≤ t + min
  · rw [Int.bmod_eq_of_le (by omega) (by omega)]
    omega
  · have hb : Int.bmod (t + min) M = t + min + 2 * H := by
      rw [← hcast, ← Int.add_bmod_right]
      exact Int.bmod_eq_of_le (by omega) (by omega)
    rw [hb]
    omega

example : randIntRange 1 (-100) 100 [0x60] = .ok (-60) ∧ randIntRange 1 10 20 [0xFF] = .ok 9 := by decide +kernel

end Poodle.Props
