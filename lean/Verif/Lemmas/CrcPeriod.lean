import Verif.Lemmas.Crc
import Mathlib.Dynamics.PeriodicPts.Defs
import Mathlib.Tactic.NormNum.Prime

/-
The division of CRC-32 has period 2^32 - 1, so that no two bits of a message and its checksum have the same effect.
-/

namespace Poodle

/-- The bit that is first in the division. -/
def topBit : BitVec 32 := 0x80000000#32

theorem iter_xor (n : Nat) (a b : BitVec 32) : crcBit^[n] (a ^^^ b) = crcBit^[n] a ^^^ crcBit^[n] b := by
  induction n generalizing a b with
  | zero => rfl
  | succ n ih => rw [Function.iterate_succ_apply, Function.iterate_succ_apply, Function.iterate_succ_apply, crcBit_xor, ih]

theorem iter_zero (n : Nat) : crcBit^[n] 0#32 = 0#32 := by
  induction n with
  | zero => rfl
  | succ n ih => rw [Function.iterate_succ_apply, show crcBit 0#32 = 0#32 by decide, ih]

theorem single_iter : ∀ i : Fin 32, (1#32 <<< i.val) = crcBit^[31 - i.val] topBit := by decide +kernel

/-- The lowest bits. -/
def lowBits : Nat → BitVec 32 → BitVec 32
  | 0, _ => 0#32
  | i + 1, b => lowBits i b ^^^ (if b.getLsbD i then 1#32 <<< i else 0#32)

theorem lowBits_get (i : Nat) (hi : i ≤ 32) (b : BitVec 32) (j : Nat) : (lowBits i b).getLsbD j = (decide (j < i) && b.getLsbD j) := by
  induction i with
  | zero => simp [lowBits]
  | succ i ih =>
    rw [lowBits, BitVec.getLsbD_xor, ih (by omega)]
    by_cases hj : j = i
    · subst hj
      cases hb : b.getLsbD j <;> simp
      omega
    · have h1 : (if b.getLsbD i then 1#32 <<< i else 0#32).getLsbD j = false := by
        split
        · rw [BitVec.getLsbD_shiftLeft]
          rcases lt_or_ge j i with h | h
          · simp [h]
          · have : (1#32).getLsbD (j - i) = false := by
              rw [BitVec.getLsbD_one]
              simp; omega
            simp [this]
        · simp
      rw [h1, Bool.xor_false]
      congr 1
      simp only [decide_eq_decide]
      omega

theorem lowBits_all (b : BitVec 32) : lowBits 32 b = b := by
  apply BitVec.eq_of_getLsbD_eq
  intro j hj
  rw [lowBits_get 32 (Nat.le_refl _) b j]
  simp [hj]

/-- Multiplication of residues. -/
def crcMulGo : Nat → BitVec 32 → BitVec 32 → BitVec 32 → BitVec 32
  | 0, _, _, acc => acc
  | i + 1, b, w, acc => crcMulGo i b (crcBit w) (if b.getLsbD i then acc ^^^ w else acc)

/-- Multiplication of residues. -/
def crcMul (b w : BitVec 32) : BitVec 32 := crcMulGo 32 b w 0#32

theorem crcMulGo_spec (n i : Nat) (hi : i ≤ 32) (b acc : BitVec 32) :
    crcMulGo i b (crcBit^[32 - i] (crcBit^[n] topBit)) acc = acc ^^^ crcBit^[n] (lowBits i b) := by
  induction i generalizing acc with
  | zero => simp only [crcMulGo, lowBits, iter_zero, BitVec.xor_zero]
  | succ i ih =>
    have e1 : crcBit (crcBit^[32 - (i + 1)] (crcBit^[n] topBit)) = crcBit^[32 - i] (crcBit^[n] topBit) := by
      rw [show 32 - i = (32 - (i + 1)) + 1 by omega, Function.iterate_succ_apply' crcBit]
    have e2 : crcBit^[32 - (i + 1)] (crcBit^[n] topBit) = crcBit^[n] (1#32 <<< i) := by
      rw [single_iter ⟨i, by omega⟩, ← Function.iterate_add_apply, ← Function.iterate_add_apply, Nat.add_comm]
      congr 2
      show 32 - (i + 1) = 31 - i
      omega
    rw [crcMulGo, e1, ih (by omega), lowBits, iter_xor, e2]
    split
    · rw [BitVec.xor_assoc, BitVec.xor_comm (crcBit^[n] (1#32 <<< i))]
    · rw [iter_zero, BitVec.xor_zero]

theorem crcMul_spec (n : Nat) (b : BitVec 32) : crcMul b (crcBit^[n] topBit) = crcBit^[n] b := by
  have := crcMulGo_spec n 32 (Nat.le_refl _) b 0#32
  rw [lowBits_all, BitVec.zero_xor] at this
  exact this

/-- Powers by squaring. -/
def crcPowGo : Nat → BitVec 32 → BitVec 32 → Nat → BitVec 32
  | 0, _, acc, _ => acc
  | f + 1, base, acc, n => if n = 0 then acc else crcPowGo f (crcMul base base) (if n % 2 = 1 then crcMul acc base else acc) (n / 2)

theorem crcPowGo_spec (f k a n : Nat) (hn : n < 2 ^ f) :
    crcPowGo f (crcBit^[k] topBit) (crcBit^[a] topBit) n = crcBit^[a + k * n] topBit := by
  induction f generalizing k a n with
  | zero =>
    obtain rfl : n = 0 := by simpa using hn
    rfl
  | succ f ih =>
    rw [crcPowGo]
    split
    · next h => subst h; rfl
    · rw [crcMul_spec, ← Function.iterate_add_apply]
      have h2 : n / 2 < 2 ^ f := by rw [Nat.pow_succ] at hn; omega
      split
      · rw [crcMul_spec, ← Function.iterate_add_apply, ih (k + k) (k + a) (n / 2) h2]
        refine congrArg (fun j => crcBit^[j] topBit) ?_
        have : n = 2 * (n / 2) + 1 := by omega
        generalize n / 2 = m at *
        subst this
        ring
      · rw [ih (k + k) a (n / 2) h2]
        refine congrArg (fun j => crcBit^[j] topBit) ?_
        have : n = 2 * (n / 2) := by omega
        generalize n / 2 = m at *
        subst this
        ring

theorem crcPow_eq (n : Nat) (hn : n < 2 ^ 32) : crcPowGo 32 (crcBit topBit) topBit n = crcBit^[n] topBit := by
  have := crcPowGo_spec 32 1 0 n hn
  rw [Nat.zero_add, Nat.one_mul] at this
  exact this

/-- The period of the division. -/
theorem crc_minimalPeriod : Function.minimalPeriod crcBit topBit = 2 ^ 32 - 1 := by
  have per : ∀ n, n < 2 ^ 32 → (Function.minimalPeriod crcBit topBit ∣ n ↔ crcPowGo 32 (crcBit topBit) topBit n = topBit) := by
    intro n hn
    rw [crcPow_eq n hn, ← Function.isPeriodicPt_iff_minimalPeriod_dvd]
    rfl
  have full := (per (2 ^ 32 - 1) (by norm_num)).mpr (by decide +kernel)
  generalize Function.minimalPeriod crcBit topBit = d at per full
  obtain ⟨q, hq⟩ := full
  by_cases h1 : q = 1
  · rw [hq, h1, Nat.mul_one]
  · exfalso
    obtain ⟨p, hp, r, rfl⟩ := Nat.exists_prime_and_dvd h1
    have hdvd : p ∣ 3 * 5 * 17 * 257 * 65537 := ⟨d * r, by rw [show 3 * 5 * 17 * 257 * 65537 = 2 ^ 32 - 1 by norm_num, hq]; ring⟩
    have hno : ∀ m, m < 2 ^ 32 → p * m = 2 ^ 32 - 1 → crcPowGo 32 (crcBit topBit) topBit m = topBit := by
      intro m hm he
      refine (per m hm).mp ⟨r, ?_⟩
      apply Nat.eq_of_mul_eq_mul_left hp.pos
      rw [he, hq]
      ring
    rw [hp.dvd_mul, hp.dvd_mul, hp.dvd_mul, hp.dvd_mul] at hdvd
    rcases hdvd with (((h | h) | h) | h) | h
    · obtain rfl := (Nat.prime_dvd_prime_iff_eq hp (by norm_num)).mp h
      exact absurd (hno 1431655765 (by norm_num) (by norm_num)) (by decide +kernel)
    · obtain rfl := (Nat.prime_dvd_prime_iff_eq hp (by norm_num)).mp h
      exact absurd (hno 858993459 (by norm_num) (by norm_num)) (by decide +kernel)
    · obtain rfl := (Nat.prime_dvd_prime_iff_eq hp (by norm_num)).mp h
      exact absurd (hno 252645135 (by norm_num) (by norm_num)) (by decide +kernel)
    · obtain rfl := (Nat.prime_dvd_prime_iff_eq hp (by norm_num)).mp h
      exact absurd (hno 16711935 (by norm_num) (by norm_num)) (by decide +kernel)
    · obtain rfl := (Nat.prime_dvd_prime_iff_eq hp (by norm_num)).mp h
      exact absurd (hno 65535 (by norm_num) (by norm_num)) (by decide +kernel)

/-- Two powers of the division have the same effect exactly if they differ by a multiple of the period. -/
theorem crc_same_iff (x y : Nat) : crcBit^[x] topBit = crcBit^[x + y] topBit ↔ (2 ^ 32 - 1) ∣ y := by
  rw [← crc_minimalPeriod, ← Function.isPeriodicPt_iff_minimalPeriod_dvd, Function.iterate_add_apply]
  constructor
  · intro h
    exact (Function.Injective.iterate (fun _ _ => crcBit_injective) x h).symm
  · intro h
    rw [h.eq]

end Poodle
