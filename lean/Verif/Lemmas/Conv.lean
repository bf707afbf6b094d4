import Mathlib.Data.Nat.Digits.Lemmas
import Verif.Model.Conv
import Verif.Spec.Conv

/-
Lemmas about big endian integers.
-/

namespace Poodle
open Spec

theorem beBytes_length (w n : Nat) : (beBytes w n).length = w := by
  induction w with
  | zero => rfl
  | succ w ih => simp [beBytes, ih]

theorem beVal_foldl (b : Bytes) (acc : Nat) : b.foldl (fun acc x => acc * 256 + x.toNat) acc = acc * 256 ^ b.length + beVal b := by
  induction b generalizing acc with
  | nil => simp [beVal]
  | cons x b ih =>
    have e : beVal (x :: b) = (0 * 256 + x.toNat) * 256 ^ b.length + beVal b := by
      rw [← ih]; rfl
    rw [List.foldl_cons, ih, e, List.length_cons, pow_succ]
    ring

theorem beVal_cons (x : UInt8) (b : Bytes) : beVal (x :: b) = x.toNat * 256 ^ b.length + beVal b := by
  conv_lhs => rw [beVal, List.foldl_cons, beVal_foldl]
  simp

theorem beVal_append (a b : Bytes) : beVal (a ++ b) = beVal a * 256 ^ b.length + beVal b := by
  conv_lhs => rw [beVal, List.foldl_append, beVal_foldl]
  rfl

theorem beVal_nil : beVal [] = 0 := rfl

theorem beVal_lt (b : Bytes) : beVal b < 256 ^ b.length := by
  induction b with
  | nil => simp [beVal]
  | cons x b ih =>
    rw [beVal_cons, List.length_cons, pow_succ]
    have := x.toNat_lt
    have h1 : (x.toNat + 1) * 256 ^ b.length ≤ 256 * 256 ^ b.length := Nat.mul_le_mul_right _ (by omega)
    rw [Nat.add_mul, Nat.one_mul] at h1
    rw [Nat.mul_comm (256 ^ b.length)]
    omega

theorem beVal_eq_bigEndian (b : Bytes) : beVal b = bigEndian b := by
  induction b with
  | nil => rfl
  | cons x b ih =>
    rw [beVal_cons, ih, bigEndian, bigEndian, List.reverse_cons, List.map_append, Nat.ofDigits_append]
    simp only [List.length_map, List.length_reverse, List.map_cons, List.map_nil, Nat.ofDigits_singleton]
    ring

theorem beVal_beBytes (w n : Nat) : beVal (beBytes w n) = n % 256 ^ w := by
  induction w with
  | zero => simp [beBytes, beVal, Nat.mod_one]
  | succ w ih =>
    rw [beBytes, beVal_cons, ih, beBytes_length, UInt8.toNat_ofNat', show (2 ^ 8 : Nat) = 256 by rfl, pow_succ, Nat.mod_mul]
    ring

theorem beVal_injective {a b : Bytes} (hl : a.length = b.length) (h : beVal a = beVal b) : a = b := by
  induction a generalizing b with
  | nil => exact (List.length_eq_zero_iff.mp hl.symm).symm
  | cons x a ih =>
    rcases b with - | ⟨y, b⟩
    · simp at hl
    · simp only [List.length_cons, Nat.add_right_cancel_iff] at hl
      rw [beVal_cons, beVal_cons, hl] at h
      have h1 := beVal_lt a
      have h2 := beVal_lt b
      rw [hl] at h1
      have hpos : 0 < 256 ^ b.length := Nat.pos_of_ne_zero (by positivity)
      have hx : x.toNat = y.toNat := by
        have e1 : (x.toNat * 256 ^ b.length + beVal a) / 256 ^ b.length = x.toNat := by
          rw [Nat.add_comm, Nat.add_mul_div_right _ _ hpos, Nat.div_eq_of_lt h1, Nat.zero_add]
        have e2 : (y.toNat * 256 ^ b.length + beVal b) / 256 ^ b.length = y.toNat := by
          rw [Nat.add_comm, Nat.add_mul_div_right _ _ hpos, Nat.div_eq_of_lt h2, Nat.zero_add]
        rw [← e1, h, e2]
      rw [hx] at h
      rw [UInt8.toNat_inj.mp hx, ih hl (by omega)]

theorem beBytes_beVal (b : Bytes) : beBytes b.length (beVal b) = b :=
  beVal_injective (beBytes_length _ _) (by rw [beVal_beBytes, Nat.mod_eq_of_lt (beVal_lt b)])

theorem toUnsigned_spec64 {x : Int} (h1 : -2 ^ 63 ≤ x) (h2 : x < 2 ^ 63) : TwosComplement 64 (toUnsigned 64 x) x := by
  simp only [TwosComplement, toUnsigned]; omega

theorem toUnsigned_spec32 {x : Int} (h1 : -2 ^ 31 ≤ x) (h2 : x < 2 ^ 31) : TwosComplement 32 (toUnsigned 32 x) x := by
  simp only [TwosComplement, toUnsigned]; omega

theorem toSigned_spec64 {u : Nat} (h : u < 2 ^ 64) : TwosComplement 64 u (toSigned 64 u) := by
  simp only [TwosComplement, toSigned, Int.bmod]; omega

theorem toSigned_spec32 {u : Nat} (h : u < 2 ^ 32) : TwosComplement 32 u (toSigned 32 u) := by
  simp only [TwosComplement, toSigned, Int.bmod]; omega

theorem natBytes_length_le {n k : Nat} (h : n < 256 ^ k) : (natBytes n).length ≤ k := by
  rw [natBytes]
  split
  · simp
  · rename_i h0
    rw [beBytes_length]
    have h1 : 2 ^ n.log2 ≤ n := Nat.log2_self_le h0
    have h2 : (2 : Nat) ^ n.log2 < 2 ^ (8 * k) := by
      rw [Nat.pow_mul]; exact lt_of_le_of_lt h1 h
    have := (Nat.pow_lt_pow_iff_right (by decide : 1 < 2)).mp h2
    omega

theorem lt_natBytes (n : Nat) : n < 256 ^ (natBytes n).length := by
  rw [natBytes]
  split
  · rename_i h; subst h; simp
  · rw [beBytes_length]
    have h1 : n < 2 ^ (n.log2 + 1) := Nat.lt_log2_self
    have h2 : (2 : Nat) ^ (n.log2 + 1) ≤ 2 ^ (8 * (n.log2 / 8 + 1)) := Nat.pow_le_pow_right (by decide) (by omega)
    rw [Nat.pow_mul] at h2
    exact lt_of_lt_of_le h1 h2

theorem beVal_natBytes (n : Nat) : beVal (natBytes n) = n := by
  have h := lt_natBytes n
  rw [natBytes] at h ⊢
  split
  · rename_i h; subst h; rfl
  · rename_i h0
    rw [if_neg h0, beBytes_length] at h
    rw [beVal_beBytes, Nat.mod_eq_of_lt h]

theorem beVal_replicate (k : Nat) : beVal (List.replicate k 0) = 0 := by
  induction k with
  | zero => rfl
  | succ k ih => rw [List.replicate_succ, beVal_cons, ih]; simp

theorem bigIntToByteArray_length (d : Int) : (bigIntToByteArray d).length = 32 := by
  simp only [bigIntToByteArray]
  split
  · assumption
  · split
    · rw [List.length_drop]; omega
    · rw [List.length_append, List.length_replicate]; omega

theorem beVal_bigIntToByteArray (d : Int) : beVal (bigIntToByteArray d) = d.natAbs % 256 ^ 32 := by
  have hv := beVal_natBytes d.natAbs
  simp only [bigIntToByteArray]
  generalize natBytes d.natAbs = b at hv
  split
  · rename_i h
    rw [← hv, Nat.mod_eq_of_lt (h ▸ beVal_lt b)]
  · split
    · rename_i h
      conv_rhs => rw [← hv, ← List.take_append_drop (b.length - 32) b, beVal_append, List.length_drop,
        show b.length - (b.length - 32) = 32 by omega, Nat.mul_comm, Nat.mul_add_mod]
      rw [Nat.mod_eq_of_lt]
      have := beVal_lt (b.drop (b.length - 32))
      rwa [List.length_drop, show b.length - (b.length - 32) = 32 by omega] at this
    · rename_i h1 h2
      rw [beVal_append, beVal_replicate, Nat.zero_mul, Nat.zero_add, ← hv, Nat.mod_eq_of_lt]
      exact lt_of_lt_of_le (beVal_lt b) (Nat.pow_le_pow_right (by decide) (by omega))

end Poodle
