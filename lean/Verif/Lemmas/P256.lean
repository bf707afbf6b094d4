import Mathlib.NumberTheory.LucasPrimality
import Mathlib.Tactic.NormNum.Prime

/-
The P-256 prime is a prime number: Lucas certificates, checked by the kernel.
-/

namespace Poodle

/-- Modular exponentiation by squaring, for evaluation by the kernel. -/
def powMod : Nat → Nat → Nat → Nat → Nat
  | 0, _, _, m => 1 % m
  | fuel + 1, a, e, m =>
    if e = 0 then 1 % m
    else
      let h := powMod fuel (a * a % m) (e / 2) m
      if e % 2 = 1 then a * h % m else h

theorem powMod_eq (fuel a e m : Nat) (h : e < 2 ^ fuel) : powMod fuel a e m = a ^ e % m := by
  induction fuel generalizing a e with
  | zero => simp [powMod, Nat.lt_one_iff.mp (by simpa using h)]
  | succ fuel ih =>
    rw [powMod]
    split
    · rename_i he; subst he; simp
    · simp only
      rw [ih _ _ (by rw [Nat.pow_succ] at h; omega)]
      have hsq : (a * a % m) ^ (e / 2) % m = (a * a) ^ (e / 2) % m := (Nat.pow_mod _ _ _).symm
      rw [hsq]
      have haa : (a * a) ^ (e / 2) = a ^ (2 * (e / 2)) := by rw [Nat.pow_mul, Nat.pow_two]
      rw [haa]
      split
      · rename_i ho
        rw [Nat.mul_mod, Nat.mod_mod, ← Nat.mul_mod, ← Nat.pow_succ', show (2 * (e / 2)).succ = e by omega]
      · rename_i ho
        rw [show 2 * (e / 2) = e by omega]

/-- A Lucas certificate: `a` has order `p - 1`. -/
def lucasCheck (p a k : Nat) (fs : List Nat) : Bool :=
  decide (1 < p) && decide (p - 1 < 2 ^ 256) && decide (powMod 256 a (p - 1) p = 1) && decide ((fs.prod) ^ k % (p - 1) = 0) &&
    fs.all fun q => decide (powMod 256 a ((p - 1) / q) p ≠ 1)

theorem prime_of_lucas (p a k : Nat) (fs : List Nat) (hfs : ∀ q ∈ fs, q.Prime) (h : lucasCheck p a k fs = true) : p.Prime := by
  simp only [lucasCheck, Bool.and_eq_true, decide_eq_true_eq, List.all_eq_true] at h
  obtain ⟨⟨⟨⟨h1, h2⟩, h3⟩, h4⟩, h5⟩ := h
  have hz : ∀ e, (a : ZMod p) ^ e = 1 ↔ a ^ e % p = 1 := by
    intro e
    have : ((a ^ e : Nat) : ZMod p) = ((1 : Nat) : ZMod p) ↔ a ^ e ≡ 1 [MOD p] := ZMod.natCast_eq_natCast_iff _ _ _
    rw [Nat.cast_pow, Nat.cast_one] at this
    rw [this, Nat.ModEq, Nat.mod_eq_of_lt h1]
  apply lucas_primality p (a : ZMod p)
  · rw [hz, ← powMod_eq 256 _ _ _ h2, h3]
  · intro q hq hd
    have hqp : q ∣ fs.prod := hq.dvd_of_dvd_pow (hd.trans (Nat.dvd_of_mod_eq_zero h4))
    obtain ⟨r, hr, hqr⟩ := (Prime.dvd_prod_iff hq.prime).mp hqp
    have : q = r := (Nat.prime_dvd_prime_iff_eq hq (hfs r hr)).mp hqr
    subst this
    rw [Ne, hz, ← powMod_eq 256 _ _ _ (lt_of_le_of_lt (Nat.div_le_self _ _) h2)]
    exact h5 q hr

theorem prime_65537 : Nat.Prime 65537 := by
  refine prime_of_lucas _ 3 16 [2] ?_ (by decide +kernel)
  simp only [List.forall_mem_cons, List.not_mem_nil, false_implies, implies_true, and_true]
  exact by norm_num

theorem prime_490463 : Nat.Prime 490463 := by
  refine prime_of_lucas _ 14 1 [2, 7, 53, 661] ?_ (by decide +kernel)
  simp only [List.forall_mem_cons, List.not_mem_nil, false_implies, implies_true, and_true]
  exact ⟨by norm_num, by norm_num, by norm_num, by norm_num⟩

theorem prime_17449 : Nat.Prime 17449 := by
  refine prime_of_lucas _ 14 3 [2, 3, 727] ?_ (by decide +kernel)
  simp only [List.forall_mem_cons, List.not_mem_nil, false_implies, implies_true, and_true]
  exact ⟨by norm_num, by norm_num, by norm_num⟩

theorem prime_6700417 : Nat.Prime 6700417 := by
  refine prime_of_lucas _ 5 7 [2, 3, 17449] ?_ (by decide +kernel)
  simp only [List.forall_mem_cons, List.not_mem_nil, false_implies, implies_true, and_true]
  exact ⟨by norm_num, by norm_num, prime_17449⟩

theorem prime_204061199 : Nat.Prime 204061199 := by
  refine prime_of_lucas _ 11 1 [2, 11, 23, 107, 3769] ?_ (by decide +kernel)
  simp only [List.forall_mem_cons, List.not_mem_nil, false_implies, implies_true, and_true]
  exact ⟨by norm_num, by norm_num, by norm_num, by norm_num, by norm_num⟩

theorem prime_34282281433 : Nat.Prime 34282281433 := by
  refine prime_of_lucas _ 17 3 [2, 3, 7, 204061199] ?_ (by decide +kernel)
  simp only [List.forall_mem_cons, List.not_mem_nil, false_implies, implies_true, and_true]
  exact ⟨by norm_num, by norm_num, by norm_num, prime_204061199⟩

theorem prime_66417393611 : Nat.Prime 66417393611 := by
  refine prime_of_lucas _ 6 1 [2, 5, 53, 173, 197, 3677] ?_ (by decide +kernel)
  simp only [List.forall_mem_cons, List.not_mem_nil, false_implies, implies_true, and_true]
  exact ⟨by norm_num, by norm_num, by norm_num, by norm_num, by norm_num, by norm_num⟩

theorem prime_11290956913871 : Nat.Prime 11290956913871 := by
  refine prime_of_lucas _ 13 1 [2, 5, 17, 66417393611] ?_ (by decide +kernel)
  simp only [List.forall_mem_cons, List.not_mem_nil, false_implies, implies_true, and_true]
  exact ⟨by norm_num, by norm_num, by norm_num, prime_66417393611⟩

theorem prime_18169 : Nat.Prime 18169 := by
  refine prime_of_lucas _ 11 3 [2, 3, 757] ?_ (by decide +kernel)
  simp only [List.forall_mem_cons, List.not_mem_nil, false_implies, implies_true, and_true]
  exact ⟨by norm_num, by norm_num, by norm_num⟩

theorem prime_78283 : Nat.Prime 78283 := by
  refine prime_of_lucas _ 3 2 [2, 3, 4349] ?_ (by decide +kernel)
  simp only [List.forall_mem_cons, List.not_mem_nil, false_implies, implies_true, and_true]
  exact ⟨by norm_num, by norm_num, by norm_num⟩

theorem prime_704251 : Nat.Prime 704251 := by
  refine prime_of_lucas _ 2 3 [2, 3, 5, 313] ?_ (by decide +kernel)
  simp only [List.forall_mem_cons, List.not_mem_nil, false_implies, implies_true, and_true]
  exact ⟨by norm_num, by norm_num, by norm_num, by norm_num⟩

theorem prime_46076956964474543 : Nat.Prime 46076956964474543 := by
  refine prime_of_lucas _ 5 1 [2, 23, 18169, 78283, 704251] ?_ (by decide +kernel)
  simp only [List.forall_mem_cons, List.not_mem_nil, false_implies, implies_true, and_true]
  exact ⟨by norm_num, by norm_num, prime_18169, prime_78283, prime_704251⟩

theorem prime_774023187263532362759620327192479577272145303 : Nat.Prime 774023187263532362759620327192479577272145303 := by
  refine prime_of_lucas _ 3 2 [2, 3, 2411, 34282281433, 11290956913871, 46076956964474543] ?_ (by decide +kernel)
  simp only [List.forall_mem_cons, List.not_mem_nil, false_implies, implies_true, and_true]
  exact ⟨by norm_num, by norm_num, by norm_num, prime_34282281433, prime_11290956913871, prime_46076956964474543⟩

theorem prime_835945042244614951780389953367877943453916927241 : Nat.Prime 835945042244614951780389953367877943453916927241 := by
  refine prime_of_lucas _ 11 3 [2, 3, 5, 774023187263532362759620327192479577272145303] ?_ (by decide +kernel)
  simp only [List.forall_mem_cons, List.not_mem_nil, false_implies, implies_true, and_true]
  exact ⟨by norm_num, by norm_num, by norm_num, prime_774023187263532362759620327192479577272145303⟩

theorem p256_prime : Nat.Prime 115792089210356248762697446949407573530086143415290314195533631308867097853951 := by
  refine prime_of_lucas _ 6 2 [2, 3, 5, 17, 257, 641, 1531, 65537, 490463, 6700417, 835945042244614951780389953367877943453916927241] ?_ (by decide +kernel)
  simp only [List.forall_mem_cons, List.not_mem_nil, false_implies, implies_true, and_true]
  exact ⟨by norm_num, by norm_num, by norm_num, by norm_num, by norm_num, by norm_num, by norm_num, prime_65537, prime_490463, prime_6700417, prime_835945042244614951780389953367877943453916927241⟩

end Poodle
