import Verif.Lemmas.Murmur
import Verif.Lemmas.MurmurParity
import Mathlib.Data.Fintype.EquivFin

/-
The lowest bit of Murmur hashes of byte strings that differ in the last one to three bytes.
-/

namespace Poodle
open Poodle.Spec Poodle.Props

/-! ### The avalanche -/

theorem lastBit_mod {y z : Nat} (h : y % 2 ^ 30 = z % 2 ^ 30) : lastBit y = lastBit z := by
  have hb : ∀ n : Nat, n.testBit 29 = (n % 2 ^ 30).testBit 29 := by
    intro n
    rw [Nat.testBit_mod_two_pow]
    simp
  rw [lastBit_eq, lastBit_eq, tangle_mod 29 (mod_mod_le (by decide) h), simpleBits_mod (mod_mod_le (by decide) h), hb y, h, ← hb z]

theorem fac1_toNat : (0x85ebca6b#32).toNat = fac1 := rfl

theorem fac2_toNat : (0xc2b2ae35#32).toNat = fac2 := rfl

theorem mid_low (y c : BitVec 32) (hc : c.toNat = fac1) : (y * c ^^^ (y * c) >>> 13).toNat % 2 ^ 17 = mid y.toNat % 2 ^ 17 := by
  apply Nat.eq_of_testBit_eq
  intro k
  rw [Nat.testBit_mod_two_pow, Nat.testBit_mod_two_pow]
  by_cases hk : k < 17
  · rw [mid_bit, BitVec.toNat_xor, Nat.testBit_xor, BitVec.toNat_ushiftRight, Nat.testBit_shiftRight, BitVec.toNat_mul, hc,
      Nat.testBit_mod_two_pow, Nat.testBit_mod_two_pow, Nat.add_comm 13 k, decide_eq_true (show k < 32 by omega),
      decide_eq_true (show k + 13 < 32 by omega), Bool.true_and, Bool.true_and]
  · rw [decide_eq_false hk, Bool.false_and, Bool.false_and]

theorem last_low (x c : BitVec 32) (m k : Nat) (hc : c.toNat = fac2) (hx : x.toNat % 2 ^ 17 = m % 2 ^ 17) (hk : k < 17) :
    (x * c).getLsbD k = (m * fac2).testBit k := by
  rw [BitVec.getLsbD, BitVec.toNat_mul, hc, Nat.testBit_mod_two_pow, testBit_mul_mod x.toNat fac2 k 17 hk, hx,
    ← testBit_mul_mod _ fac2 k 17 hk, decide_eq_true (show k < 32 by omega), Bool.true_and]

theorem avalanche_bit (u : BitVec 32) : (avalanche u).getLsbD 0 = lastBit (u ^^^ u >>> 16).toNat := by
  unfold avalanche
  have h1 := fac1_toNat
  have h2 := fac2_toNat
  generalize 0x85ebca6b#32 = c1 at h1 ⊢
  generalize 0xc2b2ae35#32 = c2 at h2 ⊢
  simp only []
  generalize u ^^^ u >>> 16 = y
  have hlow := mid_low y c1 h1
  generalize y * c1 ^^^ (y * c1) >>> 13 = x at hlow ⊢
  rw [BitVec.getLsbD_xor, BitVec.getLsbD_ushiftRight, last_low x c2 _ 0 h2 hlow (by decide), Nat.add_zero,
    last_low x c2 _ 16 h2 hlow (by decide), lastBit]

/-- The patterns that never change the lowest bit. -/
def Dull (d : BitVec 32) : Prop := (d ^^^ d >>> 16).toNat % 2 ^ 30 = 0

theorem xorshift16 (d : BitVec 32) : (d ^^^ d >>> 16) ^^^ (d ^^^ d >>> 16) >>> 16 = d := by
  apply BitVec.eq_of_getLsbD_eq
  intro i hi
  simp only [BitVec.getLsbD_xor, BitVec.getLsbD_ushiftRight]
  rw [BitVec.getLsbD_of_ge d (16 + (16 + i)) (by omega)]
  cases d.getLsbD i <;> cases d.getLsbD (16 + i) <;> rfl

theorem dull_cases {d : BitVec 32} (h : Dull d) : d = 0#32 ∨ d = 0x40004000#32 ∨ d = 0x80008000#32 ∨ d = 0xc000c000#32 := by
  have e := xorshift16 d
  rw [Dull] at h
  generalize d ^^^ d >>> 16 = x at e h
  have hx := x.isLt
  have : x.toNat = 0 ∨ x.toNat = 2 ^ 30 ∨ x.toNat = 2 ^ 31 ∨ x.toNat = 3 * 2 ^ 30 := by omega
  rcases this with h | h | h | h
  · have : x = 0#32 := BitVec.eq_of_toNat_eq h
    subst this
    exact .inl e.symm
  · have : x = 0x40000000#32 := BitVec.eq_of_toNat_eq h
    subst this
    exact .inr (.inl e.symm)
  · have : x = 0x80000000#32 := BitVec.eq_of_toNat_eq h
    subst this
    exact .inr (.inr (.inl e.symm))
  · have : x = 0xc0000000#32 := BitVec.eq_of_toNat_eq h
    subst this
    exact .inr (.inr (.inr e.symm))

theorem xorshift_xor (u d : BitVec 32) : (u ^^^ d) ^^^ (u ^^^ d) >>> 16 = (u ^^^ u >>> 16) ^^^ (d ^^^ d >>> 16) := by
  apply BitVec.eq_of_getLsbD_eq
  intro i hi
  simp only [BitVec.getLsbD_xor, BitVec.getLsbD_ushiftRight]
  cases u.getLsbD i <;> cases u.getLsbD (16 + i) <;> cases d.getLsbD i <;> cases d.getLsbD (16 + i) <;> rfl

/-- Two states with a fixed difference give different lowest bits for some state, if and only if the difference is not one of the four. -/
theorem avalanche_differs (d : BitVec 32) : (∃ u, (avalanche (u ^^^ d)).getLsbD 0 ≠ (avalanche u).getLsbD 0) ↔ ¬ Dull d := by
  constructor
  · rintro ⟨u, h⟩ hd
    apply h
    rw [avalanche_bit, avalanche_bit, xorshift_xor]
    apply lastBit_mod
    rw [BitVec.toNat_xor, Nat.xor_mod_two_pow, hd, Nat.xor_zero]
  · intro hd
    obtain ⟨y, hy⟩ := lastBit_differs _ hd
    refine ⟨BitVec.ofNat 32 y ^^^ BitVec.ofNat 32 y >>> 16, ?_⟩
    rw [avalanche_bit, avalanche_bit, xorshift_xor, xorshift16]
    have e : (BitVec.ofNat 32 y).toNat % 2 ^ 30 = y % 2 ^ 30 := by
      rw [BitVec.toNat_ofNat, Nat.mod_mod_of_dvd y (Nat.pow_dvd_pow 2 (by decide))]
    have e1 : lastBit (BitVec.ofNat 32 y ^^^ (d ^^^ d >>> 16)).toNat = lastBit (y ^^^ (d ^^^ d >>> 16).toNat) := by
      apply lastBit_mod
      rw [BitVec.toNat_xor, Nat.xor_mod_two_pow, Nat.xor_mod_two_pow (a := y), e]
    rw [e1, lastBit_mod e]
    exact hy

/-! ### Differences of scrambled words -/

/-- Sums and differences of powers of two. -/
def signSums : List Nat → List (BitVec 32)
  | [] => [0]
  | i :: l => (signSums l).flatMap fun t => [t + BitVec.twoPow 32 i, t - BitVec.twoPow 32 i]

/-- The pattern with the given bits. -/
def bitsOf : List Nat → BitVec 32
  | [] => 0
  | i :: l => BitVec.twoPow 32 i ^^^ bitsOf l

theorem xor_twoPow (x : BitVec 32) (i : Nat) : x ^^^ BitVec.twoPow 32 i = x + BitVec.twoPow 32 i ∨ x ^^^ BitVec.twoPow 32 i = x - BitVec.twoPow 32 i := by
  have key : ∀ z : BitVec 32, z.getLsbD i = false → z ^^^ BitVec.twoPow 32 i = z + BitVec.twoPow 32 i := by
    intro z hz
    rw [BitVec.add_eq_or_of_and_eq_zero]
    · apply BitVec.eq_of_getLsbD_eq
      intro k hk
      simp only [BitVec.getLsbD_xor, BitVec.getLsbD_or, BitVec.getLsbD_twoPow]
      by_cases hki : i = k
      · subst hki
        simp [hz]
      · simp [hki]
    · apply BitVec.eq_of_getLsbD_eq
      intro k hk
      simp only [BitVec.getLsbD_and, BitVec.getLsbD_twoPow]
      by_cases hki : i = k
      · subst hki
        simp [hz]
      · simp [hki]
  by_cases hi : i < 32
  · cases hb : x.getLsbD i
    · exact .inl (key x hb)
    · right
      have := key (x ^^^ BitVec.twoPow 32 i) (by simp [hb, hi])
      rw [BitVec.xor_assoc, BitVec.xor_self, BitVec.xor_zero] at this
      rw [this, BitVec.add_sub_cancel, ← this]
  · left
    have : BitVec.twoPow 32 i = 0#32 := by
      apply BitVec.eq_of_getLsbD_eq
      intro k hk
      simp [BitVec.getLsbD_twoPow, show i ≠ k by omega]
    rw [this]
    simp

theorem xor_bits : ∀ (l : List Nat) (x : BitVec 32), ∃ t ∈ signSums l, x ^^^ bitsOf l = x + t
  | [], x => ⟨0, by simp [signSums], by simp [bitsOf]⟩
  | i :: l, x => by
    obtain ⟨t, ht, h⟩ := xor_bits l x
    rw [bitsOf, BitVec.xor_comm (BitVec.twoPow 32 i), ← BitVec.xor_assoc, h]
    rcases xor_twoPow (x + t) i with h' | h'
    · exact ⟨t + BitVec.twoPow 32 i, List.mem_flatMap.mpr ⟨t, ht, by simp⟩, by rw [h', BitVec.add_assoc]⟩
    · refine ⟨t - BitVec.twoPow 32 i, List.mem_flatMap.mpr ⟨t, ht, by simp⟩, ?_⟩
      rw [h', BitVec.sub_eq_add_neg, BitVec.sub_eq_add_neg, BitVec.add_assoc]

/-- By how much two words differ whose rotations by 15 bits differ by `t`. -/
def rotDiffs (t : BitVec 32) : List (BitVec 32) :=
  let r := t <<< 17 + t >>> 15
  [r, r + 1, r - 0x20000, r + 1 - 0x20000]

theorem rotl15 (a : BitVec 32) : (a.rotateLeft 15).toNat = a.toNat % 2 ^ 17 * 2 ^ 15 + a.toNat / 2 ^ 17 := by
  have ha := a.isLt
  have hlt : a.toNat / 2 ^ 17 < 2 ^ 15 := by omega
  apply Nat.eq_of_testBit_eq
  intro i
  have e : (a.rotateLeft 15).toNat.testBit i = (a.rotateLeft 15).getLsbD i := rfl
  rw [e, BitVec.getLsbD_rotateLeft, Nat.mul_comm, Nat.testBit_two_pow_mul_add _ hlt, Nat.testBit_mod_two_pow, Nat.testBit_div_two_pow]
  by_cases h1 : i < 15
  · simp only [show (15 % 32) = 15 from rfl, h1, if_true, decide_true, cond_true]
    rw [show 32 - 15 + i = i + 17 by omega]
    rfl
  · simp only [show (15 % 32) = 15 from rfl, h1, if_false, decide_false, cond_false]
    by_cases h2 : i < 32
    · simp only [h2, decide_true, Bool.true_and, show i - 15 < 17 by omega]
      rfl
    · simp [h2, show ¬ i - 15 < 17 by omega]

theorem rot_halves {aH aL bH bL tH tL : Nat} (h1 : aH < 32768) (h2 : aL < 131072) (h3 : bH < 32768) (h4 : bL < 131072)
    (h5 : tL < 32768) (h6 : tH < 131072)
    (h : bL * 32768 + bH = (aL * 32768 + aH + (tH * 32768 + tL)) % 4294967296) :
    ∃ c k m, (c = 0 ∨ c = 1) ∧ (k = 0 ∨ k = 1) ∧
      bH * 131072 + bL + k * 131072 + m * 4294967296 = aH * 131072 + aL + (tL * 131072 + tH) + c := by
  have hb : bH = aH + tL ∨ bH + 32768 = aH + tL := by omega
  rcases hb with hb | hb
  · have hl : bL = aL + tH ∨ bL + 131072 = aL + tH := by omega
    rcases hl with hl | hl
    · refine ⟨0, 0, 0, .inl rfl, .inl rfl, ?_⟩
      simp only [Nat.zero_mul, Nat.one_mul]
      clear h
      omega
    · refine ⟨0, 1, 0, .inl rfl, .inr rfl, ?_⟩
      simp only [Nat.zero_mul, Nat.one_mul]
      clear h
      omega
  · have hl : bL = aL + tH + 1 ∨ bL + 131072 = aL + tH + 1 := by omega
    rcases hl with hl | hl
    · refine ⟨1, 0, 1, .inr rfl, .inl rfl, ?_⟩
      simp only [Nat.zero_mul, Nat.one_mul]
      clear h
      omega
    · refine ⟨1, 1, 1, .inr rfl, .inr rfl, ?_⟩
      simp only [Nat.zero_mul, Nat.one_mul]
      clear h
      omega

theorem rot_diff (a b t : BitVec 32) (h : b.rotateLeft 15 = a.rotateLeft 15 + t) : ∃ r ∈ rotDiffs t, b = a + r := by
  have h := congrArg BitVec.toNat h
  rw [BitVec.toNat_add, rotl15, rotl15] at h
  have ha := a.isLt
  have hb := b.isLt
  have ht := t.isLt
  have ta := Nat.div_add_mod t.toNat (2 ^ 15)
  have aa := Nat.div_add_mod a.toNat (2 ^ 17)
  have bb := Nat.div_add_mod b.toNat (2 ^ 17)
  obtain ⟨c, k, m, hc, hk, e⟩ := rot_halves (aH := a.toNat / 2 ^ 17) (aL := a.toNat % 2 ^ 17) (bH := b.toNat / 2 ^ 17)
    (bL := b.toNat % 2 ^ 17) (tH := t.toNat / 2 ^ 15) (tL := t.toNat % 2 ^ 15) (by omega) (by omega) (by omega) (by omega) (by omega)
    (by omega) (by
      rw [Nat.mul_comm (t.toNat / 2 ^ 15), show (32768 : Nat) = 2 ^ 15 from rfl, ta]
      exact h)
  have eT : BitVec.ofNat 32 (t.toNat % 2 ^ 15 * 2 ^ 17 + t.toNat / 2 ^ 15) = t <<< 17 + t >>> 15 := by
    apply BitVec.eq_of_toNat_eq
    rw [BitVec.toNat_add, BitVec.toNat_shiftLeft, BitVec.toNat_ushiftRight, Nat.shiftLeft_eq, Nat.shiftRight_eq_div_pow, BitVec.toNat_ofNat]
    have : t.toNat * 2 ^ 17 % 2 ^ 32 = t.toNat % 2 ^ 15 * 2 ^ 17 := by
      rw [show (2 : Nat) ^ 32 = 2 ^ 15 * 2 ^ 17 from rfl, Nat.mul_mod_mul_right]
    rw [this]
  have e' := congrArg (BitVec.ofNat 32) e
  rw [Nat.mul_comm (b.toNat / 2 ^ 17), Nat.mul_comm (a.toNat / 2 ^ 17), show (131072 : Nat) = 2 ^ 17 from rfl, bb, aa,
    BitVec.ofNat_add, BitVec.ofNat_add, BitVec.ofNat_add, BitVec.ofNat_add, eT,
    show BitVec.ofNat 32 (m * 4294967296) = 0#32 from by
      apply BitVec.eq_of_toNat_eq
      simp [BitVec.toNat_ofNat],
    BitVec.add_zero, BitVec.ofNat_toNat, BitVec.ofNat_toNat, BitVec.setWidth_eq, BitVec.setWidth_eq] at e'
  simp only [rotDiffs]
  generalize t <<< 17 + t >>> 15 = r at e' ⊢
  have e2 : b = a + r + BitVec.ofNat 32 c - BitVec.ofNat 32 (k * 2 ^ 17) := by
    rw [← e', BitVec.add_sub_cancel]
  rcases hc with rfl | rfl <;> rcases hk with rfl | rfl
  · exact ⟨r, by simp, by simpa using e2⟩
  · exact ⟨r - 0x20000, by simp, by rw [e2]; simp [BitVec.sub_eq_add_neg, BitVec.add_assoc]⟩
  · exact ⟨r + 1, by simp, by rw [e2]; simp [BitVec.add_assoc]⟩
  · exact ⟨r + 1 - 0x20000, by simp, by rw [e2]; simp [BitVec.sub_eq_add_neg, BitVec.add_assoc]⟩

theorem add_mul_inv {x y c c' t : BitVec 32} (hc : c * c' = 1#32) (h : y * c = x * c + t) : y = x + t * c' := by
  have := congrArg (· * c') h
  simpa [BitVec.mul_assoc, hc, BitVec.add_mul] using this

/-- By how much two words can differ whose scrambled words differ in the given bits. -/
def scrambleDiffs (l : List Nat) : List (BitVec 32) :=
  (signSums l).flatMap fun t => (rotDiffs (t * 0x56ed309b#32)).map fun r => r * 0xdee13bb1#32

theorem scramble_diff (l : List Nat) (x y : BitVec 32) (h : scramble x ^^^ scramble y = bitsOf l) : ∃ r ∈ scrambleDiffs l, y = x + r := by
  obtain ⟨t, ht, e⟩ := xor_bits l (scramble x)
  rw [← h, ← BitVec.xor_assoc, BitVec.xor_self, BitVec.zero_xor] at e
  unfold scramble at e
  have e := add_mul_inv (c' := 0x56ed309b#32) (by decide) e
  obtain ⟨r, hr, e⟩ := rot_diff _ _ _ e
  exact ⟨r * 0xdee13bb1#32, List.mem_flatMap.mpr ⟨t, ht, List.mem_map.mpr ⟨r, hr, rfl⟩⟩, add_mul_inv (by decide) e⟩

/-- The bits of the differences that could hide a difference of short words, with or without a difference of the lengths. -/
def dullBits : List (List Nat) :=
  [[0], [1], [1, 0], [30, 14], [30, 14, 0], [30, 14, 1], [30, 14, 1, 0], [31, 15], [31, 15, 0], [31, 15, 1], [31, 15, 1, 0],
    [31, 30, 15, 14], [31, 30, 15, 14, 0], [31, 30, 15, 14, 1], [31, 30, 15, 14, 1, 0]]

theorem scrambleDiffs_check : (dullBits.all fun l => (scrambleDiffs l).all fun r =>
    Nat.ble (2 ^ 24) r.toNat && Nat.ble r.toNat (2 ^ 32 - 2 ^ 24)) = true := by decide +kernel

theorem scrambleDiffs_large : ∀ l ∈ dullBits, ∀ r ∈ scrambleDiffs l, 2 ^ 24 ≤ r.toNat ∧ r.toNat ≤ 2 ^ 32 - 2 ^ 24 := by
  intro l hl r hr
  have h := List.all_eq_true.mp (List.all_eq_true.mp scrambleDiffs_check l hl) r hr
  rw [Bool.and_eq_true] at h
  exact ⟨Nat.le_of_ble_eq_true h.1, Nat.le_of_ble_eq_true h.2⟩

theorem short_diff (l : List Nat) (hl : l ∈ dullBits) (x y : BitVec 32) (hx : x.toNat < 2 ^ 24) (hy : y.toNat < 2 ^ 24) :
    scramble x ^^^ scramble y ≠ bitsOf l := by
  intro h
  obtain ⟨r, hr, e⟩ := scramble_diff l x y h
  obtain ⟨h1, h2⟩ := scrambleDiffs_large l hl r hr
  have := congrArg BitVec.toNat e
  rw [BitVec.toNat_add] at this
  omega

theorem lens_check : ((List.range 4).all fun n => (List.range 4).all fun m => [0, 0x40004000, 0x80008000, 0xc000c000].all fun d =>
    (Nat.beq (d ^^^ n ^^^ m) 0 && Nat.beq n m) || dullBits.any fun l => Nat.beq (d ^^^ n ^^^ m) (bitsOf l).toNat) = true := by
  decide +kernel

/-- The lengths of tails. -/
theorem lens_bits (n m d : Nat) (hn : n < 4) (hm : m < 4) (hd : d ∈ [0, 0x40004000, 0x80008000, 0xc000c000]) :
    (d ^^^ n ^^^ m = 0 ∧ n = m) ∨ ∃ l ∈ dullBits, d ^^^ n ^^^ m = (bitsOf l).toNat := by
  have h := List.all_eq_true.mp (List.all_eq_true.mp (List.all_eq_true.mp lens_check n (List.mem_range.mpr hn)) m (List.mem_range.mpr hm)) d hd
  rw [Bool.or_eq_true, Bool.and_eq_true, List.any_eq_true] at h
  rcases h with ⟨h1, h2⟩ | ⟨l, hl, h⟩
  · exact .inl ⟨Nat.eq_of_beq_eq_true h1, Nat.eq_of_beq_eq_true h2⟩
  · exact .inr ⟨l, hl, Nat.eq_of_beq_eq_true h⟩

/-- Short words whose difference, with that of the lengths, never shows in the lowest bit are equal. -/
theorem short_not_dull {x y : BitVec 32} {n m : Nat} (hx : x.toNat < 2 ^ 24) (hy : y.toNat < 2 ^ 24) (hn : n < 4) (hm : m < 4)
    (h : Dull (scramble x ^^^ scramble y ^^^ BitVec.ofNat 32 n ^^^ BitVec.ofNat 32 m)) : x = y ∧ n = m := by
  have hd := dull_cases h
  generalize hde : scramble x ^^^ scramble y ^^^ BitVec.ofNat 32 n ^^^ BitVec.ofNat 32 m = d at hd
  have e : scramble x ^^^ scramble y = d ^^^ BitVec.ofNat 32 n ^^^ BitVec.ofNat 32 m := by
    rw [← hde]
    apply BitVec.eq_of_getLsbD_eq
    intro i _
    simp only [BitVec.getLsbD_xor]
    cases (scramble x).getLsbD i <;> cases (scramble y).getLsbD i <;> cases (BitVec.ofNat 32 n).getLsbD i <;>
      cases (BitVec.ofNat 32 m).getLsbD i <;> rfl
  have en : (d ^^^ BitVec.ofNat 32 n ^^^ BitVec.ofNat 32 m).toNat = d.toNat ^^^ n ^^^ m := by
    rw [BitVec.toNat_xor, BitVec.toNat_xor, BitVec.toNat_ofNat, BitVec.toNat_ofNat, Nat.mod_eq_of_lt (by omega : n < 2 ^ 32),
      Nat.mod_eq_of_lt (by omega : m < 2 ^ 32)]
  have hd' : d.toNat ∈ [0, 0x40004000, 0x80008000, 0xc000c000] := by
    rcases hd with rfl | rfl | rfl | rfl <;> simp
  rcases lens_bits n m d.toNat hn hm hd' with ⟨h0, hnm⟩ | ⟨l, hl, hb⟩
  · refine ⟨scramble_inj ?_, hnm⟩
    rw [BitVec.eq_of_toNat_eq (y := 0#32) (en.trans h0)] at e
    have := congrArg (· ^^^ scramble y) e
    simpa [BitVec.xor_assoc] using this
  · exact absurd (e.trans (BitVec.eq_of_toNat_eq (en.trans hb))) (short_diff l hl x y hx hy)

/-! ### Tails -/

/-- The word of the last bytes, padded with zeros. -/
def tailWord (b : Bytes) : BitVec 32 := word (b.getD 0 0) (b.getD 1 0) (b.getD 2 0) 0

theorem tailWord_lt (b : Bytes) : (tailWord b).toNat < 2 ^ 24 := by
  rw [tailWord, word_toNat]
  have h0 := (b.getD 0 0).toNat_lt
  have h1 := (b.getD 1 0).toNat_lt
  have h2 := (b.getD 2 0).toNat_lt
  simp only [UInt8.toNat_zero]
  omega

theorem scramble_zero : scramble 0#32 = 0#32 := by
  unfold scramble
  decide

theorem word_zero : word 0 0 0 0 = 0#32 := by
  apply BitVec.eq_of_toNat_eq
  rw [word_toNat]
  rfl

theorem body_tail (h : BitVec 32) : ∀ b : Bytes, b.length < 4 → body h b = h ^^^ scramble (tailWord b)
  | [], _ => by simp [body, tailWord, word_zero, scramble_zero]
  | [a], _ => by simp [body, tailWord]
  | [a, b], _ => by simp [body, tailWord]
  | [a, b, c], _ => by simp [body, tailWord]
  | a :: b :: c :: d :: l, h => by simp at h; omega

theorem tailWord_inj : ∀ {a b : Bytes}, a.length < 4 → a.length = b.length → tailWord a = tailWord b → a = b := by
  intro a b ha hab h
  obtain ⟨h0, h1, h2, -⟩ := word_inj h
  apply List.ext_getElem hab
  intro i hi hi'
  have : i = 0 ∨ i = 1 ∨ i = 2 := by omega
  rcases this with rfl | rfl | rfl <;> simp_all [List.getD_eq_getElem?_getD]

theorem body_append (b : Bytes) : ∀ (n : Nat) (p : Bytes) (h : BitVec 32), p.length = 4 * n → body h (p ++ b) = body (body h p) b
  | 0, [], h, _ => by simp [body]
  | n + 1, a :: b' :: c :: d :: l, h, hl => by
    simp only [List.cons_append, body]
    exact body_append b n l _ (by simp at hl; omega)

theorem len_xor (q n : Nat) (hn : n < 4) : BitVec.ofNat 32 (4 * q + n) = BitVec.ofNat 32 (4 * q) ^^^ BitVec.ofNat 32 n := by
  have e : 4 * q + n = (4 * q) ^^^ n := by
    apply Nat.eq_of_testBit_eq
    intro i
    rw [Nat.testBit_xor, show (4 : Nat) = 2 ^ 2 from rfl, Nat.testBit_two_pow_mul_add _ (by simpa using hn), Nat.testBit_two_pow_mul]
    by_cases hi : i < 2
    · simp [hi, show ¬ 2 ≤ i by omega]
    · have : n.testBit i = false :=
        Nat.testBit_lt_two_pow (Nat.lt_of_lt_of_le hn (show 2 ^ 2 ≤ 2 ^ i from Nat.pow_le_pow_right (by decide) (by omega)))
      simp [hi, this, show 2 ≤ i by omega]
  apply BitVec.eq_of_toNat_eq
  rw [e, BitVec.toNat_xor, BitVec.toNat_ofNat, BitVec.toNat_ofNat, BitVec.toNat_ofNat, Nat.xor_mod_two_pow]

/-- Byte strings with the same whole blocks but different last bytes have hashes of different parity under some seed. -/
theorem murmur_parity_differs (p a b : Bytes) (hp : p.length % 4 = 0) (ha : a.length < 4) (hb : b.length < 4) (hab : a ≠ b) :
    ∃ seed, (murmur3 seed (p ++ a)).getLsbD 0 ≠ (murmur3 seed (p ++ b)).getLsbD 0 := by
  have hp' : p.length = 4 * (p.length / 4) := by omega
  have hd : ¬ Dull (scramble (tailWord a) ^^^ scramble (tailWord b) ^^^ BitVec.ofNat 32 a.length ^^^ BitVec.ofNat 32 b.length) := by
    intro h
    obtain ⟨h1, h2⟩ := short_not_dull (tailWord_lt a) (tailWord_lt b) ha hb h
    exact hab (tailWord_inj ha h2 h1)
  obtain ⟨u, hu⟩ := (avalanche_differs _).mpr hd
  have hf : Finite (BitVec 32) := Finite.of_injective (fun x : BitVec 32 => x.toFin) fun _ _ h => BitVec.eq_of_toFin_eq h
  obtain ⟨s, hs⟩ := (Finite.injective_iff_surjective.mp (fun s t h => body_inj p h : Function.Injective (body · p)))
    (u ^^^ (scramble (tailWord b) ^^^ BitVec.ofNat 32 p.length ^^^ BitVec.ofNat 32 b.length))
  simp only at hs
  refine ⟨s, ?_⟩
  have key : ∀ x y z l m : BitVec 32, (u ^^^ (y ^^^ z ^^^ m)) ^^^ x ^^^ (z ^^^ l) = u ^^^ (x ^^^ y ^^^ l ^^^ m) := by
    intro x y z l m
    apply BitVec.eq_of_getLsbD_eq
    intro i _
    simp only [BitVec.getLsbD_xor]
    cases u.getLsbD i <;> cases x.getLsbD i <;> cases y.getLsbD i <;> cases z.getLsbD i <;> cases l.getLsbD i <;>
      cases m.getLsbD i <;> rfl
  have el : ∀ c : Bytes, c.length < 4 →
      murmur3 s (p ++ c) = avalanche (u ^^^ (scramble (tailWord c) ^^^ scramble (tailWord b) ^^^ BitVec.ofNat 32 c.length ^^^ BitVec.ofNat 32 b.length)) := by
    intro c hc
    rw [murmur3, body_append c _ p s hp', body_tail _ c hc, hs, List.length_append]
    have := len_xor (p.length / 4) c.length hc
    rw [← hp'] at this
    rw [this, key]
  rw [el a ha, el b hb, BitVec.xor_self, BitVec.zero_xor, BitVec.xor_self, BitVec.xor_zero]
  exact hu

end Poodle
