import Verif.Lemmas.KeyFile

/-
CRC-32 is linear, and detects every change of at most four adjacent bytes.
-/

namespace Poodle

theorem crcBit_xor (a b : BitVec 32) : crcBit (a ^^^ b) = crcBit a ^^^ crcBit b := by
  rw [crcBit, crcBit, crcBit, BitVec.getLsbD_xor, BitVec.ushiftRight_xor_distrib]
  cases a.getLsbD 0 <;> cases b.getLsbD 0
  · simp
  · simp [BitVec.xor_assoc]
  · simp only [Bool.xor_false, if_true]
    simp only [Bool.false_eq_true, if_false]
    rw [BitVec.xor_assoc, BitVec.xor_comm (b >>> 1), BitVec.xor_assoc]
  · simp only [Bool.xor_self, Bool.false_eq_true, if_false, if_true]
    rw [BitVec.xor_assoc, BitVec.xor_comm (b >>> 1), ← BitVec.xor_assoc (0xEDB88320#32), BitVec.xor_self, BitVec.zero_xor]

theorem crcBit_small {x : BitVec 32} (h : (crcBit x).toNat < 2 ^ 31) : x.toNat = 2 * (crcBit x).toNat := by
  have ht := crcBit_top x
  have h0 : (crcBit x).getLsbD 31 = false := by
    rw [BitVec.getLsbD, Nat.testBit_lt_two_pow h]
  rw [h0] at ht
  have e : crcBit x = x >>> 1 := by rw [crcBit, ← ht]; simp
  rw [e, BitVec.toNat_ushiftRight]
  rw [BitVec.getLsbD, Nat.testBit_zero] at ht
  have ht := of_decide_eq_false ht.symm
  rw [Nat.shiftRight_eq_div_pow]
  omega

/-- Eight bits of the division. -/
def crc8 (s : BitVec 32) : BitVec 32 := crcBit (crcBit (crcBit (crcBit (crcBit (crcBit (crcBit (crcBit s)))))))

theorem crc8_xor (a b : BitVec 32) : crc8 (a ^^^ b) = crc8 a ^^^ crc8 b := by simp only [crc8, crcBit_xor]

theorem crc8_small {x : BitVec 32} (h : (crc8 x).toNat < 2 ^ 24) : x.toNat = 256 * (crc8 x).toNat := by
  have e : crc8 x = crcBit (crcBit (crcBit (crcBit (crcBit (crcBit (crcBit (crcBit x))))))) := rfl
  rw [e] at h ⊢
  have h1 := crcBit_small (x := crcBit (crcBit (crcBit (crcBit (crcBit (crcBit (crcBit x))))))) (by omega)
  have h2 := crcBit_small (x := crcBit (crcBit (crcBit (crcBit (crcBit (crcBit x)))))) (by omega)
  have h3 := crcBit_small (x := crcBit (crcBit (crcBit (crcBit (crcBit x))))) (by omega)
  have h4 := crcBit_small (x := crcBit (crcBit (crcBit (crcBit x)))) (by omega)
  have h5 := crcBit_small (x := crcBit (crcBit (crcBit x))) (by omega)
  have h6 := crcBit_small (x := crcBit (crcBit x)) (by omega)
  have h7 := crcBit_small (x := crcBit x) (by omega)
  have h8 := crcBit_small (x := x) (by omega)
  omega

/-- Up to four bytes as a number, the first byte lowest. -/
def leWord : Bytes → BitVec 32
  | [] => 0
  | x :: l => x.toBitVec.setWidth 32 ^^^ (leWord l <<< 8)

theorem leWord_lt : ∀ l : Bytes, l.length ≤ 4 → (leWord l).toNat < 2 ^ (8 * l.length)
  | [], _ => by simp [leWord]
  | x :: l, h => by
    have ih := leWord_lt l (by simp at h; omega)
    rw [leWord, BitVec.toNat_xor]
    apply Nat.xor_lt_two_pow
    · have := x.toNat_lt
      rw [BitVec.toNat_setWidth, UInt8.toNat_toBitVec]
      calc x.toNat % 2 ^ 32 ≤ x.toNat := Nat.mod_le _ _
        _ < 2 ^ 8 := this
        _ ≤ 2 ^ (8 * (x :: l).length) := Nat.pow_le_pow_right (by omega) (by simp)
    · rw [BitVec.toNat_shiftLeft, Nat.shiftLeft_eq]
      calc (leWord l).toNat * 2 ^ 8 % 2 ^ 32 ≤ (leWord l).toNat * 2 ^ 8 := Nat.mod_le _ _
        _ < 2 ^ (8 * l.length) * 2 ^ 8 := by omega
        _ = 2 ^ (8 * (x :: l).length) := by rw [← Nat.pow_add, List.length_cons]; congr 1

theorem leWord_injective : ∀ a b : Bytes, a.length = b.length → a.length ≤ 4 → leWord a = leWord b → a = b
  | [], [], _, _, _ => rfl
  | x :: a, y :: b, hl, h4, h => by
    simp only [List.length_cons] at hl h4
    have la := leWord_lt a (by omega)
    have lb := leWord_lt b (by omega)
    have pa : 2 ^ (8 * a.length) ≤ 2 ^ 24 := Nat.pow_le_pow_right (by omega) (by omega)
    have pb : 2 ^ (8 * b.length) ≤ 2 ^ 24 := Nat.pow_le_pow_right (by omega) (by omega)
    rw [leWord, leWord] at h
    have hxy : x = y := by
      have hx : ∀ (z : UInt8) (v : BitVec 32), (z.toBitVec.setWidth 32 ^^^ (v <<< 8)).setWidth 8 = z.toBitVec := by
        intro z v
        apply BitVec.eq_of_getLsbD_eq
        intro i hi
        simp [hi]
      have := congrArg (BitVec.setWidth 8) h
      rw [hx, hx] at this
      exact UInt8.toBitVec_inj.mp this
    subst hxy
    have h := (BitVec.xor_right_inj _).mp h
    have h := congrArg BitVec.toNat h
    rw [BitVec.toNat_shiftLeft, Nat.shiftLeft_eq, BitVec.toNat_shiftLeft, Nat.shiftLeft_eq, Nat.mod_eq_of_lt (by omega),
      Nat.mod_eq_of_lt (by omega)] at h
    rw [leWord_injective a b (by omega) (by omega) (BitVec.eq_of_toNat_eq (by omega))]

/-- If two blocks of up to four bytes lead to the same state, the states before differ by the difference of the blocks. -/
theorem crc_block : ∀ (a b : Bytes) (s t : BitVec 32), a.length = b.length → a.length ≤ 4 →
    a.foldl crcByte s = b.foldl crcByte t → s ^^^ t = leWord a ^^^ leWord b
  | [], [], s, t, _, _, h => by
    rw [List.foldl_nil, List.foldl_nil] at h
    rw [h, BitVec.xor_self, leWord, BitVec.xor_self]
  | x :: a, y :: b, s, t, hl, h4, h => by
    simp only [List.length_cons] at hl h4
    have ih := crc_block a b (crcByte s x) (crcByte t y) (by omega) (by omega) h
    have la := leWord_lt a (by omega)
    have lb := leWord_lt b (by omega)
    have pa : 2 ^ (8 * a.length) ≤ 2 ^ 24 := Nat.pow_le_pow_right (by omega) (by omega)
    have pb : 2 ^ (8 * b.length) ≤ 2 ^ 24 := Nat.pow_le_pow_right (by omega) (by omega)
    have hz : (leWord a ^^^ leWord b).toNat < 2 ^ 24 := by
      rw [BitVec.toNat_xor]; exact Nat.xor_lt_two_pow (by omega) (by omega)
    have e : crcByte s x ^^^ crcByte t y
        = crc8 ((s ^^^ x.toBitVec.setWidth 32) ^^^ (t ^^^ y.toBitVec.setWidth 32)) := by
      rw [crc8_xor]; rfl
    rw [e] at ih
    have hs := crc8_small (by rw [ih]; exact hz)
    rw [ih] at hs
    have hd : (s ^^^ x.toBitVec.setWidth 32) ^^^ (t ^^^ y.toBitVec.setWidth 32) = (leWord a ^^^ leWord b) <<< 8 := by
      apply BitVec.eq_of_toNat_eq
      rw [hs, BitVec.toNat_shiftLeft, Nat.shiftLeft_eq, Nat.mod_eq_of_lt (by omega)]
      omega
    have hd2 : (leWord a ^^^ leWord b) <<< 8 = (leWord a <<< 8) ^^^ (leWord b <<< 8) := BitVec.shiftLeft_xor_distrib _ _ _
    rw [hd2] at hd
    rw [leWord, leWord]
    generalize leWord a <<< 8 = p at *
    generalize leWord b <<< 8 = q at *
    generalize x.toBitVec.setWidth 32 = u at *
    generalize y.toBitVec.setWidth 32 = v at *
    have : s ^^^ t = ((s ^^^ u) ^^^ (t ^^^ v)) ^^^ (u ^^^ v) := by
      apply BitVec.eq_of_getLsbD_eq
      intro i hi
      simp only [BitVec.getLsbD_xor]
      cases s.getLsbD i <;> cases t.getLsbD i <;> cases u.getLsbD i <;> cases v.getLsbD i <;> rfl
    rw [this, hd]
    apply BitVec.eq_of_getLsbD_eq
    intro i hi
    simp only [BitVec.getLsbD_xor]
    cases p.getLsbD i <;> cases q.getLsbD i <;> cases u.getLsbD i <;> cases v.getLsbD i <;> rfl

/-- Changing up to four adjacent bytes changes the checksum. -/
theorem crc32_burst {pre post a b : Bytes} (hl : a.length = b.length) (h4 : a.length ≤ 4)
    (h : crc32 (pre ++ a ++ post) = crc32 (pre ++ b ++ post)) : a = b := by
  rw [crc32, crc32, BitVec.not_inj, List.foldl_append, List.foldl_append, List.foldl_append, List.foldl_append] at h
  have := crc_block a b _ _ hl h4 (crc_foldl_injective post h)
  rw [BitVec.xor_self] at this
  refine leWord_injective a b hl h4 ?_
  have e : leWord a = leWord b ^^^ (leWord a ^^^ leWord b) := by
    rw [BitVec.xor_comm (leWord a), ← BitVec.xor_assoc, BitVec.xor_self, BitVec.zero_xor]
  rw [e, ← this, BitVec.xor_zero]

/-! ### Changes reaching into the checksum -/

/-- The inverse of `crcBit`. -/
def uncrcBit (s : BitVec 32) : BitVec 32 := if s.getLsbD 31 then ((s ^^^ 0xEDB88320#32) <<< 1) ||| 1#32 else s <<< 1

theorem crcBit_uncrcBit (s : BitVec 32) : crcBit (uncrcBit s) = s := by
  rw [uncrcBit, crcBit]
  split
  · rename_i h
    have h0 : (((s ^^^ 0xEDB88320#32) <<< 1) ||| 1#32).getLsbD 0 = true := by simp
    rw [if_pos h0]
    have : (((s ^^^ 0xEDB88320#32) <<< 1) ||| 1#32) >>> 1 = s ^^^ 0xEDB88320#32 := by
      apply BitVec.eq_of_getLsbD_eq
      intro i hi
      simp only [BitVec.getLsbD_ushiftRight, BitVec.getLsbD_or, BitVec.getLsbD_shiftLeft]
      by_cases h31 : i = 31
      · subst h31
        rw [BitVec.getLsbD_xor, h]
        decide
      · have h1 : 1 + i < 32 := by omega
        simp [h1]
    rw [this, BitVec.xor_assoc, BitVec.xor_self, BitVec.xor_zero]
  · rename_i h
    have h0 : (s <<< 1).getLsbD 0 = false := by simp
    rw [h0, if_neg (by simp)]
    apply BitVec.eq_of_getLsbD_eq
    intro i hi
    simp only [BitVec.getLsbD_ushiftRight, BitVec.getLsbD_shiftLeft]
    by_cases h31 : i = 31
    · subst h31
      simp only [Bool.not_eq_true] at h
      rw [h]; simp
    · have h1 : 1 + i < 32 := by omega
      simp [h1]

/-- The inverse of `crc8`. -/
def uncrc8 (s : BitVec 32) : BitVec 32 :=
  uncrcBit (uncrcBit (uncrcBit (uncrcBit (uncrcBit (uncrcBit (uncrcBit (uncrcBit s)))))))

theorem crc8_uncrc8 (s : BitVec 32) : crc8 (uncrc8 s) = s := by simp only [crc8, uncrc8, crcBit_uncrcBit]

theorem crc8_injective {s t : BitVec 32} (h : crc8 s = crc8 t) : s = t :=
  crcBit_injective <| crcBit_injective <| crcBit_injective <| crcBit_injective <| crcBit_injective <| crcBit_injective <|
    crcBit_injective <| crcBit_injective h

/-- The difference of the states before two blocks of up to four bytes, from the difference after them. -/
theorem crc_block_diff : ∀ (a b : Bytes) (s t : BitVec 32), a.length = b.length → a.length ≤ 4 →
    s ^^^ t ^^^ (leWord a ^^^ leWord b) = Nat.iterate uncrc8 a.length (a.foldl crcByte s ^^^ b.foldl crcByte t)
  | [], [], s, t, _, _ => by simp [leWord]
  | x :: a, y :: b, s, t, hl, h4 => by
    simp only [List.length_cons] at hl h4
    have ih := crc_block_diff a b (crcByte s x) (crcByte t y) (by omega) (by omega)
    have la := leWord_lt a (by omega)
    have lb := leWord_lt b (by omega)
    have pa : 2 ^ (8 * a.length) ≤ 2 ^ 24 := Nat.pow_le_pow_right (by omega) (by omega)
    have pb : 2 ^ (8 * b.length) ≤ 2 ^ 24 := Nat.pow_le_pow_right (by omega) (by omega)
    have hz : (leWord a ^^^ leWord b).toNat < 2 ^ 24 := by
      rw [BitVec.toNat_xor]; exact Nat.xor_lt_two_pow (by omega) (by omega)
    have hsh : crc8 ((leWord a ^^^ leWord b) <<< 8) = leWord a ^^^ leWord b := by
      have h1 := crc8_small (x := uncrc8 (leWord a ^^^ leWord b)) (by rw [crc8_uncrc8]; exact hz)
      rw [crc8_uncrc8] at h1
      have h2 : uncrc8 (leWord a ^^^ leWord b) = (leWord a ^^^ leWord b) <<< 8 := by
        apply BitVec.eq_of_toNat_eq
        rw [h1, BitVec.toNat_shiftLeft, Nat.shiftLeft_eq, Nat.mod_eq_of_lt (by omega)]
        omega
      rw [← h2, crc8_uncrc8]
    rw [List.foldl_cons, List.foldl_cons, List.length_cons, Function.iterate_succ_apply', ← ih]
    apply crc8_injective
    rw [crc8_uncrc8, leWord, leWord]
    have e : s ^^^ t ^^^ (x.toBitVec.setWidth 32 ^^^ leWord a <<< 8 ^^^ (y.toBitVec.setWidth 32 ^^^ leWord b <<< 8))
        = (s ^^^ x.toBitVec.setWidth 32) ^^^ (t ^^^ y.toBitVec.setWidth 32) ^^^ ((leWord a ^^^ leWord b) <<< 8) := by
      rw [BitVec.shiftLeft_xor_distrib]
      generalize leWord a <<< 8 = p
      generalize leWord b <<< 8 = q
      generalize x.toBitVec.setWidth 32 = u
      generalize y.toBitVec.setWidth 32 = v
      apply BitVec.eq_of_getLsbD_eq
      intro i hi
      simp only [BitVec.getLsbD_xor]
      cases s.getLsbD i <;> cases t.getLsbD i <;> cases u.getLsbD i <;> cases v.getLsbD i <;> cases p.getLsbD i <;>
        cases q.getLsbD i <;> rfl
    rw [e, crc8_xor, hsh, crc8_xor]
    rfl

/-- One changed byte changes the low byte of the checksum. -/
theorem crc_low_one : ∀ d : UInt8, (crc8 (d.toBitVec.setWidth 32)).toNat % 2 ^ 8 = 0 → d = 0 := by
  have h : ∀ n : Fin 256, (crc8 ((UInt8.ofNat n.val).toBitVec.setWidth 32)).toNat % 2 ^ 8 = 0 → UInt8.ofNat n.val = 0 := by
    decide +kernel
  intro d
  have := h ⟨d.toNat, d.toNat_lt⟩
  simpa using this

/-- Up to three changed bytes cannot change the high byte of the checksum only. -/
theorem crc_high_two : ∀ n : Fin 256, (uncrc8 (uncrc8 (BitVec.ofNat 32 (n.val * 2 ^ 24)))).toNat < 2 ^ 16 → n = 0 := by
  decide +kernel

theorem crc_high_three : ∀ n : Fin 256, (uncrc8 (uncrc8 (uncrc8 (BitVec.ofNat 32 (n.val * 2 ^ 24))))).toNat < 2 ^ 24 → n = 0 := by
  decide +kernel

theorem crcBytes_suffix {d y z : Bytes} (h : crcBytes d = y ++ z) : (crc32 d).toNat % 2 ^ (8 * z.length) = beVal z := by
  have e := congrArg beVal h
  rw [crcBytes, beVal_beBytes, beVal_append, Nat.mod_eq_of_lt (by have := (crc32 d).isLt; simpa using this)] at e
  have hz := beVal_lt z
  rw [show (256 : Nat) = 2 ^ 8 from rfl, ← Nat.pow_mul] at e hz
  rw [e, Nat.mul_comm, Nat.mul_add_mod, Nat.mod_eq_of_lt hz]

/-- A change of `k` bytes at the end of the data and of `j` bytes at the beginning of the checksum is detected if `k + j ≤ 4`, except
for `k = j = 2`. -/
theorem crc_spanning {p x x' y y' z : Bytes} (hx : x.length = x'.length) (h4 : x.length + y.length ≤ 4)
    (h22 : ¬ (x.length = 2 ∧ y.length = 2)) (hy : 1 ≤ y.length) (h1 : crcBytes (p ++ x) = y ++ z) (h2 : crcBytes (p ++ x') = y' ++ z) :
    x = x' := by
  have hlz : y.length + z.length = 4 := by
    have := congrArg List.length h1
    rw [crcBytes_length, List.length_append] at this
    omega
  have hmod : ((crc32 (p ++ x)) ^^^ (crc32 (p ++ x'))).toNat % 2 ^ (8 * z.length) = 0 := by
    rw [BitVec.toNat_xor, Nat.xor_mod_two_pow, crcBytes_suffix h1, crcBytes_suffix h2, Nat.xor_self]
  have hdiff : crc32 (p ++ x) ^^^ crc32 (p ++ x') =
      x.foldl crcByte (p.foldl crcByte 0xFFFFFFFF#32) ^^^ x'.foldl crcByte (p.foldl crcByte 0xFFFFFFFF#32) := by
    rw [crc32, crc32, List.foldl_append, List.foldl_append]
    generalize List.foldl crcByte (p.foldl crcByte 0xFFFFFFFF#32) x = u
    generalize List.foldl crcByte (p.foldl crcByte 0xFFFFFFFF#32) x' = v
    apply BitVec.eq_of_getLsbD_eq
    intro i hi
    simp only [BitVec.getLsbD_xor, BitVec.getLsbD_not, hi, decide_true, Bool.true_and]
    cases u.getLsbD i <;> cases v.getLsbD i <;> rfl
  have hb := crc_block_diff x x' (p.foldl crcByte 0xFFFFFFFF#32) (p.foldl crcByte 0xFFFFFFFF#32) hx (by omega)
  rw [← hdiff, BitVec.xor_self, BitVec.zero_xor] at hb
  have hlt : (leWord x ^^^ leWord x').toNat < 2 ^ (8 * x.length) := by
    rw [BitVec.toNat_xor]
    exact Nat.xor_lt_two_pow (leWord_lt x (by omega)) (by have := leWord_lt x' (by omega); rwa [← hx] at this)
  have hzero : crc32 (p ++ x) ^^^ crc32 (p ++ x') = 0 → x = x' := by
    intro h0
    have e : crc32 (p ++ x) = crc32 (p ++ x') := by
      have : crc32 (p ++ x) ^^^ crc32 (p ++ x') ^^^ crc32 (p ++ x') = crc32 (p ++ x') := by rw [h0]; simp
      rwa [BitVec.xor_assoc, BitVec.xor_self, BitVec.xor_zero] at this
    exact crc32_burst (pre := p) (post := []) hx (by omega) (by rw [List.append_nil, List.append_nil]; exact e)
  generalize hD : crc32 (p ++ x) ^^^ crc32 (p ++ x') = D at hmod hb hzero
  have hDlt := D.isLt
  -- only the high byte of the checksum changes
  have high : z.length = 3 → ∃ n : Fin 256, D = BitVec.ofNat 32 (n.val * 2 ^ 24) := by
    intro h3
    rw [h3] at hmod
    refine ⟨⟨D.toNat / 2 ^ 24, by omega⟩, ?_⟩
    apply BitVec.eq_of_toNat_eq
    rw [BitVec.toNat_ofNat]
    simp only
    omega
  rcases x with - | ⟨a, - | ⟨b, - | ⟨c, - | ⟨d, x⟩⟩⟩⟩
  · exact (List.length_eq_zero_iff.mp (by simpa using hx.symm)).symm
  · obtain ⟨a', rfl⟩ := List.length_eq_one_iff.mp (by simpa using hx.symm)
    have hb : leWord [a] ^^^ leWord [a'] = uncrc8 D := hb
    have h4 : 1 + y.length ≤ 4 := h4
    have h5 : crc8 ((a ^^^ a').toBitVec.setWidth 32) = D := by
      have e : (a ^^^ a').toBitVec.setWidth 32 = leWord [a] ^^^ leWord [a'] := by
        simp only [leWord, UInt8.toBitVec_xor, BitVec.setWidth_xor]
        simp
      rw [e, hb, crc8_uncrc8]
    have h6 := crc_low_one (a ^^^ a') (by
      rw [h5]
      have : 2 ^ 8 ∣ 2 ^ (8 * z.length) := Nat.pow_dvd_pow 2 (by omega)
      exact Nat.mod_eq_zero_of_dvd (this.trans (Nat.dvd_of_mod_eq_zero hmod)))
    rw [UInt8.xor_eq_zero_iff.mp h6]
  · have hb : leWord [a, b] ^^^ leWord x' = uncrc8 (uncrc8 D) := hb
    have h4 : 2 + y.length ≤ 4 := h4
    have h22 : ¬ (2 = 2 ∧ y.length = 2) := h22
    obtain ⟨n, hn⟩ := high (by omega)
    rw [hn] at hb
    have h6 := crc_high_two n (by rw [← hb]; exact hlt)
    refine hzero ?_
    rw [hn, h6]
    decide
  · have hb : leWord [a, b, c] ^^^ leWord x' = uncrc8 (uncrc8 (uncrc8 D)) := hb
    have h4 : 3 + y.length ≤ 4 := h4
    have h22 : ¬ (3 = 2 ∧ y.length = 2) := h22
    obtain ⟨n, hn⟩ := high (by omega)
    rw [hn] at hb
    have h6 := crc_high_three n (by rw [← hb]; exact hlt)
    refine hzero ?_
    rw [hn, h6]
    decide
  · simp only [List.length_cons] at h4
    omega

theorem crc8_shift {x : BitVec 32} (h : x.toNat < 2 ^ 24) : crc8 (x <<< 8) = x := by
  have h1 := crc8_small (x := uncrc8 x) (by rw [crc8_uncrc8]; exact h)
  rw [crc8_uncrc8] at h1
  have h2 : uncrc8 x = x <<< 8 := by
    apply BitVec.eq_of_toNat_eq
    rw [h1, BitVec.toNat_shiftLeft, Nat.shiftLeft_eq, Nat.mod_eq_of_lt (by omega)]
    omega
  rw [← h2, crc8_uncrc8]

/-- The byte for which the division leaves a given low byte. -/
def invLow (b : Nat) : Nat :=
  ([0x4f, 0xfa, 0xbb, 0x39, 0x72, 0x80, 0x2b, 0x32].zipIdx).foldl (fun r c => if b.testBit c.2 then r ^^^ c.1 else r) 0

theorem invLow_spec : ∀ b : Fin 256, (crc8 ((UInt8.ofNat (invLow b.val)).toBitVec.setWidth 32)).toNat % 2 ^ 8 = b.val := by
  decide +kernel

theorem invLow_unique (c : UInt8) (b : Nat) (h : (crc8 (c.toBitVec.setWidth 32)).toNat % 2 ^ 8 = b) : c = UInt8.ofNat (invLow b) := by
  have hb : b < 256 := by omega
  have h2 := invLow_spec ⟨b, hb⟩
  simp only at h2
  apply UInt8.xor_eq_zero_iff.mp
  apply crc_low_one
  rw [UInt8.toBitVec_xor, BitVec.setWidth_xor, crc8_xor, BitVec.toNat_xor, Nat.xor_mod_two_pow, h, h2, Nat.xor_self]

theorem two_low_check : ∀ d : Fin 256,
    (crc8 ((UInt8.ofNat (invLow ((crc8 ((UInt8.ofNat d.val).toBitVec.setWidth 32)).toNat / 2 ^ 8 % 2 ^ 8))).toBitVec.setWidth 32)).toNat % 2 ^ 16 =
      (crc8 ((UInt8.ofNat d.val).toBitVec.setWidth 32)).toNat / 2 ^ 8 % 2 ^ 16 → d.val = 0 ∨ d.val = 0x61 := by
  decide +kernel

theorem split_low (t : BitVec 32) : t = (t >>> 8) <<< 8 ^^^ (UInt8.ofNat (t.toNat % 2 ^ 8)).toBitVec.setWidth 32 := by
  apply BitVec.eq_of_getLsbD_eq
  intro i hi
  have e : (UInt8.ofNat (t.toNat % 2 ^ 8)).toBitVec.setWidth 32 = BitVec.ofNat 32 (t.toNat % 2 ^ 8) := by
    apply BitVec.eq_of_toNat_eq
    simp
  rw [e, BitVec.getLsbD_xor, BitVec.getLsbD_shiftLeft, BitVec.getLsbD_ushiftRight, BitVec.getLsbD_ofNat, Nat.testBit_mod_two_pow]
  by_cases h : i < 8
  · simp [h, hi, BitVec.getLsbD]
  · simp [h, hi, show 8 + (i - 8) = i by omega]

/-- A change of two bytes that leaves the low half of the checksum as it is. -/
theorem two_low (d e : UInt8) (h : (crc8 (crc8 (d.toBitVec.setWidth 32) ^^^ e.toBitVec.setWidth 32)).toNat % 2 ^ 16 = 0) :
    (d = 0 ∧ e = 0) ∨ (d = 0x61 ∧ e = 0xD8) := by
  have hd : d = UInt8.ofNat d.toNat := by simp
  generalize hT : crc8 (d.toBitVec.setWidth 32) = T at h
  have hs := split_low T
  set l : UInt8 := UInt8.ofNat (T.toNat % 2 ^ 8) with hl
  have hc : crc8 (T ^^^ e.toBitVec.setWidth 32) = (T >>> 8) ^^^ crc8 ((l ^^^ e).toBitVec.setWidth 32) := by
    conv_lhs => rw [hs]
    rw [BitVec.xor_assoc, crc8_xor, crc8_shift, UInt8.toBitVec_xor, BitVec.setWidth_xor]
    have := T.isLt
    rw [BitVec.toNat_ushiftRight, Nat.shiftRight_eq_div_pow]
    omega
  rw [hc, BitVec.toNat_xor, Nat.xor_mod_two_pow, BitVec.toNat_ushiftRight, Nat.shiftRight_eq_div_pow] at h
  have h16 : T.toNat / 2 ^ 8 % 2 ^ 16 = (crc8 ((l ^^^ e).toBitVec.setWidth 32)).toNat % 2 ^ 16 := by
    have h' := congrArg (· ^^^ (crc8 ((l ^^^ e).toBitVec.setWidth 32)).toNat % 2 ^ 16) h
    simpa only [Nat.xor_assoc, Nat.xor_self, Nat.xor_zero, Nat.zero_xor] using h'
  have h8 : (crc8 ((l ^^^ e).toBitVec.setWidth 32)).toNat % 2 ^ 8 = T.toNat / 2 ^ 8 % 2 ^ 8 := by omega
  have hle := invLow_unique _ _ h8
  rw [hle] at h16
  have hchk := two_low_check ⟨d.toNat, d.toNat_lt⟩
  simp only [UInt8.ofNat_toNat, hT] at hchk
  have he : e = l ^^^ UInt8.ofNat (invLow (T.toNat / 2 ^ 8 % 2 ^ 8)) := by
    rw [← hle, ← UInt8.xor_assoc, UInt8.xor_self, UInt8.zero_xor]
  rcases hchk h16.symm with h0 | h0
  · left
    have : d = 0 := by rw [hd, h0]; rfl
    subst this
    refine ⟨rfl, ?_⟩
    rw [he, hl, ← hT]
    decide +kernel
  · right
    have : d = 0x61 := by rw [hd, h0]; rfl
    subst this
    refine ⟨rfl, ?_⟩
    rw [he, hl, ← hT]
    decide +kernel

theorem crc_two (s : BitVec 32) (a b a' b' : UInt8) : [a, b].foldl crcByte s ^^^ [a', b'].foldl crcByte s =
    crc8 (crc8 ((a ^^^ a').toBitVec.setWidth 32) ^^^ (b ^^^ b').toBitVec.setWidth 32) := by
  have e : ∀ s (b : UInt8), crcByte s b = crc8 (s ^^^ b.toBitVec.setWidth 32) := fun _ _ => rfl
  simp only [List.foldl_cons, List.foldl_nil, e, crc8_xor, UInt8.toBitVec_xor, BitVec.setWidth_xor]
  generalize crc8 (crc8 s) = p
  generalize crc8 (crc8 (a.toBitVec.setWidth 32)) = q
  generalize crc8 (crc8 (a'.toBitVec.setWidth 32)) = r
  generalize crc8 (b.toBitVec.setWidth 32) = u
  generalize crc8 (b'.toBitVec.setWidth 32) = v
  apply BitVec.eq_of_getLsbD_eq
  intro i hi
  simp only [BitVec.getLsbD_xor]
  cases p.getLsbD i <;> cases q.getLsbD i <;> cases r.getLsbD i <;> cases u.getLsbD i <;> cases v.getLsbD i <;> rfl

theorem crc32_two (p : Bytes) (a b a' b' : UInt8) : crc32 (p ++ [a, b]) ^^^ crc32 (p ++ [a', b']) =
    crc8 (crc8 ((a ^^^ a').toBitVec.setWidth 32) ^^^ (b ^^^ b').toBitVec.setWidth 32) := by
  rw [← crc_two (p.foldl crcByte 0xFFFFFFFF#32), crc32, crc32, List.foldl_append, List.foldl_append]
  generalize List.foldl crcByte (p.foldl crcByte 0xFFFFFFFF#32) [a, b] = u
  generalize List.foldl crcByte (p.foldl crcByte 0xFFFFFFFF#32) [a', b'] = v
  apply BitVec.eq_of_getLsbD_eq
  intro i hi
  simp only [BitVec.getLsbD_xor, BitVec.getLsbD_not, hi, decide_true, Bool.true_and]
  cases u.getLsbD i <;> cases v.getLsbD i <;> rfl

theorem beBytes_xor (w n m : Nat) : beBytes w (n ^^^ m) = List.zipWith (· ^^^ ·) (beBytes w n) (beBytes w m) := by
  induction w with
  | zero => rfl
  | succ w ih =>
    rw [beBytes, beBytes, beBytes, List.zipWith_cons_cons, ih, show (256 : Nat) = 2 ^ 8 from rfl, ← Nat.pow_mul, Nat.xor_div_two_pow,
      UInt8.ofNat_xor]

theorem crcBytes_two (p : Bytes) (a b a' b' : UInt8) :
    List.zipWith (· ^^^ ·) (crcBytes (p ++ [a, b])) (crcBytes (p ++ [a', b'])) =
      beBytes 4 (crc8 (crc8 ((a ^^^ a').toBitVec.setWidth 32) ^^^ (b ^^^ b').toBitVec.setWidth 32)).toNat := by
  rw [← crc32_two p, BitVec.toNat_xor, beBytes_xor]
  rfl

theorem xor_cancel8 {x y k : UInt8} (h : x ^^^ y = k) : y = x ^^^ k := by
  rw [← h, ← UInt8.xor_assoc, UInt8.xor_self, UInt8.zero_xor]

/-- A change of the last two data bytes and of the first two bytes of the checksum is undetected for exactly one difference. -/
theorem crc_straddle {p z : Bytes} {a b c d a' b' c' d' : UInt8} (h1 : crcBytes (p ++ [a, b]) = c :: d :: z) :
    crcBytes (p ++ [a', b']) = c' :: d' :: z ↔
      [a, b, c, d] = [a', b', c', d'] ∨ [a ^^^ a', b ^^^ b', c ^^^ c', d ^^^ d'] = [0x61, 0xD8, 0xF4, 0xEE] := by
  have hx := crcBytes_two p a b a' b'
  have hz : z.length = 2 := by
    have := congrArg List.length h1
    rw [crcBytes_length] at this
    simpa using this.symm
  obtain ⟨e, f, rfl⟩ := List.length_eq_two.mp hz
  have hD : beBytes 4 (crc8 (crc8 ((0x61 : UInt8).toBitVec.setWidth 32) ^^^ (0xD8 : UInt8).toBitVec.setWidth 32)).toNat =
      [0xF4, 0xEE, 0, 0] := by decide +kernel
  constructor
  · intro h2
    have hmod : (crc32 (p ++ [a, b]) ^^^ crc32 (p ++ [a', b'])).toNat % 2 ^ 16 = 0 := by
      have e1 := crcBytes_suffix (y := [c, d]) (z := [e, f]) h1
      have e2 := crcBytes_suffix (y := [c', d']) (z := [e, f]) h2
      simp only [List.length_cons, List.length_nil] at e1 e2
      rw [BitVec.toNat_xor, Nat.xor_mod_two_pow, e1, e2, Nat.xor_self]
    rw [crc32_two] at hmod
    rcases two_low _ _ hmod with ⟨ha, hb⟩ | ⟨ha, hb⟩
    · left
      have ha := UInt8.xor_eq_zero_iff.mp ha
      have hb := UInt8.xor_eq_zero_iff.mp hb
      subst ha hb
      rw [h1] at h2
      simp only [List.cons.injEq] at h2 ⊢
      exact ⟨trivial, trivial, h2.1, h2.2.1, trivial⟩
    · right
      rw [ha, hb, hD, h1, h2] at hx
      simp only [List.zipWith_cons_cons, List.cons.injEq] at hx ⊢
      exact ⟨ha, hb, hx.1, hx.2.1, trivial⟩
  · rintro (h2 | h2)
    · simp only [List.cons.injEq] at h2
      obtain ⟨rfl, rfl, rfl, rfl, -⟩ := h2
      exact h1
    · simp only [List.cons.injEq] at h2
      obtain ⟨ha, hb, hc, hd, -⟩ := h2
      rw [ha, hb, hD, h1] at hx
      have hl := crcBytes_length (p ++ [a', b'])
      generalize crcBytes (p ++ [a', b']) = l at hx hl
      rcases l with - | ⟨l1, - | ⟨l2, - | ⟨l3, - | ⟨l4, - | ⟨l5, l⟩⟩⟩⟩⟩ <;> simp at hl
      simp only [List.zipWith_cons_cons, List.zipWith_nil_left, List.cons.injEq] at hx
      obtain ⟨k1, k2, k3, k4, -⟩ := hx
      rw [xor_cancel8 k1, xor_cancel8 k2, xor_cancel8 k3, xor_cancel8 k4, xor_cancel8 hc, xor_cancel8 hd, UInt8.xor_zero, UInt8.xor_zero]

end Poodle
