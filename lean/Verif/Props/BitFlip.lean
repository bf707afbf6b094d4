import Verif.Spec.BitFlip
import Verif.Lemmas.CrcPeriod
import Verif.Props.Burst
import Verif.Props.SSTable

/-
Properties C233 and C96: wrong bits in key files (/repo/src/util/lc_util.go:229-250) and table files (/repo/src/pdb/sstable.go:91-235).
-/

namespace Poodle.Props
open Poodle Poodle.Spec

theorem flipBit_length (i : Nat) (l : Bytes) : (flipBit i l).length = l.length := by
  induction l generalizing i with
  | nil => rfl
  | cons x l ih => rw [flipBit]; split <;> simp [ih]

theorem flipBit_left (i : Nat) (d k : Bytes) (h : i < 8 * d.length) : flipBit i (d ++ k) = flipBit i d ++ k := by
  induction d generalizing i with
  | nil => simp at h
  | cons x d ih =>
    rw [List.cons_append, flipBit, flipBit]
    split
    · rfl
    · rw [ih (i - 8) (by simp at h; omega)]; rfl

theorem flipBit_right (i : Nat) (d k : Bytes) (h : 8 * d.length ≤ i) : flipBit i (d ++ k) = d ++ flipBit (i - 8 * d.length) k := by
  induction d generalizing i with
  | nil => simp
  | cons x d ih =>
    simp only [List.length_cons] at h ⊢
    rw [List.cons_append, flipBit, if_neg (by omega), ih (i - 8) (by omega), show i - 8 - 8 * d.length = i - 8 * (d.length + 1) by omega]
    rfl

theorem crc_foldl_xor (d : Bytes) (s t : BitVec 32) : d.foldl crcByte (s ^^^ t) = d.foldl crcByte s ^^^ crcBit^[8 * d.length] t := by
  induction d generalizing s t with
  | nil => rfl
  | cons x d ih =>
    have e : crcByte (s ^^^ t) x = crcByte s x ^^^ crcBit^[8] t := by
      have e1 : ∀ u, crcByte u x = crcBit^[8] (u ^^^ x.toBitVec.setWidth 32) := fun _ => rfl
      rw [e1, e1, ← iter_xor]
      congr 1
      rw [BitVec.xor_assoc, BitVec.xor_assoc, BitVec.xor_comm t]
    rw [List.foldl_cons, List.foldl_cons, e, ih, ← Function.iterate_add_apply, List.length_cons, Nat.mul_add]

theorem flip_byte : ∀ i : Fin 8, crcBit^[8] ((1 <<< UInt8.ofNat i.val : UInt8).toBitVec.setWidth 32) = crcBit^[39 - i.val] topBit := by
  decide +kernel

/-- The effect of a bit of the data on the division. -/
theorem flip_data (d : Bytes) (s : BitVec 32) (i : Nat) (h : i < 8 * d.length) :
    (flipBit i d).foldl crcByte s = d.foldl crcByte s ^^^ crcBit^[8 * (d.length - i / 8) + 31 - i % 8] topBit := by
  induction d generalizing s i with
  | nil => simp at h
  | cons x d ih =>
    simp only [List.length_cons] at h ⊢
    rw [flipBit]
    split
    · next hi =>
      have e : crcByte s (x ^^^ (1 <<< UInt8.ofNat i)) = crcByte s x ^^^ crcBit^[39 - i] topBit := by
        have e1 : ∀ u, crcByte s u = crcBit^[8] (s ^^^ u.toBitVec.setWidth 32) := fun _ => rfl
        have := flip_byte ⟨i, hi⟩
        simp only at this
        rw [e1, e1, ← this, ← iter_xor, UInt8.toBitVec_xor, BitVec.setWidth_xor, BitVec.xor_assoc]
      rw [List.foldl_cons, List.foldl_cons, e, crc_foldl_xor, ← Function.iterate_add_apply]
      rw [show 8 * d.length + (39 - i) = 8 * (d.length + 1 - i / 8) + 31 - i % 8 by omega]
    · rw [List.foldl_cons, List.foldl_cons, ih _ (i - 8) (by omega)]
      rw [show 8 * (d.length - (i - 8) / 8) + 31 - (i - 8) % 8 = 8 * (d.length + 1 - i / 8) + 31 - i % 8 by omega]

/-- Four bytes as a number, the first one highest. -/
def word4 (a b c d : UInt8) : BitVec 32 := a.toBitVec ++ b.toBitVec ++ c.toBitVec ++ d.toBitVec

/-- Four bytes as a number. -/
def beWord : Bytes → BitVec 32
  | [a, b, c, d] => word4 a b c d
  | _ => 0#32

theorem word4_xor (a b c d a' b' c' d' : UInt8) : word4 (a ^^^ a') (b ^^^ b') (c ^^^ c') (d ^^^ d') = word4 a b c d ^^^ word4 a' b' c' d' := by
  simp only [word4, UInt8.toBitVec_xor, ← BitVec.xor_append]

theorem flip_word : ∀ i : Fin 32, (if i.val < 8 then word4 (1 <<< UInt8.ofNat i.val) 0 0 0 else if i.val < 16 then word4 0 (1 <<< UInt8.ofNat (i.val - 8)) 0 0
    else if i.val < 24 then word4 0 0 (1 <<< UInt8.ofNat (i.val - 16)) 0 else word4 0 0 0 (1 <<< UInt8.ofNat (i.val - 24))) =
      crcBit^[i.val / 8 * 8 + 7 - i.val % 8] topBit := by decide +kernel

theorem beWord_flip (k : Bytes) (hk : k.length = 4) (i : Nat) (hi : i < 32) :
    beWord (flipBit i k) = beWord k ^^^ crcBit^[i / 8 * 8 + 7 - i % 8] topBit := by
  rcases k with - | ⟨a, - | ⟨b, - | ⟨c, - | ⟨d, - | ⟨_, k⟩⟩⟩⟩⟩ <;> simp at hk
  have hw := flip_word ⟨i, hi⟩
  simp only at hw
  rw [← hw]
  have z : ∀ x : UInt8, x ^^^ 0 = x := fun x => by simp
  by_cases h1 : i < 8
  · rw [if_pos h1]
    simp only [flipBit, h1, if_true, beWord]
    rw [← word4_xor, z, z, z]
  rw [if_neg h1]
  by_cases h2 : i < 16
  · rw [if_pos h2]
    simp only [flipBit, h1, if_false, show i - 8 < 8 by omega, if_true, beWord]
    rw [← word4_xor, z, z, z]
  rw [if_neg h2]
  by_cases h3 : i < 24
  · rw [if_pos h3]
    simp only [flipBit, h1, if_false, show ¬ i - 8 < 8 by omega, show i - 8 - 8 < 8 by omega, if_true, beWord]
    rw [← word4_xor, z, z, z, show i - 8 - 8 = i - 16 by omega]
  · rw [if_neg h3]
    simp only [flipBit, h1, if_false, show ¬ i - 8 < 8 by omega, show ¬ i - 8 - 8 < 8 by omega, show i - 8 - 8 - 8 < 8 by omega, if_true, beWord]
    rw [← word4_xor, z, z, z, show i - 8 - 8 - 8 = i - 24 by omega]

theorem beWord_crc (d : Bytes) : beWord (crcBytes d) = crc32 d := by
  have h := (crc32 d).isLt
  apply BitVec.eq_of_toNat_eq
  simp only [crcBytes, beBytes, beWord, word4]
  generalize (crc32 d).toNat = n at h
  have e : ∀ (w : Nat) (x : BitVec w) (y : UInt8), (x ++ y.toBitVec).toNat = x.toNat * 256 + y.toNat := by
    intro w x y
    rw [BitVec.toNat_append, ← Nat.shiftLeft_add_eq_or_of_lt y.toBitVec.isLt, Nat.shiftLeft_eq]
    rfl
  rw [e, e, e]
  simp only [UInt8.toNat_toBitVec, UInt8.toNat_ofNat']
  omega

/-- What the checksum at the end of a string of bytes is wrong by. -/
def crcSyn (d k : Bytes) : BitVec 32 := d.foldl crcByte 0xFFFFFFFF#32 ^^^ beWord k

theorem crcSyn_valid (d : Bytes) : crcSyn d (crcBytes d) = 0xFFFFFFFF#32 := by
  rw [crcSyn, beWord_crc, crc32]
  generalize List.foldl crcByte 0xFFFFFFFF#32 d = u
  apply BitVec.eq_of_getLsbD_eq
  intro i hi
  have : (0xFFFFFFFF#32).getLsbD i = true := by
    have : (0xFFFFFFFF#32) = BitVec.allOnes 32 := by decide
    rw [this, BitVec.getLsbD_allOnes]; simpa using hi
  rw [this, BitVec.getLsbD_xor, BitVec.getLsbD_not]
  cases u.getLsbD i <;> simp [hi]

/-- How far a bit is from the end of the division, with `n` bytes of data. -/
def bitExp (n i : Nat) : Nat := if i < 8 * n then 8 * (n - i / 8) + 31 - i % 8 else (i - 8 * n) / 8 * 8 + 7 - (i - 8 * n) % 8

theorem crcSyn_flip (d k : Bytes) (hk : k.length = 4) (i : Nat) (hi : i < 8 * (d ++ k).length) :
    ∃ d' k', flipBit i (d ++ k) = d' ++ k' ∧ d'.length = d.length ∧ k'.length = 4 ∧ crcSyn d' k' = crcSyn d k ^^^ crcBit^[bitExp d.length i] topBit := by
  rw [List.length_append, hk] at hi
  by_cases h : i < 8 * d.length
  · refine ⟨flipBit i d, k, flipBit_left i d k h, flipBit_length i d, hk, ?_⟩
    rw [crcSyn, crcSyn, flip_data d _ i h, bitExp, if_pos h, BitVec.xor_assoc, BitVec.xor_assoc, BitVec.xor_comm (beWord k)]
  · refine ⟨d, flipBit (i - 8 * d.length) k, flipBit_right i d k (by omega), rfl, by rw [flipBit_length, hk], ?_⟩
    rw [crcSyn, crcSyn, beWord_flip k hk _ (by omega), bitExp, if_neg h, BitVec.xor_assoc]

/-- Bytes with their checksum, and two wrong bits: the checksum is wrong. -/
theorem two_bits {data data' : Bytes} {i j : Nat} (hij : i ≠ j) (hi : i < 8 * (data ++ crcBytes data).length)
    (hj : j < 8 * (data ++ crcBytes data).length) (hn : (data ++ crcBytes data).length < 2 ^ 29) :
    flipBit j (flipBit i (data ++ crcBytes data)) ≠ data' ++ crcBytes data' := by
  intro h
  obtain ⟨d1, k1, e1, l1, m1, s1⟩ := crcSyn_flip data _ (crcBytes_length _) i hi
  rw [e1] at h
  obtain ⟨d2, k2, e2, l2, m2, s2⟩ := crcSyn_flip d1 k1 m1 j (by
    simp only [List.length_append, l1, m1]
    simpa only [List.length_append, crcBytes_length] using hj)
  rw [e2] at h
  obtain ⟨rfl, rfl⟩ := List.append_inj' h (by rw [m2, crcBytes_length])
  rw [s1, crcSyn_valid, crcSyn_valid, l1] at s2
  have e : crcBit^[bitExp data.length i] topBit = crcBit^[bitExp data.length j] topBit := by
    rw [BitVec.xor_assoc] at s2
    generalize crcBit^[bitExp data.length i] topBit = u at *
    generalize crcBit^[bitExp data.length j] topBit = v at *
    have h0 : u ^^^ v = 0#32 := by
      have h1 := congrArg (0xFFFFFFFF#32 ^^^ ·) s2
      simp only [← BitVec.xor_assoc, BitVec.xor_self, BitVec.zero_xor] at h1
      exact h1.symm
    have h1 := congrArg (u ^^^ ·) h0
    simp only [← BitVec.xor_assoc, BitVec.xor_self, BitVec.zero_xor, BitVec.xor_zero] at h1
    exact h1.symm
  simp only [List.length_append, crcBytes_length] at hi hj hn
  have b : ∀ x, x < 8 * (data.length + 4) → bitExp data.length x < 2 ^ 32 - 1 := by
    intro x hx
    rw [bitExp]
    split <;> omega
  have inj : bitExp data.length i ≠ bitExp data.length j := by
    rw [bitExp, bitExp]
    split <;> split <;> omega
  have bi := b i hi
  have bj := b j hj
  rcases Nat.lt_or_gt_of_ne inj with hlt | hlt
  · obtain ⟨z, hz⟩ := Nat.exists_eq_add_of_lt hlt
    rw [hz, Nat.add_assoc, crc_same_iff] at e
    have := Nat.le_of_dvd (by omega) e
    omega
  · obtain ⟨z, hz⟩ := Nat.exists_eq_add_of_lt hlt
    rw [eq_comm, hz, Nat.add_assoc, crc_same_iff] at e
    have := Nat.le_of_dvd (by omega) e
    omega

/-- Bytes with their checksum, and one wrong bit: the checksum is wrong. -/
theorem one_bit {data data' : Bytes} {i : Nat} (hi : i < 8 * (data ++ crcBytes data).length) :
    flipBit i (data ++ crcBytes data) ≠ data' ++ crcBytes data' := by
  intro e
  obtain ⟨d1, k1, e1, l1, m1, s1⟩ := crcSyn_flip data _ (crcBytes_length _) i hi
  rw [e1] at e
  obtain ⟨rfl, rfl⟩ := List.append_inj' e (by rw [m1, crcBytes_length])
  rw [crcSyn_valid, crcSyn_valid] at s1
  have h1 := congrArg (0xFFFFFFFF#32 ^^^ ·) s1
  simp only [← BitVec.xor_assoc, BitVec.xor_self, BitVec.zero_xor] at h1
  have h2 := Function.Injective.iterate (fun _ _ => crcBit_injective) (bitExp data.length i) ((iter_zero _).trans h1)
  exact absurd h2 (by decide)

/-! ### C233 Two wrong bits in a key file are noticed -/

/-- C233: if any two bits of the content of a key file are changed, in the key or in the checksum, loading it gives an error.  The content has
less than 2^29 bytes. -/
theorem C233_two_bits (text text' content data : Bytes) (h : loadKeyBytes text = .ok data) (hd : hexDecode text = some content)
    (i j : Nat) (hij : i ≠ j) (hi : i < 8 * content.length) (hj : j < 8 * content.length) (hn : content.length < 2 ^ 29)
    (hd' : hexDecode text' = some (flipBit j (flipBit i content))) : loadKeyBytes text' = .err := by
  rw [loadKeyBytes_ok_iff, hd, Option.some.injEq] at h
  subst h
  rcases e : loadKeyBytes text' with data' | - | -
  · rw [loadKeyBytes_ok_iff, hd', Option.some.injEq] at e
    exact absurd e (two_bits hij hi hj hn)
  · rfl
  · exact absurd e (by
      rw [loadKeyBytes_eq, hd']
      simp only
      rw [if_neg (by simp only [flipBit_length, List.length_append, crcBytes_length]; omega)]
      split <;> simp)

/-- C233 for one bit. -/
theorem C233_one_bit (text text' content data : Bytes) (h : loadKeyBytes text = .ok data) (hd : hexDecode text = some content)
    (i : Nat) (hi : i < 8 * content.length) (hd' : hexDecode text' = some (flipBit i content)) : loadKeyBytes text' = .err := by
  rw [loadKeyBytes_ok_iff, hd, Option.some.injEq] at h
  subst h
  rcases e : loadKeyBytes text' with data' | - | -
  · rw [loadKeyBytes_ok_iff, hd', Option.some.injEq] at e
    exact absurd e (one_bit hi)
  · rfl
  · exact absurd e (by
      rw [loadKeyBytes_eq, hd']
      simp only
      rw [if_neg (by simp only [flipBit_length, List.length_append, crcBytes_length]; omega)]
      split <;> simp)

example := C233_two_bits (hexEncode ([1, 2, 3] ++ crcBytes [1, 2, 3])) (hexEncode (flipBit 30 (flipBit 5 ([1, 2, 3] ++ crcBytes [1, 2, 3]))))
  ([1, 2, 3] ++ crcBytes [1, 2, 3]) [1, 2, 3] (by decide +kernel) (by decide +kernel) 5 30 (by decide) (by decide) (by decide) (by decide)
  (by decide +kernel)

example := C233_one_bit (hexEncode ([1, 2, 3] ++ crcBytes [1, 2, 3])) (hexEncode (flipBit 30 ([1, 2, 3] ++ crcBytes [1, 2, 3])))
  ([1, 2, 3] ++ crcBytes [1, 2, 3]) [1, 2, 3] (by decide +kernel) (by decide +kernel) 30 (by decide) (by decide +kernel)

theorem word4_inj {a b c d a' b' c' d' : UInt8} (h : word4 a b c d = word4 a' b' c' d') : a = a' ∧ b = b' ∧ c = c' ∧ d = d' := by
  have e : ∀ (w : Nat) (x : BitVec w) (y : UInt8), (x ++ y.toBitVec).toNat = x.toNat * 256 + y.toNat := by
    intro w x y
    rw [BitVec.toNat_append, ← Nat.shiftLeft_add_eq_or_of_lt y.toBitVec.isLt, Nat.shiftLeft_eq]
    rfl
  have h := congrArg BitVec.toNat h
  simp only [word4, e, UInt8.toNat_toBitVec] at h
  have l : ∀ x : UInt8, x.toNat < 256 := fun x => x.toNat_lt
  have := l b; have := l c; have := l d; have := l b'; have := l c'; have := l d'
  exact ⟨UInt8.toNat_inj.mp (by omega), UInt8.toNat_inj.mp (by omega), UInt8.toNat_inj.mp (by omega), UInt8.toNat_inj.mp (by omega)⟩

theorem beWord_inj {k k' : Bytes} (hk : k.length = 4) (hk' : k'.length = 4) (h : beWord k = beWord k') : k = k' := by
  rcases k with - | ⟨a, - | ⟨b, - | ⟨c, - | ⟨d, - | ⟨_, k⟩⟩⟩⟩⟩ <;> simp at hk
  rcases k' with - | ⟨a', - | ⟨b', - | ⟨c', - | ⟨d', - | ⟨_, k'⟩⟩⟩⟩⟩ <;> simp at hk'
  obtain ⟨rfl, rfl, rfl, rfl⟩ := word4_inj h
  rfl

theorem xor_left_inj {a b c : BitVec 32} (h : a ^^^ b = a ^^^ c) : b = c := by
  have h1 := congrArg (a ^^^ ·) h
  simpa only [← BitVec.xor_assoc, BitVec.xor_self, BitVec.zero_xor] using h1

/-- C233, the bound is sharp: in every longer key file there are two bits that can be changed without being noticed. -/
theorem C233_bound (text content data : Bytes) (h : loadKeyBytes text = .ok data) (hd : hexDecode text = some content)
    (hn : 2 ^ 29 ≤ content.length) : ∃ i j, i ≠ j ∧ i < 8 * content.length ∧ j < 8 * content.length ∧ ∃ data', data' ≠ data ∧
      ∀ text', hexDecode text' = some (flipBit j (flipBit i content)) → loadKeyBytes text' = .ok data' := by
  rw [loadKeyBytes_ok_iff, hd, Option.some.injEq] at h
  subst h
  have hl : (data ++ crcBytes data).length = data.length + 4 := by rw [List.length_append, crcBytes_length]
  rw [hl] at hn
  obtain ⟨q, hq⟩ : ∃ q, q = data.length + 4 - 2 ^ 29 := ⟨_, rfl⟩
  have hi : 8 * q < 8 * data.length := by omega
  have e : flipBit (8 * data.length + 7) (flipBit (8 * q) (data ++ crcBytes data)) = flipBit (8 * q) data ++ flipBit 7 (crcBytes data) := by
    rw [flipBit_left _ _ _ hi, flipBit_right _ _ _ (by rw [flipBit_length]; omega), flipBit_length, Nat.add_sub_cancel_left]
  have ef := flip_data data 0xFFFFFFFF#32 (8 * q) hi
  have en : 8 * (data.length - 8 * q / 8) + 31 - 8 * q % 8 = 0 + (2 ^ 32 - 1) := by omega
  rw [en, ← (crc_same_iff 0 (2 ^ 32 - 1)).mpr (dvd_refl _)] at ef
  have ek := beWord_flip (crcBytes data) (crcBytes_length _) 7 (by decide)
  refine ⟨8 * q, 8 * data.length + 7, by omega, by omega, by omega, flipBit (8 * q) data, ?_, ?_⟩
  · intro hc
    rw [hc] at ef
    have h0 : (0#32 : BitVec 32) = topBit := xor_left_inj ((BitVec.xor_zero).trans ef)
    exact absurd h0 (by decide)
  · intro text' hd'
    rw [loadKeyBytes_ok_iff, hd', e, Option.some.injEq]
    congr 1
    refine beWord_inj (by rw [flipBit_length, crcBytes_length]) (crcBytes_length _) ?_
    apply xor_left_inj (a := (flipBit (8 * q) data).foldl crcByte 0xFFFFFFFF#32)
    have v := crcSyn_valid (flipBit (8 * q) data)
    have w := crcSyn_valid data
    rw [crcSyn] at v w
    refine Eq.trans ?_ (w.trans v.symm)
    rw [ek, ef]
    show _ ^^^ topBit ^^^ (_ ^^^ topBit) = _
    rw [BitVec.xor_assoc, BitVec.xor_comm (beWord _), ← BitVec.xor_assoc topBit, BitVec.xor_self, BitVec.zero_xor]

example := C233_bound (hexEncode (List.replicate (2 ^ 29) 5 ++ crcBytes (List.replicate (2 ^ 29) 5))) _ (List.replicate (2 ^ 29) 5)
  (by rw [loadKeyBytes_ok_iff, hexDecode_hexEncode]) (hexDecode_hexEncode _) (by rw [List.length_append, List.length_replicate]; omega)

/-! ### C96 Wrong bits in table files -/

/-- C96, what the two checksums guarantee for wrong bits: after changing any two bits before the records, the file is not a table file whose
parts have the same lengths.  The header and the index have less than 2^29 bytes each. -/
theorem C96_two_bits_partial (file : Bytes) (t t' : SSTable) (hw mw records hw' mw' records' : Bytes)
    (H : IsSSTable file t.header t.mph t.offsets hw mw records) (i j : Nat) (hij : i ≠ j)
    (hi : i < 8 * (hw.length + 4 + (mw.length + 4 + 4 * t.offsets.length + 4)))
    (hj : j < 8 * (hw.length + 4 + (mw.length + 4 + 4 * t.offsets.length + 4)))
    (hn : hw.length + 4 < 2 ^ 29) (hm : mw.length + 4 + 4 * t.offsets.length + 4 < 2 ^ 29)
    (hlen : hw'.length = hw.length) (hlen' : mw'.length = mw.length) (ho : t'.offsets.length = t.offsets.length) :
    ¬ IsSSTable (flipBit j (flipBit i file)) t'.header t'.mph t'.offsets hw' mw' records' := by
  intro H'
  have hfl : ∀ l : List UInt32, (l.flatMap fun x => u32 x.toNat).length = 4 * l.length := by
    intro l
    induction l with
    | nil => rfl
    | cons x l ih => rw [List.flatMap_cons, List.length_append, ih, u32_length, List.length_cons]; omega
  have h1 := H.bytes
  have h2 := H'.bytes
  have ec : ∀ d, u32 (crc32 d).toNat = crcBytes d := fun d => u32_eq_beBytes _
  simp only [ec] at h1 h2
  obtain ⟨x, hx⟩ : ∃ x, x = mw ++ u32 t.offsets.length ++ t.offsets.flatMap (fun x => u32 x.toNat) := ⟨_, rfl⟩
  obtain ⟨x', hx'⟩ : ∃ x, x = mw' ++ u32 t'.offsets.length ++ t'.offsets.flatMap (fun x => u32 x.toNat) := ⟨_, rfl⟩
  have lx : x.length = mw.length + 4 + 4 * t.offsets.length := by rw [hx]; simp only [List.length_append, u32_length, hfl]
  have lx' : x'.length = mw.length + 4 + 4 * t.offsets.length := by rw [hx']; simp only [List.length_append, u32_length, hfl, hlen', ho]
  have g1 : file = (hw ++ crcBytes hw) ++ ((x ++ crcBytes x) ++ records) := by
    rw [h1, hx]; simp only [List.append_assoc]
  have g2 : flipBit j (flipBit i file) = (hw' ++ crcBytes hw') ++ ((x' ++ crcBytes x') ++ records') := by
    rw [h2, hx']; simp only [List.append_assoc]
  rw [g1] at g2
  have la : (hw ++ crcBytes hw).length = hw.length + 4 := by rw [List.length_append, crcBytes_length]
  have la' : (hw' ++ crcBytes hw').length = hw.length + 4 := by rw [List.length_append, crcBytes_length, hlen]
  have lb : (x ++ crcBytes x).length = mw.length + 4 + 4 * t.offsets.length + 4 := by rw [List.length_append, crcBytes_length, lx]
  have lb' : (x' ++ crcBytes x').length = mw.length + 4 + 4 * t.offsets.length + 4 := by rw [List.length_append, crcBytes_length, lx']
  by_cases ci : i < 8 * (hw.length + 4)
  · rw [flipBit_left i _ _ (by rw [la]; exact ci)] at g2
    by_cases cj : j < 8 * (hw.length + 4)
    · rw [flipBit_left j _ _ (by rw [flipBit_length, la]; exact cj)] at g2
      exact two_bits hij (by rw [la]; exact ci) (by rw [la]; exact cj) (by rw [la]; exact hn)
        (List.append_inj g2 (by rw [flipBit_length, flipBit_length, la, la'])).1
    · rw [flipBit_right j _ _ (by rw [flipBit_length, la]; omega)] at g2
      exact one_bit (by rw [la]; exact ci) (List.append_inj g2 (by rw [flipBit_length, la, la'])).1
  · rw [flipBit_right i _ _ (by rw [la]; omega)] at g2
    by_cases cj : j < 8 * (hw.length + 4)
    · rw [flipBit_left j _ _ (by rw [la]; exact cj)] at g2
      exact one_bit (by rw [la]; exact cj) (List.append_inj g2 (by rw [flipBit_length, la, la'])).1
    · rw [flipBit_right j _ _ (by rw [la]; omega)] at g2
      have g3 := (List.append_inj g2 (by rw [la, la'])).2
      rw [flipBit_left _ _ _ (by rw [la, lb]; omega), flipBit_left _ _ _ (by rw [flipBit_length, la, lb]; omega)] at g3
      exact two_bits (by rw [la]; omega) (by rw [la, lb]; omega) (by rw [la, lb]; omega) (by rw [lb]; exact hm)
        (List.append_inj g3 (by rw [flipBit_length, flipBit_length, lb, lb'])).1

set_option maxRecDepth 100000 in
/-- The sample file with a bit of the version and a bit of the identification changed. -/
example : ∃ (t : SSTable) (hw mw records : Bytes), IsSSTable sampleTable t.header t.mph t.offsets hw mw records ∧
    ∀ (t' : SSTable) (hw' mw' records' : Bytes), hw'.length = hw.length → mw'.length = mw.length → t'.offsets.length = t.offsets.length →
      ¬ IsSSTable (flipBit 50 (flipBit 3 sampleTable)) t'.header t'.mph t'.offsets hw' mw' records' := by
  have h1 : loadsWith sampleTable (fun _ => true) = true := by decide +kernel
  rw [loadsWith] at h1
  split at h1
  · rename_i t e
    obtain ⟨hw, mw, records, H, -⟩ := layout_of_load e
    have hl := congrArg List.length H.bytes
    have hs : sampleTable.length < 1000 := by decide +kernel
    have t1 := (isSSTable_takeAt H).2
    have t2 := t1.2.1
    have hfl : ∀ l : List UInt32, (l.flatMap fun x => u32 x.toNat).length = 4 * l.length := by
      intro l
      induction l with
      | nil => rfl
      | cons x l ih => rw [List.flatMap_cons, List.length_append, ih, u32_length, List.length_cons]; omega
    simp only [List.length_append, u32_length, hfl] at hl
    exact ⟨t, hw, mw, records, H, fun t' hw' mw' records' a b c => C96_two_bits_partial _ t t' hw mw records hw' mw' records' H 3 50 (by decide)
      (by omega) (by omega) (by omega) (by omega) a b c⟩
  · simp at h1

end Poodle.Props
