import Verif.Props.Murmur
import Mathlib.Tactic.Common

/-
Algebra of the steps of MurmurHash3_x86_32 (specification of C32): each step is a bijection of the state, and a difference in one word can
be cancelled by a difference in the next one.
-/

namespace Poodle
open Poodle.Spec Poodle.Props

theorem rotl_rotl (x : BitVec 32) {r : Nat} (h0 : 0 < r) (hr : r < 32) : (x.rotateLeft r).rotateLeft (32 - r) = x := by
  apply BitVec.eq_of_getElem_eq
  intro i hi
  have e1 : (32 - r) % 32 = 32 - r := by omega
  have e2 : r % 32 = r := by omega
  simp only [BitVec.getElem_rotateLeft, e1, e2]
  split
  · split
    · omega
    · congr 1; omega
  · split
    · congr 1; omega
    · omega

theorem rotl_inj {x y : BitVec 32} {r : Nat} (h0 : 0 < r) (hr : r < 32) (h : x.rotateLeft r = y.rotateLeft r) : x = y := by
  rw [← rotl_rotl x h0 hr, h, rotl_rotl y h0 hr]

theorem rotl_xor (x y : BitVec 32) (r : Nat) : (x ^^^ y).rotateLeft r = x.rotateLeft r ^^^ y.rotateLeft r := by
  apply BitVec.eq_of_getElem_eq
  intro i hi
  simp only [BitVec.getElem_rotateLeft, BitVec.getElem_xor]
  split <;> rfl

theorem mul_odd_inj {x y c c' : BitVec 32} (hc : c * c' = 1#32) (h : x * c = y * c) : x = y := by
  have := congrArg (· * c') h
  simpa [BitVec.mul_assoc, hc] using this

theorem xorshift_inj {x y : BitVec 32} {n : Nat} (hn : 32 ≤ 3 * n) (h : x ^^^ x >>> n = y ^^^ y >>> n) : x = y := by
  have key : ∀ x : BitVec 32, (x ^^^ x >>> n) ^^^ (x ^^^ x >>> n) >>> n ^^^ ((x ^^^ x >>> n) >>> n) >>> n = x := by
    intro x
    have h0 : ((x >>> n) >>> n) >>> n = 0#32 := by
      rw [← BitVec.shiftRight_add, ← BitVec.shiftRight_add]
      exact BitVec.ushiftRight_eq_zero (by omega)
    rw [BitVec.ushiftRight_xor_distrib, BitVec.ushiftRight_xor_distrib, h0, BitVec.xor_zero, BitVec.xor_assoc, BitVec.xor_assoc,
      BitVec.xor_assoc, BitVec.xor_self, BitVec.xor_zero, BitVec.xor_self, BitVec.xor_zero]
  rw [← key x, h, key y]

theorem scramble_inj {x y : BitVec 32} (h : scramble x = scramble y) : x = y := by
  unfold scramble at h
  have h1 := mul_odd_inj (c' := 0x56ed309b#32) (by decide) h
  exact mul_odd_inj (c' := 0xdee13bb1#32) (by decide) (rotl_inj (by omega) (by omega) h1)

theorem xor_right_inj {a b c : BitVec 32} (h : a ^^^ c = b ^^^ c) : a = b := by
  have := congrArg (· ^^^ c) h
  simpa [BitVec.xor_assoc] using this

theorem xor_left_inj {a b c : BitVec 32} (h : c ^^^ a = c ^^^ b) : a = b := by
  rw [BitVec.xor_comm c, BitVec.xor_comm c] at h
  exact xor_right_inj h

theorem add_right_inj' {a b c : BitVec 32} (h : a + c = b + c) : a = b := by
  have := congrArg (· - c) h
  simpa using this

theorem mix_unrot {a b : BitVec 32} (h : a.rotateLeft 13 * 5#32 + 0xe6546b64#32 = b.rotateLeft 13 * 5#32 + 0xe6546b64#32) : a = b :=
  rotl_inj (by omega) (by omega) (mul_odd_inj (c' := 0xcccccccd#32) (by decide) (add_right_inj' h))

theorem mix_inj_state {a b k : BitVec 32} (h : mix a k = mix b k) : a = b := by
  unfold mix at h
  exact xor_right_inj (mix_unrot h)

theorem mix_inj_word {s a b : BitVec 32} (h : mix s a = mix s b) : a = b := by
  unfold mix at h
  exact scramble_inj (xor_left_inj (mix_unrot h))

theorem avalanche_inj {x y : BitVec 32} (h : avalanche x = avalanche y) : x = y := by
  simp only [avalanche] at h
  have h1 := mul_odd_inj (c' := 0x7ed1b41d#32) (by decide) (xorshift_inj (by omega) h)
  exact xorshift_inj (by omega) (mul_odd_inj (c' := 0xa5cb9243#32) (by decide) (xorshift_inj (by omega) h1))

theorem body_inj : ∀ (b : Bytes) {s t : BitVec 32}, body s b = body t b → s = t
  | _ :: _ :: _ :: _ :: rest, s, t, h => by
    simp only [body] at h
    exact mix_inj_state (body_inj rest h)
  | [_, _, _], s, t, h => by simp only [body] at h; exact xor_right_inj h
  | [_, _], s, t, h => by simp only [body] at h; exact xor_right_inj h
  | [_], s, t, h => by simp only [body] at h; exact xor_right_inj h
  | [], s, t, h => by simpa only [body] using h

/-- For every byte string the hash is an injective function of the seed. -/
theorem murmurHash_inj_seed (b : Bytes) {s t : UInt32} (h : murmurHash s b = murmurHash t b) : s = t := by
  have h1 := congrArg UInt32.toBitVec h
  rw [C32_murmur3, C32_murmur3] at h1
  exact u32_ext (body_inj b (xor_right_inj (avalanche_inj h1)))

theorem murmurHash_eq_iff {s : UInt32} {a b : Bytes} (hl : a.length = b.length) :
    murmurHash s a = murmurHash s b ↔ body s.toBitVec a = body s.toBitVec b := by
  rw [← UInt32.toBitVec_inj, C32_murmur3, C32_murmur3, murmur3, murmur3, hl]
  constructor
  · intro h
    exact xor_right_inj (avalanche_inj h)
  · intro h; rw [h]

theorem word_inj {a b c d a' b' c' d' : UInt8} (h : word a b c d = word a' b' c' d') : a = a' ∧ b = b' ∧ c = c' ∧ d = d' := by
  have h := congrArg BitVec.toNat h
  rw [word_toNat, word_toNat] at h
  have ha := a.toNat_lt; have hb := b.toNat_lt; have hc := c.toNat_lt; have hd := d.toNat_lt
  have ha' := a'.toNat_lt; have hb' := b'.toNat_lt; have hc' := c'.toNat_lt; have hd' := d'.toNat_lt
  refine ⟨UInt8.toNat_inj.mp ?_, UInt8.toNat_inj.mp ?_, UInt8.toNat_inj.mp ?_, UInt8.toNat_inj.mp ?_⟩ <;> omega

/-- Four bytes with a given little endian word. -/
theorem word_surj (w : BitVec 32) : ∃ a b c d, word a b c d = w := by
  refine ⟨UInt8.ofNat (w.toNat % 256), UInt8.ofNat (w.toNat / 256 % 256), UInt8.ofNat (w.toNat / 65536 % 256),
    UInt8.ofNat (w.toNat / 16777216), ?_⟩
  apply BitVec.eq_of_toNat_eq
  rw [word_toNat]
  have := w.isLt
  have e : ∀ n, n < 256 → (UInt8.ofNat n).toNat = n := fun n hn => by simp; omega
  rw [e _ (by omega), e _ (by omega), e _ (by omega), e _ (by omega)]
  omega

theorem xor_top (x : BitVec 32) : x ^^^ 0x80000000#32 = x + 0x80000000#32 := by
  apply BitVec.eq_of_toNat_eq
  rw [BitVec.toNat_xor, BitVec.toNat_add]
  have h31 : (0x80000000#32).toNat = 1 <<< 31 := by decide
  rw [h31]
  have hx := x.isLt
  rcases Nat.lt_or_ge x.toNat (2 ^ 31) with h | h
  · rw [Nat.xor_comm, shl_xor 1 _ 31 h]
    have : 1 <<< 31 = 2 ^ 31 := by decide
    omega
  · have h2 := shl_xor 1 (x.toNat - 2 ^ 31) 31 (by omega)
    have : 1 <<< 31 = 2 ^ 31 := by decide
    have h3 : x.toNat = 1 <<< 31 ^^^ (x.toNat - 2 ^ 31) := by omega
    conv_lhs => rw [h3]
    rw [Nat.xor_comm, ← Nat.xor_assoc, Nat.xor_self, Nat.zero_xor]
    omega

theorem scramble_surj (w : BitVec 32) : ∃ k, scramble k = w := by
  refine ⟨(w * 0x56ed309b#32).rotateLeft 17 * 0xdee13bb1#32, ?_⟩
  unfold scramble
  rw [BitVec.mul_assoc, show (0xdee13bb1#32 * 0xcc9e2d51#32) = 1#32 by decide, BitVec.mul_one]
  have : ((w * 0x56ed309b#32).rotateLeft 17).rotateLeft 15 = w * 0x56ed309b#32 := rotl_rotl _ (r := 17) (by omega) (by omega)
  rw [this, BitVec.mul_assoc, show (0x56ed309b#32 * 0x1b873593#32) = 1#32 by decide, BitVec.mul_one]

/-- A difference of bit 18 in one scrambled word becomes a difference of the top bit of the state, whatever the state. -/
theorem mix_flip {h k k' : BitVec 32} (hk : scramble k' = scramble k ^^^ 0x40000#32) : mix h k' = mix h k ^^^ 0x80000000#32 := by
  unfold mix
  rw [hk, ← BitVec.xor_assoc, rotl_xor, show (0x40000#32).rotateLeft 13 = 0x80000000#32 by decide, xor_top, xor_top, BitVec.add_mul,
    show 0x80000000#32 * 5#32 = 0x80000000#32 by decide, BitVec.add_assoc, BitVec.add_comm 0x80000000#32, ← BitVec.add_assoc]

/-- The difference is cancelled by one of the top bit in the next scrambled word. -/
theorem mix_cancel {h k k' : BitVec 32} (hk : scramble k' = scramble k ^^^ 0x80000000#32) : mix (h ^^^ 0x80000000#32) k' = mix h k := by
  unfold mix
  rw [hk, BitVec.xor_comm (scramble k), BitVec.xor_assoc, ← BitVec.xor_assoc 0x80000000#32, BitVec.xor_self, BitVec.zero_xor]

/-- For every eight bytes there are eight other ones that have the same effect on every state. -/
theorem twin_block (a b c d e f g i : UInt8) : ∃ a' b' c' d' e' f' g' i', [a', b', c', d', e', f', g', i'] ≠ [a, b, c, d, e, f, g, i] ∧
    ∀ s rest, body s (a' :: b' :: c' :: d' :: e' :: f' :: g' :: i' :: rest) = body s (a :: b :: c :: d :: e :: f :: g :: i :: rest) := by
  obtain ⟨k, hk⟩ := scramble_surj (scramble (word a b c d) ^^^ 0x40000#32)
  obtain ⟨l, hl⟩ := scramble_surj (scramble (word e f g i) ^^^ 0x80000000#32)
  obtain ⟨a', b', c', d', hw⟩ := word_surj k
  obtain ⟨e', f', g', i', hv⟩ := word_surj l
  refine ⟨a', b', c', d', e', f', g', i', ?_, ?_⟩
  · intro h
    simp only [List.cons.injEq] at h
    obtain ⟨rfl, rfl, rfl, rfl, -⟩ := h
    rw [← hw] at hk
    have := congrArg (scramble (word a' b' c' d') ^^^ ·) hk
    simp only [BitVec.xor_self, ← BitVec.xor_assoc, BitVec.zero_xor] at this
    exact absurd this (by decide)
  · intro s rest
    simp only [body]
    rw [hw, hv, mix_flip hk, mix_cancel hl]

end Poodle
