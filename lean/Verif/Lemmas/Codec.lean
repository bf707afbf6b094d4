import Verif.Model.Codec
import Verif.Spec.Codec
import Mathlib.Tactic.Ring
import Mathlib.Tactic.NormNum

namespace Poodle
open Spec

theorem or_shift {x b s : Nat} (h : x < 2 ^ s) : x ||| (b <<< s) = x + b * 2 ^ s := by
  rw [Nat.or_comm, ← Nat.shiftLeft_add_eq_or_of_lt h, Nat.shiftLeft_eq]; omega

theorem and_7f (b : UInt8) : (b &&& 0x7f).toNat = b.toNat % 128 := by
  rw [UInt8.toNat_and]
  exact Nat.and_two_pow_sub_one_eq_mod _ 7

theorem Spec.IsUvarint.ne_nil {p : Bytes} {v : Nat} (h : IsUvarint p v) : p ≠ [] := by
  cases h <;> simp

theorem Spec.IsUvarint.length_pos {p : Bytes} {v : Nat} (h : IsUvarint p v) : 0 < p.length := by
  cases h <;> simp

theorem Spec.IsUvarint.lt_pow {p : Bytes} {v : Nat} (h : IsUvarint p v) : v < 128 ^ p.length := by
  induction h with
  | last b hb => simpa using hb
  | more b bs v hb _ ih =>
    have := b.toNat_lt
    simp only [List.length_cons, Nat.pow_succ]
    omega

/-- Complete base-128 strings are prefix free and denote one value. -/
theorem Spec.IsUvarint.prefix_unique {p q r r' : Bytes} {v w : Nat} (hp : IsUvarint p v) (hq : IsUvarint q w)
    (h : p ++ r = q ++ r') : p = q ∧ v = w := by
  induction hp generalizing q w with
  | last b hb =>
    cases hq with
    | last b' hb' => simp at h; simp [h.1]
    | more b' bs v hb' _ => simp at h; rw [← h.1] at hb'; omega
  | more b bs v hb _ ih =>
    cases hq with
    | last b' hb' => simp at h; rw [← h.1] at hb'; omega
    | more b' bs' v' hb' hq' =>
      simp at h
      obtain ⟨h1, h2⟩ := ih hq' h.2
      simp [h.1, h1, h2]

theorem uvarintLoop_of_isUvarint {p : Bytes} {v : Nat} (hp : IsUvarint p v) (rest : Bytes) :
    ∀ i x, i + p.length ≤ 10 → x < 2 ^ (7 * i) → x + v * 2 ^ (7 * i) < 2 ^ 64 →
      uvarintLoop (p ++ rest) i (7 * i) x = (x + v * 2 ^ (7 * i), ((i + p.length : Nat) : Int)) := by
  induction hp with
  | last b hb =>
    intro i x hi hx hv
    simp only [List.length_singleton] at hi
    simp only [List.singleton_append, uvarintLoop]
    rw [if_neg (by omega), if_pos (by rw [UInt8.lt_iff_toNat_lt]; exact hb), if_neg, or_shift hx,
      Nat.mod_eq_of_lt hv]
    · simp
    · rintro ⟨rfl, h1⟩
      rw [gt_iff_lt, UInt8.lt_iff_toNat_lt] at h1
      have h1 : 1 < b.toNat := h1
      have : 2 * 2 ^ (7 * 9) ≤ b.toNat * 2 ^ (7 * 9) := Nat.mul_le_mul_right _ h1
      omega
  | more b bs v hb hbs ih =>
    intro i x hi hx hv
    simp only [List.length_cons] at hi
    have hpos := hbs.length_pos
    have hb' := b.toNat_lt
    have hmod : b.toNat % 128 = b.toNat - 128 := by omega
    have hpow : (2:Nat) ^ (7 * (i + 1)) = 128 * 2 ^ (7 * i) := by rw [Nat.mul_add, Nat.pow_add]; ring
    have hx' : x + (b.toNat - 128) * 2 ^ (7 * i) < 2 ^ (7 * (i + 1)) := by
      rw [hpow]
      have : (b.toNat - 128) * 2 ^ (7 * i) ≤ 127 * 2 ^ (7 * i) := Nat.mul_le_mul_right _ (by omega)
      omega
    have hval : x + (b.toNat - 128 + 128 * v) * 2 ^ (7 * i)
        = x + (b.toNat - 128) * 2 ^ (7 * i) + v * 2 ^ (7 * (i + 1)) := by rw [hpow]; ring
    have hsm : x + (b.toNat - 128) * 2 ^ (7 * i) < 2 ^ 64 := by rw [hval] at hv; omega
    simp only [List.cons_append, uvarintLoop]
    rw [if_neg (by omega), if_neg (by rw [UInt8.lt_iff_toNat_lt]; exact Nat.not_lt.mpr hb), and_7f, hmod,
      or_shift hx, Nat.mod_eq_of_lt hsm]
    have := ih (i + 1) _ (by omega) hx' (by rw [← hval]; exact hv)
    rw [show 7 * i + 7 = 7 * (i + 1) by ring, this, hval]
    simp; omega

theorem isUvarint_of_uvarintLoop (buf : Bytes) :
    ∀ i x w n, i ≤ 10 → x < 2 ^ (7 * i) → x < 2 ^ 64 → uvarintLoop buf i (7 * i) x = (w, n) → 0 < n →
      ∃ p rest v, buf = p ++ rest ∧ IsUvarint p v ∧ i + p.length ≤ 10 ∧
        n = ((i + p.length : Nat) : Int) ∧ w = x + v * 2 ^ (7 * i) ∧ w < 2 ^ 64 := by
  induction buf with
  | nil => intro i x w n hi hx hx64 h hn; simp [uvarintLoop] at h; omega
  | cons b bs ih =>
    intro i x w n hi hx hx64 h hn
    have hb' := b.toNat_lt
    simp only [uvarintLoop] at h
    split at h
    · simp at h; omega
    · rename_i hi10
      split at h
      · rename_i hb
        rw [UInt8.lt_iff_toNat_lt] at hb
        have hb : b.toNat < 128 := hb
        split at h
        · simp at h; omega
        · rename_i hov
          rw [or_shift hx] at h
          have hlt : x + b.toNat * 2 ^ (7 * i) < 2 ^ 64 := by
            by_cases h9 : i = 9
            · subst h9
              have : ¬ b > 1 := fun hc => hov ⟨rfl, hc⟩
              rw [gt_iff_lt, UInt8.lt_iff_toNat_lt] at this
              have : ¬ 1 < b.toNat := this
              have : b.toNat * 2 ^ (7 * 9) ≤ 1 * 2 ^ (7 * 9) := Nat.mul_le_mul_right _ (by omega)
              omega
            · have : (2:Nat) ^ (7 * i) ≤ 2 ^ 56 := Nat.pow_le_pow_right (by decide) (by omega)
              have : b.toNat * 2 ^ (7 * i) ≤ 127 * 2 ^ (7 * i) := Nat.mul_le_mul_right _ (by omega)
              omega
          rw [Nat.mod_eq_of_lt hlt] at h
          simp only [Prod.mk.injEq] at h
          refine ⟨[b], bs, b.toNat, rfl, .last b hb, ?_, ?_, h.1.symm, ?_⟩
          · simp; omega
          · simp; omega
          · omega
      · rename_i hb
        rw [UInt8.lt_iff_toNat_lt] at hb
        have hb : ¬ b.toNat < 128 := hb
        rw [and_7f, or_shift hx, show 7 * i + 7 = 7 * (i + 1) by ring] at h
        have hmod : b.toNat % 128 = b.toNat - 128 := by omega
        have hpow : (2:Nat) ^ (7 * (i + 1)) = 128 * 2 ^ (7 * i) := by rw [Nat.mul_add, Nat.pow_add]; ring
        have hmul : (b.toNat - 128) * 2 ^ (7 * i) ≤ 127 * 2 ^ (7 * i) := Nat.mul_le_mul_right _ (by omega)
        rw [hmod] at h
        obtain ⟨p, rest, v, hbuf, hp, hlen, hn', hw, hw64⟩ := ih (i + 1) _ w n (by omega)
          (Nat.lt_of_le_of_lt (Nat.mod_le _ _) (by rw [hpow]; omega)) (Nat.mod_lt _ (by decide)) h hn
        have hpos := hp.length_pos
        have hsm : x + (b.toNat - 128) * 2 ^ (7 * i) < 2 ^ 64 := by
          have : (2:Nat) ^ (7 * (i + 1)) ≤ 2 ^ 63 := Nat.pow_le_pow_right (by decide) (by omega)
          omega
        rw [Nat.mod_eq_of_lt hsm] at hw
        refine ⟨b :: p, rest, b.toNat - 128 + 128 * v, by simp [hbuf], .more b p v (by omega) hp, ?_, ?_, ?_, hw64⟩
        · simp; omega
        · rw [hn']; simp; omega
        · rw [hw, hpow]; ring

/-- Exact meaning of `encoding/binary.Uvarint` on success. -/
theorem uvarint_pos_iff {buf : Bytes} {v : Nat} {n : Int} :
    (uvarint buf = (v, n) ∧ 0 < n) ↔
      ∃ p rest, buf = p ++ rest ∧ IsUvarint p v ∧ p.length ≤ 10 ∧ v < 2 ^ 64 ∧ n = (p.length : Int) := by
  constructor
  · rintro ⟨h, hn⟩
    obtain ⟨p, rest, v', hbuf, hp, hlen, hn', hw, hw64⟩ :=
      isUvarint_of_uvarintLoop buf 0 0 v n (by omega) (by simp) (by simp) (by simpa [uvarint] using h) hn
    simp at hw hn' hlen
    subst hw
    exact ⟨p, rest, hbuf, hp, hlen, hw64, hn'⟩
  · rintro ⟨p, rest, rfl, hp, hlen, hv, rfl⟩
    have := uvarintLoop_of_isUvarint hp rest 0 0 (by omega) (by simp) (by simpa using hv)
    have hpos := hp.length_pos
    simp at this
    exact ⟨by simpa [uvarint] using this, by omega⟩

theorem uvarint_of_isUvarint {p rest : Bytes} {v : Nat} (hp : IsUvarint p v) (hlen : p.length ≤ 10)
    (hv : v < 2 ^ 64) : uvarint (p ++ rest) = (v, (p.length : Int)) :=
  (uvarint_pos_iff.mpr ⟨p, rest, rfl, hp, hlen, hv, rfl⟩).1

theorem uvarint_zero {b : UInt8} {bs : Bytes} {v : Nat} (h : uvarint (b :: bs) = (v, 0)) : b ≠ 0 := by
  rintro rfl
  have := uvarint_of_isUvarint (rest := bs) (.last 0 (by decide)) (by simp) (by simp)
  simp at this
  rw [this] at h
  simp at h

/-- `PutUvarint` emits a complete base-128 string denoting its argument, of minimal length. -/
theorem putUvarintAux_spec (fuel x : Nat) (h : x < 128 ^ fuel) (hf : 0 < fuel) :
    IsUvarint (putUvarintAux fuel x) x ∧ (putUvarintAux fuel x).length ≤ fuel ∧
      (1 < (putUvarintAux fuel x).length → 128 ^ ((putUvarintAux fuel x).length - 1) ≤ x) := by
  induction fuel generalizing x with
  | zero => omega
  | succ fuel ih =>
    simp only [putUvarintAux]
    split
    · rename_i hx
      have hs : x >>> 7 = x / 128 := by simp [Nat.shiftRight_eq_div_pow]
      have hlt : x / 128 < 128 ^ fuel := by
        rw [Nat.pow_succ] at h
        exact Nat.div_lt_of_lt_mul (by omega)
      have hf' : 0 < fuel := by
        rcases Nat.eq_zero_or_pos fuel with h0 | h0
        · subst h0; simp at h; omega
        · exact h0
      obtain ⟨h1, h2, h3⟩ := ih (x / 128) hlt hf'
      rw [hs]
      have hbyte : (UInt8.ofNat x ||| 0x80).toNat = x % 128 + 128 := by
        rw [UInt8.toNat_or, UInt8.toNat_ofNat']
        have e : x % 2 ^ 8 ||| (0x80 : UInt8).toNat = (x % 2^8) % 2 ^ 7 ||| (1 <<< 7) := by
          apply Nat.eq_of_testBit_eq
          intro i
          simp only [Nat.testBit_or, Nat.testBit_mod_two_pow]
          have e80 : (0x80 : UInt8).toNat = 2 ^ 7 := by decide
          rw [e80, Nat.shiftLeft_eq, Nat.one_mul, Nat.testBit_two_pow]
          by_cases h7 : i < 7
          · simp [h7]
          · by_cases h8 : i = 7
            · simp [h8]
            · have : ¬ i < 8 := by omega
              simp [this]
        rw [e, or_shift (Nat.mod_lt _ (by decide))]
        omega
      refine ⟨?_, by simp only [List.length_cons]; omega, ?_⟩
      · have := IsUvarint.more (UInt8.ofNat x ||| 0x80) _ _ (by rw [hbyte]; omega) h1
        rw [hbyte] at this
        convert this using 1
        omega
      · intro _
        simp only [List.length_cons, Nat.add_sub_cancel]
        generalize hL : (putUvarintAux fuel (x / 128)).length = L at *
        rcases Nat.lt_or_ge 1 L with h4 | h4
        · have := h3 h4
          have e : 128 ^ L = 128 ^ (L - 1) * 128 := by rw [← Nat.pow_succ]; congr 1; omega
          rw [e]
          exact Nat.le_trans (Nat.mul_le_mul_right _ this) (Nat.div_mul_le_self _ _)
        · have : L = 1 := by have := h1.length_pos; omega
          subst this; omega
    · rename_i hx
      have hb : (UInt8.ofNat x).toNat = x := by rw [UInt8.toNat_ofNat']; omega
      refine ⟨?_, by simp, by simp⟩
      have := IsUvarint.last (UInt8.ofNat x) (by omega)
      rwa [hb] at this

theorem putUvarint_spec {x : Nat} (h : x < 2 ^ 64) :
    IsUvarint (putUvarint x) x ∧ (putUvarint x).length ≤ 10 ∧
      (1 < (putUvarint x).length → 128 ^ ((putUvarint x).length - 1) ≤ x) :=
  putUvarintAux_spec 10 x (Nat.lt_trans h (by norm_num)) (by omega)

theorem putUvarint_length_pos {x : Nat} (h : x < 2 ^ 64) : 0 < (putUvarint x).length :=
  (putUvarint_spec h).1.length_pos

/-! ### `wrap64` -/

theorem wrap64_of_small {z : Int} (h0 : -2 ^ 63 ≤ z) (h1 : z < 2 ^ 63) : wrap64 z = z := by
  unfold wrap64
  rw [Int.bmod_def]; split <;> omega

theorem wrap64_sum_small {n v : Nat} (h : n + v < 2 ^ 63) : wrap64 ((n : Int) + wrap64 (v : Int)) = n + v := by
  rw [wrap64_of_small (z := (v : Int)) (by omega) (by omega)]
  exact wrap64_of_small (by omega) (by omega)

theorem wrap64_sum_big {n v : Nat} (hn : n ≤ 10) (hv : v < 2 ^ 64) (h : 2 ^ 63 ≤ n + v) :
    wrap64 ((n : Int) + wrap64 (v : Int)) < n := by
  unfold wrap64
  rw [Int.bmod_def, Int.bmod_def]; split <;> split <;> omega

/-! ### Exact behaviour of the decoders -/

theorem decode_cases (buf : Bytes) (hne : buf ≠ []) :
    (∃ p rest v, buf = p ++ rest ∧ IsUvarint p v ∧ p.length ≤ 10 ∧ v < 2 ^ 64 ∧
        uvarint buf = (v, (p.length : Int))) ∨
    ((∀ p rest v, buf = p ++ rest → IsUvarint p v → p.length ≤ 10 → v < 2 ^ 64 → False) ∧
      (uvarint buf).2 ≤ 0) := by
  rcases Int.lt_or_le 0 (uvarint buf).2 with h | h
  · left
    obtain ⟨p, rest, h1, h2, h3, h4, h5⟩ :=
      uvarint_pos_iff.mp ⟨(rfl : uvarint buf = ((uvarint buf).1, (uvarint buf).2)), h⟩
    exact ⟨p, rest, _, h1, h2, h3, h4, by rw [← h5]; rfl⟩
  · right
    refine ⟨?_, h⟩
    rintro p rest v rfl hp hl hv
    rw [uvarint_of_isUvarint hp hl hv] at h
    have := hp.length_pos
    have h : (p.length : Int) ≤ 0 := h
    omega

theorem decodeUvarint64_cons (b : UInt8) (bs : Bytes) : decodeUvarint64 (b :: bs) =
    if (uvarint (b :: bs)).2 < 0 then .err
    else if (uvarint (b :: bs)).2 = 0 ∧ b ≠ 0 then .err
    else if (((b :: bs).length : Nat) : Int) < wrap64 ((uvarint (b :: bs)).2 + wrap64 ((uvarint (b :: bs)).1 : Nat)) then .err
    else .ok ((uvarint (b :: bs)).1, (uvarint (b :: bs)).2.toNat) := rfl

theorem decodeVarchar_cons (b : UInt8) (bs : Bytes) : decodeVarchar (b :: bs) =
    if (uvarint (b :: bs)).2 < 0 then .err
    else if (uvarint (b :: bs)).2 = 0 ∧ b ≠ 0 then .err
    else if (((b :: bs).length : Nat) : Int) < wrap64 ((uvarint (b :: bs)).2 + wrap64 ((uvarint (b :: bs)).1 : Nat)) then .err
    else (goSlice (b :: bs) (uvarint (b :: bs)).2
          (wrap64 ((uvarint (b :: bs)).2 + wrap64 ((uvarint (b :: bs)).1 : Nat)))) >>= fun d =>
      .ok (d, (wrap64 ((uvarint (b :: bs)).2 + wrap64 ((uvarint (b :: bs)).1 : Nat))).toNat) := rfl

theorem decodeVarint64_cons (b : UInt8) (bs : Bytes) : decodeVarint64 (b :: bs) =
    if (varint (b :: bs)).2 < 0 then .err
    else if (varint (b :: bs)).2 = 0 ∧ b ≠ 0 then .err
    else if (((b :: bs).length : Nat) : Int) < wrap64 ((varint (b :: bs)).2 + (varint (b :: bs)).1) then .err
    else .ok ((varint (b :: bs)).1, (varint (b :: bs)).2.toNat) := rfl

/-- No complete integer prefix: both decoders report an error. -/
theorem decode_no_prefix {b : UInt8} {bs : Bytes} (h : (uvarint (b :: bs)).2 ≤ 0) :
    decodeUvarint64 (b :: bs) = .err ∧ decodeVarchar (b :: bs) = .err ∧ decodeVarint64 (b :: bs) = .err := by
  have hv : (varint (b :: bs)).2 = (uvarint (b :: bs)).2 := rfl
  rcases Int.lt_or_le (uvarint (b :: bs)).2 0 with h' | h'
  · rw [decodeUvarint64_cons, decodeVarchar_cons, decodeVarint64_cons, hv]; simp [h']
  · have h0 : (uvarint (b :: bs)).2 = 0 := by omega
    have hb : b ≠ 0 := uvarint_zero (v := (uvarint (b :: bs)).1) (by rw [← h0])
    rw [decodeUvarint64_cons, decodeVarchar_cons, decodeVarint64_cons, hv]; simp [h0, hb]

/-- `DecodeUvarint64` on a buffer that starts with a complete integer. -/
theorem decodeUvarint64_prefix {p rest : Bytes} {v : Nat} (hp : IsUvarint p v) (hl : p.length ≤ 10)
    (hv : v < 2 ^ 64) (hgo : (p ++ rest).length < 2 ^ 63) :
    decodeUvarint64 (p ++ rest) =
      if rest.length < v ∧ p.length + v < 2 ^ 63 then .err else .ok (v, p.length) := by
  have hpos := hp.length_pos
  have hu := uvarint_of_isUvarint (rest := rest) hp hl hv
  obtain ⟨b, bs, hb⟩ : ∃ b bs, p ++ rest = b :: bs := by
    cases p with
    | nil => simp at hpos
    | cons b bs => exact ⟨b, bs ++ rest, rfl⟩
  have hlen : ((b :: bs).length : Int) = p.length + rest.length := by rw [← hb]; simp
  rw [hb] at hu hgo ⊢
  rw [decodeUvarint64_cons, hu]
  dsimp only
  rw [if_neg (by omega), if_neg (by omega), hlen]
  have hgo' : p.length + rest.length < 2 ^ 63 := by omega
  rcases Nat.lt_or_ge (p.length + v) (2 ^ 63) with h | h
  · rw [wrap64_sum_small h]
    by_cases h2 : rest.length < v
    · rw [if_pos (by omega), if_pos ⟨h2, h⟩]
    · rw [if_neg (by omega), if_neg (by omega)]; simp
  · have := wrap64_sum_big hl hv h
    rw [if_neg (by omega), if_neg (by omega)]; simp

/-- `DecodeVarchar` on a buffer that starts with a complete integer. -/
theorem decodeVarchar_prefix {p rest : Bytes} {v : Nat} (hp : IsUvarint p v) (hl : p.length ≤ 10)
    (hv : v < 2 ^ 64) (hgo : (p ++ rest).length < 2 ^ 63) :
    decodeVarchar (p ++ rest) =
      if 2 ^ 63 ≤ p.length + v then .panic
      else if rest.length < v then .err
      else .ok (rest.take v, p.length + v) := by
  have hpos := hp.length_pos
  have hu := uvarint_of_isUvarint (rest := rest) hp hl hv
  obtain ⟨b, bs, hb⟩ : ∃ b bs, p ++ rest = b :: bs := by
    cases p with
    | nil => simp at hpos
    | cons b bs => exact ⟨b, bs ++ rest, rfl⟩
  have hlen : ((b :: bs).length : Int) = p.length + rest.length := by rw [← hb]; simp
  rw [hb] at hu hgo ⊢
  rw [decodeVarchar_cons, hu]
  dsimp only
  rw [if_neg (by omega), if_neg (by omega), hlen]
  have hgo' : p.length + rest.length < 2 ^ 63 := by omega
  rcases Nat.lt_or_ge (p.length + v) (2 ^ 63) with h | h
  · rw [wrap64_sum_small h, if_neg (c := 2 ^ 63 ≤ p.length + v) (by omega)]
    by_cases h2 : rest.length < v
    · rw [if_pos (by omega), if_pos h2]
    · rw [if_neg (by omega), if_neg (c := rest.length < v) h2]
      unfold goSlice
      rw [if_pos (by omega), ← hb]
      have e1 : ((p.length : Int) + v).toNat = p.length + v := by omega
      simp [e1, List.take_append]
  · have := wrap64_sum_big hl hv h
    rw [if_neg (by omega), if_pos h]
    unfold goSlice
    rw [if_neg (by omega)]; rfl

end Poodle

namespace Poodle
open Spec

theorem encodeVarint64_eq {x : Int} (h0 : -2 ^ 63 ≤ x) (h1 : x < 2 ^ 63) :
    encodeVarint64 x = putUvarint (zigzag x) ∧ zigzag x < 2 ^ 64 := by
  unfold encodeVarint64 putVarint zigzag
  simp only [Nat.shiftLeft_eq]
  split
  · constructor
    · congr 1; omega
    · omega
  · constructor
    · congr 1; omega
    · omega

theorem varint_of_isUvarint {p rest : Bytes} {x : Int} (h0 : -2 ^ 63 ≤ x) (h1 : x < 2 ^ 63)
    (hp : IsUvarint p (zigzag x)) (hl : p.length ≤ 10) : varint (p ++ rest) = (x, (p.length : Int)) := by
  have hz : zigzag x < 2 ^ 64 := by unfold zigzag; split <;> omega
  unfold varint
  rw [uvarint_of_isUvarint hp hl hz]
  simp only [Nat.shiftRight_eq_div_pow, Prod.mk.injEq, and_true]
  unfold zigzag
  split <;> split <;> omega

/-- `DecodeVarint64` on a buffer that starts with a complete integer. -/
theorem decodeVarint64_prefix {p rest : Bytes} {x : Int} (h0 : -2 ^ 63 ≤ x) (h1 : x < 2 ^ 63)
    (hp : IsUvarint p (zigzag x)) (hl : p.length ≤ 10) (hgo : (p ++ rest).length < 2 ^ 63) :
    decodeVarint64 (p ++ rest) =
      if (rest.length : Int) < x ∧ p.length + x < 2 ^ 63 then .err else .ok (x, p.length) := by
  have hpos := hp.length_pos
  have hu := varint_of_isUvarint (rest := rest) h0 h1 hp hl
  obtain ⟨b, bs, hb⟩ : ∃ b bs, p ++ rest = b :: bs := by
    cases p with
    | nil => simp at hpos
    | cons b bs => exact ⟨b, bs ++ rest, rfl⟩
  have hlen : ((b :: bs).length : Int) = p.length + rest.length := by rw [← hb]; simp
  rw [hb] at hu hgo ⊢
  rw [decodeVarint64_cons, hu]
  dsimp only
  rw [if_neg (by omega), if_neg (by omega), hlen]
  have hgo' : p.length + rest.length < 2 ^ 63 := by omega
  rcases Int.lt_or_le (p.length + x) (2 ^ 63) with h | h
  · rw [wrap64_of_small (by omega) h]
    by_cases h2 : (rest.length : Int) < x
    · rw [if_pos (by omega), if_pos ⟨h2, h⟩]
    · rw [if_neg (by omega), if_neg (by omega)]; simp
  · have : wrap64 (p.length + x) < 0 := by
      unfold wrap64; rw [Int.bmod_def]; split <;> omega
    rw [if_neg (by omega), if_neg (by omega)]; simp

end Poodle
