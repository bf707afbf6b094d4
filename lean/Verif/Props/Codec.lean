import Verif.Lemmas.Codec

/-
Properties C01-C06: integer and varchar codecs (/repo/src/util/misc_util.go).

A Go slice has fewer than 2^63 elements; this appears as the hypothesis `buf.length < 2 ^ 63`.
-/

namespace Poodle.Props
open Poodle Poodle.Spec

/-! ### C01 Varchar round trip -/

/-- C01. -/
theorem C01_varchar_roundtrip (d rest : Bytes) (hgo : (encodeVarchar d ++ rest).length < 2 ^ 63) :
    decodeVarchar (encodeVarchar d ++ rest) = .ok (d, (encodeVarchar d).length) := by
  have hd : d.length < 2 ^ 63 := by
    simp only [encodeVarchar, List.length_append] at hgo; omega
  obtain ⟨h1, h2, -⟩ := putUvarint_spec (x := d.length) (by omega)
  simp only [encodeVarchar, List.append_assoc] at hgo ⊢
  rw [decodeVarchar_prefix h1 h2 (by omega) hgo]
  simp only [List.length_append] at hgo ⊢
  rw [if_neg (by omega), if_neg (by omega)]
  simp

example := C01_varchar_roundtrip [104, 105] [1, 2, 3] (by decide +kernel)

/-- C01, wire format: a varchar is a base-128 length followed by the bytes. -/
theorem C01_varchar_format (d : Bytes) (hd : d.length < 2 ^ 63) :
    ∃ p, encodeVarchar d = p ++ d ∧ IsUvarint p d.length ∧ p.length ≤ 10 := by
  obtain ⟨h1, h2, -⟩ := putUvarint_spec (x := d.length) (by omega)
  exact ⟨_, rfl, h1, h2⟩

example : (encodeVarchar [7, 8, 9] ++ [1, 2]).length < 2 ^ 63 ∧ encodeVarchar [7, 8, 9] = [3, 7, 8, 9] := by decide +kernel

/-! ### C02 Varchar decoding stays inside the buffer -/

/-- C02, complete description of success: a non-empty buffer is accepted exactly when it is a base-128 length
followed by that many bytes (and anything). -/
theorem C02_decodeVarchar_ok_iff (buf : Bytes) (hne : buf ≠ []) (hgo : buf.length < 2 ^ 63) (d : Bytes) (n : Nat) :
    decodeVarchar buf = .ok (d, n) ↔
      ∃ p rest, buf = p ++ d ++ rest ∧ IsUvarint p d.length ∧ p.length ≤ 10 ∧ n = p.length + d.length := by
  constructor
  · intro h
    rcases decode_cases buf hne with ⟨p, rest, v, rfl, hp, hl, hv, -⟩ | ⟨-, hz⟩
    · rw [decodeVarchar_prefix hp hl hv hgo] at h
      split at h
      · simp at h
      · split at h
        · simp at h
        · simp only [Res.ok.injEq, Prod.mk.injEq] at h
          obtain ⟨rfl, rfl⟩ := h
          have hlen : (rest.take v).length = v := by simp; omega
          exact ⟨p, rest.drop v, by simp, by rw [hlen]; exact hp, hl, by rw [hlen]⟩
    · obtain ⟨b, bs, rfl⟩ := List.exists_cons_of_ne_nil hne
      rw [(decode_no_prefix hz).2.1] at h; simp at h
  · rintro ⟨p, rest, rfl, hp, hl, rfl⟩
    rw [List.append_assoc] at hgo ⊢
    simp only [List.length_append] at hgo
    rw [decodeVarchar_prefix hp hl (by omega) (by simp only [List.length_append]; omega)]
    rw [if_neg (by omega), if_neg (by simp)]
    simp

example := C02_decodeVarchar_ok_iff [2, 104, 105, 7] (by decide) (by decide) [104, 105] 3

/-- C02: on success the consumed length is within the buffer, the result is the piece of the buffer ending there,
and no later byte matters. -/
theorem C02_decodeVarchar_in_bounds (buf : Bytes) (hne : buf ≠ []) (hgo : buf.length < 2 ^ 63) (d : Bytes) (n : Nat)
    (h : decodeVarchar buf = .ok (d, n)) :
    1 ≤ n ∧ n ≤ buf.length ∧ d.length ≤ n ∧ d = (buf.take n).drop (n - d.length) ∧
      ∀ buf' : Bytes, buf'.length < 2 ^ 63 → buf'.take n = buf.take n → decodeVarchar buf' = .ok (d, n) := by
  obtain ⟨p, rest, rfl, hp, hl, rfl⟩ := (C02_decodeVarchar_ok_iff buf hne hgo d n).mp h
  have hpos := hp.length_pos
  refine ⟨by omega, by simp only [List.length_append]; omega, by omega, by simp [List.take_append], ?_⟩
  intro buf' hgo' ht
  have ht : buf'.take (p.length + d.length) = p ++ d := by
    rw [ht, ← List.length_append, List.take_left]
  have hne' : buf' ≠ [] := by
    rintro rfl; simp at ht; rw [ht.1] at hpos; simp at hpos
  refine (C02_decodeVarchar_ok_iff buf' hne' hgo' _ _).mpr ⟨p, buf'.drop (p.length + d.length), ?_, hp, hl, rfl⟩
  rw [← ht, List.take_append_drop]

example := C02_decodeVarchar_in_bounds [2, 104, 105, 7] (by decide) (by decide) [104, 105] 3 (by decide +kernel)

/-- C02: the empty buffer decodes to the empty string, consuming nothing. -/
theorem C02_decodeVarchar_empty : decodeVarchar [] = .ok ([], 0) := rfl

example : decodeVarchar [2, 5, 6, 99] = .ok ([5, 6], 3) := by decide +kernel

/-! ### C03 Varchar decoding never crashes -/

/-- The full claim C03 (false of the code). -/
def VarcharDecodeNeverPanics : Prop := ∀ buf : Bytes, buf.length < 2 ^ 63 → decodeVarchar buf ≠ .panic

/-- C03 is false: a ten byte length prefix with value 2^64-1 makes `DecodeVarchar` slice with a bound below the
start. -/
theorem C03_refuted : ¬ VarcharDecodeNeverPanics := by
  intro h
  exact h [0xff, 0xff, 0xff, 0xff, 0xff, 0xff, 0xff, 0xff, 0xff, 0x01] (by decide +kernel) (by decide +kernel)

/-- C03, exact crash condition: `DecodeVarchar` panics if and only if the buffer starts with a base-128 length
whose value plus prefix size is at least 2^63. -/
theorem C03_decodeVarchar_panics_iff_partial (buf : Bytes) (hgo : buf.length < 2 ^ 63) :
    decodeVarchar buf = .panic ↔
      ∃ p rest v, buf = p ++ rest ∧ IsUvarint p v ∧ p.length ≤ 10 ∧ v < 2 ^ 64 ∧ 2 ^ 63 ≤ p.length + v := by
  constructor
  · intro h
    rcases buf with - | ⟨b, bs⟩
    · simp [decodeVarchar] at h
    · rcases decode_cases (b :: bs) (by simp) with ⟨p, rest, v, hb, hp, hl, hv, -⟩ | ⟨-, hz⟩
      · rw [hb] at h hgo
        rw [decodeVarchar_prefix hp hl hv hgo] at h
        split at h
        · rename_i h2
          exact ⟨p, rest, v, hb, hp, hl, hv, h2⟩
        · split at h <;> simp at h
      · rw [(decode_no_prefix hz).2.1] at h; simp at h
  · rintro ⟨p, rest, v, rfl, hp, hl, hv, h⟩
    rw [decodeVarchar_prefix hp hl hv hgo, if_pos h]

example := C03_decodeVarchar_panics_iff_partial (List.replicate 9 0xff ++ [0x01, 7]) (by decide)

/-- C03, what is safe: no buffer of at most 8 bytes can crash the decoder. -/
theorem C03_decodeVarchar_short_safe_partial (buf : Bytes) (h : buf.length ≤ 8) : decodeVarchar buf ≠ .panic := by
  intro hp
  obtain ⟨p, rest, v, rfl, hp, hl, hv, h2⟩ :=
    (C03_decodeVarchar_panics_iff_partial buf (by omega)).mp hp
  have := hp.lt_pow
  simp only [List.length_append] at h
  have : 128 ^ p.length ≤ 128 ^ 8 := Nat.pow_le_pow_right (by decide) (by omega)
  omega

example : decodeVarchar ([0x80, 0x80, 0x80, 0x80, 0x80, 0x80, 0x80, 0x80, 0x80, 0x01] ++ [1, 2, 3]) = .panic := by decide +kernel

/-! ### C04 Unsigned integer round trip -/

/-- The full claim C04 (false of the code). -/
def UvarintRoundTrip : Prop :=
  ∀ (x : Nat) (rest : Bytes), x < 2 ^ 64 → (encodeUvarint64 x ++ rest).length < 2 ^ 63 →
    decodeUvarint64 (encodeUvarint64 x ++ rest) = .ok (x, (encodeUvarint64 x).length)

/-- C04 is false: the integer 1 does not decode from its own encoding (the decoder demands as many further bytes as
the value it has read). -/
theorem C04_refuted : ¬ UvarintRoundTrip := by
  intro h
  have := h 1 [] (by decide +kernel) (by decide +kernel)
  revert this; decide +kernel

/-- C04, exact: the integer comes back if and only if at least that many bytes follow, or it is so large that the
check overflows; otherwise decoding is an error. -/
theorem C04_uvarint_roundtrip_partial (x : Nat) (rest : Bytes) (hx : x < 2 ^ 64)
    (hgo : (encodeUvarint64 x ++ rest).length < 2 ^ 63) :
    decodeUvarint64 (encodeUvarint64 x ++ rest) =
      if x ≤ rest.length ∨ 2 ^ 63 ≤ (encodeUvarint64 x).length + x then .ok (x, (encodeUvarint64 x).length) else .err := by
  obtain ⟨h1, h2, -⟩ := putUvarint_spec hx
  unfold encodeUvarint64 at hgo ⊢
  rw [decodeUvarint64_prefix h1 h2 hx hgo]
  by_cases h : rest.length < x ∧ (putUvarint x).length + x < 2 ^ 63
  · rw [if_pos h, if_neg (by omega)]
  · rw [if_neg h, if_pos (by omega)]

example := C04_uvarint_roundtrip_partial 300 [1, 2, 3] (by decide) (by decide +kernel)

/-- C04, decoder on arbitrary non-empty input: it never panics, and it succeeds exactly on a base-128 integer that is
followed by enough bytes (or overflows the check). -/
theorem C04_decodeUvarint64_ok_iff_partial (buf : Bytes) (hne : buf ≠ []) (hgo : buf.length < 2 ^ 63) (v n : Nat) :
    decodeUvarint64 buf = .ok (v, n) ↔
      ∃ p rest, buf = p ++ rest ∧ IsUvarint p v ∧ p.length ≤ 10 ∧ v < 2 ^ 64 ∧ n = p.length ∧
        (v ≤ rest.length ∨ 2 ^ 63 ≤ p.length + v) := by
  constructor
  · intro h
    rcases decode_cases buf hne with ⟨p, rest, w, rfl, hp, hl, hv, -⟩ | ⟨-, hz⟩
    · rw [decodeUvarint64_prefix hp hl hv hgo] at h
      split at h
      · simp at h
      · simp only [Res.ok.injEq, Prod.mk.injEq] at h
        obtain ⟨rfl, rfl⟩ := h
        exact ⟨p, rest, rfl, hp, hl, hv, rfl, by omega⟩
    · obtain ⟨b, bs, rfl⟩ := List.exists_cons_of_ne_nil hne
      rw [(decode_no_prefix hz).1] at h; simp at h
  · rintro ⟨p, rest, rfl, hp, hl, hv, rfl, h⟩
    rw [decodeUvarint64_prefix hp hl hv hgo, if_neg (by omega)]

example := C04_decodeUvarint64_ok_iff_partial [0xac, 0x02, 7] (by decide) (by decide) 300 2

/-- C04: the integer decoder never panics. -/
theorem C04_decodeUvarint64_no_panic_partial (buf : Bytes) : decodeUvarint64 buf ≠ .panic := by
  rcases buf with - | ⟨b, bs⟩
  · simp [decodeUvarint64]
  · rw [decodeUvarint64_cons]; split_ifs <;> simp

example : decodeUvarint64 (encodeUvarint64 300 ++ List.replicate 300 7) = .ok (300, 2) := by decide +kernel

/-! ### C05 Signed integer round trip -/

/-- The full claim C05 (false of the code). -/
def VarintRoundTrip : Prop :=
  ∀ (x : Int) (rest : Bytes), -2 ^ 63 ≤ x → x < 2 ^ 63 → (encodeVarint64 x ++ rest).length < 2 ^ 63 →
    decodeVarint64 (encodeVarint64 x ++ rest) = .ok (x, (encodeVarint64 x).length)

/-- C05 is false: 1 does not decode from its own encoding. -/
theorem C05_refuted : ¬ VarintRoundTrip := by
  intro h
  have := h 1 [] (by decide +kernel) (by decide +kernel) (by decide)
  revert this; decide +kernel

/-- C05, exact: negative integers and zero always round trip; a positive integer does if and only if at least that
many bytes follow, or it is so large that the check overflows; otherwise decoding is an error. -/
theorem C05_varint_roundtrip_partial (x : Int) (rest : Bytes) (h0 : -2 ^ 63 ≤ x) (h1 : x < 2 ^ 63)
    (hgo : (encodeVarint64 x ++ rest).length < 2 ^ 63) :
    decodeVarint64 (encodeVarint64 x ++ rest) =
      if x ≤ rest.length ∨ 2 ^ 63 ≤ (encodeVarint64 x).length + x then .ok (x, (encodeVarint64 x).length) else .err := by
  obtain ⟨he, hz⟩ := encodeVarint64_eq h0 h1
  obtain ⟨hp, hl, -⟩ := putUvarint_spec hz
  rw [he] at hgo ⊢
  rw [decodeVarint64_prefix h0 h1 hp hl hgo]
  by_cases h : (rest.length : Int) < x ∧ (putUvarint (zigzag x)).length + x < 2 ^ 63
  · rw [if_pos h, if_neg (by omega)]
  · rw [if_neg h, if_pos (by omega)]

example := C05_varint_roundtrip_partial (-300) [1, 2, 3] (by decide) (by decide) (by decide +kernel)

/-- C05: the wire format is the base-128 form of the zig-zag image. -/
theorem C05_varint_format (x : Int) (h0 : -2 ^ 63 ≤ x) (h1 : x < 2 ^ 63) :
    IsUvarint (encodeVarint64 x) (zigzag x) ∧ (encodeVarint64 x).length ≤ 10 := by
  obtain ⟨he, hz⟩ := encodeVarint64_eq h0 h1
  obtain ⟨hp, hl, -⟩ := putUvarint_spec hz
  rw [he]; exact ⟨hp, hl⟩

example := C05_varint_format (-300) (by decide) (by decide)

/-- C05: the signed integer decoder never panics. -/
theorem C05_decodeVarint64_no_panic_partial (buf : Bytes) : decodeVarint64 buf ≠ .panic := by
  rcases buf with - | ⟨b, bs⟩
  · simp [decodeVarint64]
  · rw [decodeVarint64_cons]; split_ifs <;> simp

example : decodeVarint64 (encodeVarint64 (-1000)) = .ok (-1000, 2) := by decide +kernel

/-! ### C06 Integer encodings are canonical, injective and 1..10 bytes -/

/-- C06: format, size bounds and minimality. -/
theorem C06_uvarint_canonical (x : Nat) (hx : x < 2 ^ 64) :
    IsUvarint (encodeUvarint64 x) x ∧ 1 ≤ (encodeUvarint64 x).length ∧ (encodeUvarint64 x).length ≤ 10 ∧
      x < 128 ^ (encodeUvarint64 x).length ∧
      (1 < (encodeUvarint64 x).length → 128 ^ ((encodeUvarint64 x).length - 1) ≤ x) := by
  obtain ⟨h1, h2, h3⟩ := putUvarint_spec hx
  exact ⟨h1, h1.length_pos, h2, h1.lt_pow, h3⟩

example := C06_uvarint_canonical 300 (by decide)

/-- C06: minimality among all base-128 forms. -/
theorem C06_uvarint_minimal (x : Nat) (hx : x < 2 ^ 64) (p : Bytes) (hp : IsUvarint p x) :
    (encodeUvarint64 x).length ≤ p.length := by
  obtain ⟨-, -, -, -, h⟩ := C06_uvarint_canonical x hx
  have h1 := hp.lt_pow
  have := hp.length_pos
  by_contra hc
  have h2 := h (by omega)
  have : 128 ^ p.length ≤ 128 ^ ((encodeUvarint64 x).length - 1) := Nat.pow_le_pow_right (by decide) (by omega)
  omega

example := C06_uvarint_minimal 5 (by decide) [0x85, 0x80, 0x00] (.more 0x85 _ _ (by decide) (.more 0x80 _ _ (by decide) (.last 0 (by decide))))

/-- C06: prefix freedom (hence injectivity): if encodings followed by anything coincide, the integers are equal. -/
theorem C06_uvarint_prefix_free (x y : Nat) (hx : x < 2 ^ 64) (hy : y < 2 ^ 64) (r r' : Bytes)
    (h : encodeUvarint64 x ++ r = encodeUvarint64 y ++ r') : x = y ∧ r = r' := by
  obtain ⟨h1, h2⟩ := (putUvarint_spec hx).1.prefix_unique (putUvarint_spec hy).1 h
  unfold encodeUvarint64 at h
  rw [h1] at h
  exact ⟨h2, List.append_cancel_left h⟩

example : (encodeUvarint64 (2 ^ 64 - 1)).length = 10 ∧ encodeUvarint64 300 = [0xac, 0x02] := by decide +kernel

end Poodle.Props
