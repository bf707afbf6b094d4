import Verif.Spec.KeyWire
import Verif.Props.Scheme

/-
C202, and the exact conditions of C90: which bytes are keys and schemes.
-/

namespace Poodle.Props
open Poodle Poodle.Spec

theorem wireString_length {buf d rest : Bytes} (h : WireString buf d rest) : d.length + rest.length ≤ buf.length := by
  cases h with
  | absent => simp
  | present p d rest _ _ => simp only [List.length_append]; omega

theorem wireStrings_length {buf : Bytes} {ds : List Bytes} {rest : Bytes} (h : WireStrings buf ds rest) : rest.length ≤ buf.length := by
  induction h with
  | nil => simp
  | cons buf d mid ds rest h _ ih => have := wireString_length h; omega

theorem wireString_nil {buf d rest : Bytes} (h : WireString buf d rest) (hb : buf = []) : d = [] ∧ rest = [] := by
  cases h with
  | absent => exact ⟨rfl, rfl⟩
  | present p d rest h1 h2 =>
    have := h1.length_pos
    have := congrArg List.length hb
    simp only [List.length_append, List.length_nil] at this; omega

theorem varchar_ok_iff (buf : Bytes) (hgo : buf.length < 2 ^ 63) (d : Bytes) (n : Nat) :
    decodeVarchar buf = .ok (d, n) ↔ n ≤ buf.length ∧ WireString buf d (buf.drop n) := by
  by_cases hne : buf = []
  · subst hne
    rw [C02_decodeVarchar_empty]
    simp only [Res.ok.injEq, Prod.mk.injEq, List.length_nil, List.drop_nil, Nat.le_zero]
    constructor
    · rintro ⟨rfl, rfl⟩; exact ⟨rfl, .absent⟩
    · rintro ⟨rfl, h⟩
      exact ⟨(wireString_nil h rfl).1.symm, rfl⟩
  · rw [C02_decodeVarchar_ok_iff buf hne hgo]
    constructor
    · rintro ⟨p, rest, rfl, h1, h2, rfl⟩
      refine ⟨by simp only [List.length_append]; omega, ?_⟩
      have : (p ++ d ++ rest).drop (p.length + d.length) = rest := by
        rw [← List.length_append, List.drop_left]
      rw [this]
      exact .present p d rest h1 h2
    · rintro ⟨hn, h⟩
      generalize hr : buf.drop n = r at h
      cases h with
      | absent => exact absurd rfl hne
      | present p d rest h1 h2 =>
        refine ⟨p, r, rfl, h1, h2, ?_⟩
        have := congrArg List.length hr
        simp only [List.length_drop, List.length_append] at this hn
        omega

theorem varchar_panic_iff (buf : Bytes) (hgo : buf.length < 2 ^ 63) : decodeVarchar buf = .panic ↔ WireOverflow buf :=
  C03_decodeVarchar_panics_iff_partial buf hgo

/-- What is left determines how much was read. -/
theorem drop_of_suffix {buf rest : Bytes} {n : Nat} (hn : n ≤ buf.length) (h : buf.drop n = rest) : n = buf.length - rest.length := by
  have := congrArg List.length h
  simp only [List.length_drop] at this
  omega

theorem wireString_drop {buf d rest : Bytes} (h : WireString buf d rest) : buf.drop (buf.length - rest.length) = rest := by
  cases h with
  | absent => rfl
  | present p d rest _ _ =>
    have : (p ++ d ++ rest).length - rest.length = (p ++ d).length := by simp only [List.length_append]; omega
    rw [this, List.drop_left]

theorem varchar_of_wire {buf d rest : Bytes} (hgo : buf.length < 2 ^ 63) (h : WireString buf d rest) :
    decodeVarchar buf = .ok (d, buf.length - rest.length) := by
  rw [varchar_ok_iff buf hgo, wireString_drop h]
  exact ⟨by omega, h⟩

theorem subKeys_of_wire {buf : Bytes} {ds : List Bytes} {rest : Bytes} (hgo : buf.length < 2 ^ 63) (h : WireStrings buf ds rest) :
    decodeSubKeys ds.length buf = .ok (ds.map some, buf.length - rest.length) := by
  induction h with
  | nil buf => simp [decodeSubKeys]
  | cons buf d mid ds rest h h' ih =>
    have hl := wireString_length h
    have hl' := wireStrings_length h'
    simp only [List.length_cons, decodeSubKeys]
    rw [varchar_of_wire hgo h, Res.bind_ok]
    simp only [wireString_drop h]
    rw [ih (by omega), Res.bind_ok]
    simp only [List.map_cons, Res.ok.injEq, Prod.mk.injEq, true_and]
    omega

theorem wire_of_subKeys : ∀ (n : Nat) (buf : Bytes) (ks : List Slice) (m : Nat), buf.length < 2 ^ 63 → decodeSubKeys n buf = .ok (ks, m) →
    ∃ ds, ks = ds.map some ∧ ds.length = n ∧ m ≤ buf.length ∧ WireStrings buf ds (buf.drop m)
  | 0, buf, ks, m, _, h => by
    simp only [decodeSubKeys, Res.ok.injEq, Prod.mk.injEq] at h
    obtain ⟨rfl, rfl⟩ := h
    exact ⟨[], rfl, rfl, by omega, .nil _⟩
  | n + 1, buf, ks, m, hgo, h => by
    rw [decodeSubKeys] at h
    rcases e : decodeVarchar buf with ⟨d, len⟩ | - | -
    · rw [e, Res.bind_ok] at h
      simp only at h
      obtain ⟨hlen, hw⟩ := (varchar_ok_iff buf hgo d len).mp e
      rcases e2 : decodeSubKeys n (buf.drop len) with ⟨ks', m'⟩ | - | -
      · rw [e2, Res.bind_ok] at h
        simp only [Res.ok.injEq, Prod.mk.injEq] at h
        obtain ⟨rfl, rfl⟩ := h
        obtain ⟨ds, rfl, rfl, hm, hws⟩ := wire_of_subKeys n _ _ _ (by rw [List.length_drop]; omega) e2
        rw [List.length_drop] at hm
        refine ⟨d :: ds, rfl, rfl, by omega, ?_⟩
        rw [List.drop_drop] at hws
        exact .cons _ _ _ _ _ hw hws
      · rw [e2] at h; simp at h
      · rw [e2] at h; simp at h
    · rw [e] at h; simp at h
    · rw [e] at h; simp at h

theorem subKeys_panic_iff : ∀ (n : Nat) (buf : Bytes), buf.length < 2 ^ 63 → (decodeSubKeys n buf = .panic ↔
    ∃ ds rest, WireStrings buf ds rest ∧ ds.length < n ∧ WireOverflow rest)
  | 0, buf, _ => by simp [decodeSubKeys]
  | n + 1, buf, hgo => by
    have ih := fun len => subKeys_panic_iff n (buf.drop len) (by rw [List.length_drop]; omega)
    rw [decodeSubKeys]
    constructor
    · intro h
      rcases e : decodeVarchar buf with ⟨d, len⟩ | - | -
      · rw [e, Res.bind_ok] at h
        simp only at h
        obtain ⟨hlen, hw⟩ := (varchar_ok_iff buf hgo d len).mp e
        have hp : decodeSubKeys n (buf.drop len) = .panic := by
          rcases e2 : decodeSubKeys n (buf.drop len) with ⟨ks', m'⟩ | - | -
          · rw [e2] at h; simp at h
          · rw [e2] at h; simp at h
          · rfl
        obtain ⟨ds, rest, h1, h2, h3⟩ := (ih len).mp hp
        exact ⟨d :: ds, rest, .cons _ _ _ _ _ hw h1, by simpa using h2, h3⟩
      · rw [e] at h; simp at h
      · exact ⟨[], buf, .nil _, by simp, (varchar_panic_iff buf hgo).mp e⟩
    · rintro ⟨ds, rest, h1, h2, h3⟩
      cases h1 with
      | nil => rw [(varchar_panic_iff buf hgo).mpr h3]; rfl
      | cons _ d mid ds _ hw hws =>
        have e := varchar_of_wire hgo hw
        rw [e, Res.bind_ok]
        simp only
        have := (ih (buf.length - mid.length)).mpr ⟨ds, rest, by rw [wireString_drop hw]; exact hws, by simpa using h2, h3⟩
        rw [this]; rfl

/-- Counted lists of strings, as in keys and schemes: the number, then the strings. -/
theorem wireList_ok_iff (buf : Bytes) (hgo : buf.length ≤ 11728124029610) (ks : List Slice) (m : Nat) :
    (∃ n len m', decodeUvarint64 buf = .ok (n, len) ∧ ¬ n > maxMake24 ∧ decodeSubKeys n (buf.drop len) = .ok (ks, m') ∧ m = len + m') ↔
      m ≤ buf.length ∧ ∃ ds, ks = ds.map some ∧ WireList buf ds (buf.drop m) := by
  have hm : maxMake24 = 11728124029610 := by decide
  have hgo' : buf.length < 2 ^ 63 := by omega
  by_cases hne : buf = []
  · subst hne
    have e : decodeUvarint64 [] = .ok (0, 0) := rfl
    rw [e]
    constructor
    · rintro ⟨n, len, m', h, -, h2, rfl⟩
      simp only [Res.ok.injEq, Prod.mk.injEq] at h
      obtain ⟨rfl, rfl⟩ := h
      simp only [decodeSubKeys, Res.ok.injEq, Prod.mk.injEq] at h2
      obtain ⟨rfl, rfl⟩ := h2
      exact ⟨by simp, [], rfl, .inl ⟨rfl, rfl, rfl⟩⟩
    · rintro ⟨h1, ds, rfl, h⟩
      simp only [List.length_nil, Nat.le_zero] at h1
      subst h1
      refine ⟨0, 0, 0, rfl, by decide, ?_, rfl⟩
      rcases h with ⟨-, rfl, -⟩ | ⟨p, body, h1, h2, -⟩
      · rfl
      · have := h2.length_pos
        have := congrArg List.length h1
        simp only [List.length_append, List.length_nil] at this; omega
  · constructor
    · rintro ⟨n, len, m', h, hn, h2, rfl⟩
      obtain ⟨p, rest, rfl, h3, h4, h5, rfl, h6⟩ := (C04_decodeUvarint64_ok_iff_partial buf hne hgo' n len).mp h
      rw [List.drop_left] at h2
      simp only [List.length_append] at hgo hgo'
      obtain ⟨ds, rfl, rfl, h8, h9⟩ := wire_of_subKeys n rest ks m' (by omega) h2
      refine ⟨by simp only [List.length_append]; omega, ds, rfl, .inr ⟨p, rest, rfl, h3, h4, by omega, ?_⟩⟩
      rw [← List.drop_drop, List.drop_left]
      exact h9
    · rintro ⟨hml, ds, rfl, h⟩
      rcases h with ⟨h, -⟩ | ⟨p, body, rfl, h2, h3, h4, h5⟩
      · exact absurd h hne
      · have hl := wireStrings_length h5
        simp only [List.length_append] at hgo hgo' hml
        refine ⟨ds.length, p.length, body.length - ((p ++ body).drop m).length, ?_, by omega, ?_, ?_⟩
        · rw [C04_decodeUvarint64_ok_iff_partial _ hne (by simp only [List.length_append]; omega)]
          exact ⟨p, body, rfl, h2, h3, by omega, rfl, .inl h4⟩
        · rw [List.drop_left]
          exact subKeys_of_wire (by omega) h5
        · simp only [List.length_drop, List.length_append] at hl ⊢
          omega

theorem wireList_panic_iff (buf : Bytes) (hgo : buf.length ≤ 11728124029610) :
    (∃ n len, decodeUvarint64 buf = .ok (n, len) ∧ (n > maxMake24 ∨ ¬ n > maxMake24 ∧ decodeSubKeys n (buf.drop len) = .panic)) ↔
      WireListOverflow buf := by
  have hm : maxMake24 = 11728124029610 := by decide
  have hgo' : buf.length < 2 ^ 63 := by omega
  by_cases hne : buf = []
  · subst hne
    have e : decodeUvarint64 [] = .ok (0, 0) := rfl
    rw [e]
    constructor
    · rintro ⟨n, len, h, h2⟩
      simp only [Res.ok.injEq, Prod.mk.injEq] at h
      obtain ⟨rfl, rfl⟩ := h
      rcases h2 with h2 | ⟨-, h2⟩
      · omega
      · simp [decodeSubKeys] at h2
    · rintro (⟨p, rest, v, h, h2, -⟩ | ⟨p, body, n, ds, rest, h, h2, -⟩) <;>
      · have := h2.length_pos
        have := congrArg List.length h
        simp only [List.length_append, List.length_nil] at this; omega
  · constructor
    · rintro ⟨n, len, h, h2⟩
      obtain ⟨p, rest, rfl, h3, h4, h5, rfl, h6⟩ := (C04_decodeUvarint64_ok_iff_partial buf hne hgo' n len).mp h
      rw [List.drop_left] at h2
      simp only [List.length_append] at hgo hgo'
      by_cases hov : 2 ^ 63 ≤ p.length + n
      · exact .inl ⟨p, rest, n, rfl, h3, h4, h5, hov⟩
      · rcases h2 with h2 | ⟨-, h2⟩
        · omega
        · obtain ⟨ds, r, h7, h8, h9⟩ := (subKeys_panic_iff n rest (by omega)).mp h2
          exact .inr ⟨p, rest, n, ds, r, rfl, h3, h4, by omega, h7, h8, h9⟩
    · rintro (⟨p, rest, v, rfl, h2, h3, h4, h5⟩ | ⟨p, body, n, ds, rest, rfl, h2, h3, h4, h5, h6, h7⟩)
      · refine ⟨v, p.length, ?_, .inl (by omega)⟩
        rw [C04_decodeUvarint64_ok_iff_partial _ hne hgo']
        exact ⟨p, rest, rfl, h2, h3, h4, rfl, .inr h5⟩
      · simp only [List.length_append] at hgo hgo'
        refine ⟨n, p.length, ?_, .inr ⟨by omega, ?_⟩⟩
        · rw [C04_decodeUvarint64_ok_iff_partial _ hne (by simp only [List.length_append]; omega)]
          exact ⟨p, body, rfl, h2, h3, by omega, rfl, .inl h4⟩
        · rw [List.drop_left, subKeys_panic_iff n body (by omega)]
          exact ⟨ds, rest, h5, h6, h7⟩

/-! ### C202 Keys and schemes are decoded exactly if they are well formed -/

theorem wireStrings_drop {buf : Bytes} {ds : List Bytes} {rest : Bytes} (h : WireStrings buf ds rest) : buf.drop (buf.length - rest.length) = rest := by
  induction h with
  | nil => simp
  | cons buf d mid ds rest h h' ih =>
    have h1 := wireString_length h
    have h2 := wireStrings_length h'
    have h3 := wireString_drop h
    rw [← ih, ← h3, List.drop_drop]
    simp only [List.length_drop]
    congr 1; omega

theorem wireList_drop {buf : Bytes} {ds : List Bytes} {rest : Bytes} (h : WireList buf ds rest) :
    rest.length ≤ buf.length ∧ buf.drop (buf.length - rest.length) = rest := by
  rcases h with ⟨rfl, -, rfl⟩ | ⟨p, body, rfl, -, -, -, h⟩
  · simp
  · have h1 := wireStrings_length h
    refine ⟨by simp only [List.length_append]; omega, ?_⟩
    have : (p ++ body).length - rest.length = p.length + (body.length - rest.length) := by simp only [List.length_append]; omega
    rw [this, ← List.drop_drop, List.drop_left, wireStrings_drop h]

theorem wireList_rest (buf : Bytes) (ks : List Slice) (m : Nat) : (m ≤ buf.length ∧ ∃ ds, ks = ds.map some ∧ WireList buf ds (buf.drop m)) ↔
    ∃ ds rest, ks = ds.map some ∧ WireList buf ds rest ∧ m + rest.length = buf.length := by
  constructor
  · rintro ⟨h, ds, h1, h2⟩
    exact ⟨ds, _, h1, h2, by rw [List.length_drop]; omega⟩
  · rintro ⟨ds, rest, h1, h2, h3⟩
    have := (wireList_drop h2).2
    rw [show buf.length - rest.length = m by omega] at this
    exact ⟨by omega, ds, h1, by rw [this]; exact h2⟩

/-- C202: exactly which bytes decode to which key, and how many of them are consumed. -/
theorem C202_key_ok_iff_partial (buf : Bytes) (hgo : buf.length ≤ 11728124029610) (k : MappedKey) (m : Nat) :
    newMappedKey buf = .ok (k, m) ↔ k.buf = buf ∧ ∃ ds rest, k.keys = ds.map some ∧ WireList buf ds rest ∧ m + rest.length = buf.length := by
  rw [← wireList_rest, ← wireList_ok_iff buf hgo k.keys m]
  obtain ⟨ks, b⟩ := k
  unfold newMappedKey
  rcases e : decodeUvarint64 buf with ⟨n, len⟩ | - | -
  · simp only [Res.bind_ok, Res.ok.injEq, Prod.mk.injEq]
    by_cases hn : n > maxMake24
    · rw [if_pos hn]
      constructor
      · intro h; simp at h
      · rintro ⟨-, n', len', m', ⟨rfl, rfl⟩, h, -⟩; exact absurd hn h
    · rw [if_neg hn]
      rcases e2 : decodeSubKeys n (buf.drop len) with ⟨ks', m'⟩ | - | -
      · simp only [Res.bind_ok, Res.ok.injEq, Prod.mk.injEq, MappedKey.mk.injEq]
        constructor
        · rintro ⟨⟨rfl, rfl⟩, rfl⟩
          exact ⟨rfl, n, len, m', ⟨rfl, rfl⟩, hn, e2, rfl⟩
        · rintro ⟨rfl, n', len', m'', ⟨rfl, rfl⟩, -, h, rfl⟩
          rw [e2] at h
          simp only [Res.ok.injEq, Prod.mk.injEq] at h
          obtain ⟨rfl, rfl⟩ := h
          exact ⟨⟨rfl, rfl⟩, rfl⟩
      · constructor
        · intro h; simp at h
        · rintro ⟨rfl, n', len', m'', ⟨rfl, rfl⟩, -, h, rfl⟩
          rw [e2] at h; simp at h
      · constructor
        · intro h; simp at h
        · rintro ⟨rfl, n', len', m'', ⟨rfl, rfl⟩, -, h, rfl⟩
          rw [e2] at h; simp at h
  · simp
  · exact absurd e (C04_decodeUvarint64_no_panic_partial _)

/-- C202: exactly which bytes make decoding a key panic. -/
theorem C202_key_panics_iff_partial (buf : Bytes) (hgo : buf.length ≤ 11728124029610) : newMappedKey buf = .panic ↔ WireListOverflow buf := by
  rw [← wireList_panic_iff buf hgo]
  unfold newMappedKey
  rcases e : decodeUvarint64 buf with ⟨n, len⟩ | - | -
  · simp only [Res.bind_ok, Res.ok.injEq, Prod.mk.injEq]
    by_cases hn : n > maxMake24
    · rw [if_pos hn]
      exact ⟨fun _ => ⟨n, len, ⟨rfl, rfl⟩, .inl hn⟩, fun _ => rfl⟩
    · rw [if_neg hn]
      constructor
      · intro h
        refine ⟨n, len, ⟨rfl, rfl⟩, .inr ⟨hn, ?_⟩⟩
        rcases e2 : decodeSubKeys n (buf.drop len) with ⟨ks, m⟩ | - | -
        · rw [e2] at h; simp at h
        · rw [e2] at h; simp at h
        · rfl
      · rintro ⟨n', len', ⟨rfl, rfl⟩, h | ⟨-, h⟩⟩
        · exact absurd h hn
        · rw [h]; rfl
  · simp
  · exact absurd e (C04_decodeUvarint64_no_panic_partial _)

theorem decodeBuckets_ok (buf : Bytes) (ks : List Slice) (m : Nat) : decodeBuckets buf = .ok (ks, m) ↔ newMappedKey buf = .ok (⟨ks, buf⟩, m) := by
  unfold decodeBuckets newMappedKey
  rcases decodeUvarint64 buf with ⟨n, len⟩ | - | -
  · simp only [Res.bind_ok]
    split
    · simp
    · rcases decodeSubKeys n (buf.drop len) with ⟨ks', m'⟩ | - | - <;> simp
  · simp
  · simp

theorem decodeBuckets_panic (buf : Bytes) : decodeBuckets buf = .panic ↔ newMappedKey buf = .panic := by
  unfold decodeBuckets newMappedKey
  rcases decodeUvarint64 buf with ⟨n, len⟩ | - | -
  · simp only [Res.bind_ok]
    split
    · simp
    · rcases decodeSubKeys n (buf.drop len) with ⟨ks', m'⟩ | - | - <;> simp
  · simp
  · simp

/-- C202: exactly which bytes decode to which scheme, and how many of them are consumed: any first byte, the domain, the tablet and the
buckets. -/
theorem C202_scheme_ok_iff_partial (buf : Bytes) (hgo : buf.length ≤ 11728124029610) (s : Scheme) (m : Nat) :
    decodeScheme buf = .ok (s, m) ↔
      ∃ b body d mid t tail ds rest, buf = b :: body ∧ WireString body d mid ∧ WireString mid t tail ∧ WireList tail ds rest ∧
        m + rest.length = buf.length ∧ s = ⟨some d, some t, some (ds.map some)⟩ := by
  rcases buf with - | ⟨b, body⟩
  · simp [decodeScheme]
  simp only [List.length_cons] at hgo ⊢
  constructor
  · intro h
    rw [decodeScheme_cons] at h
    obtain ⟨⟨d, n1⟩, e1, h⟩ := Res.bind_eq_ok.mp h
    obtain ⟨⟨t, n2⟩, e2, h⟩ := Res.bind_eq_ok.mp h
    obtain ⟨⟨bs, n3⟩, e3, h⟩ := Res.bind_eq_ok.mp h
    simp only [Res.ok.injEq, Prod.mk.injEq] at h e2 e3
    obtain ⟨rfl, rfl⟩ := h
    obtain ⟨l1, w1⟩ := (varchar_ok_iff body (by omega) d n1).mp e1
    obtain ⟨l2, w2⟩ := (varchar_ok_iff _ (by rw [List.length_drop]; omega) t n2).mp e2
    rw [decodeBuckets_ok, C202_key_ok_iff_partial _ (by simp only [List.length_drop]; omega)] at e3
    obtain ⟨-, ds, rest, e4, e5, e6⟩ := e3
    simp only [List.length_drop] at e6 l2
    exact ⟨b, body, d, _, t, _, ds, rest, rfl, w1, w2, e5, by omega, by rw [← e4]⟩
  · rintro ⟨b', body', d, mid, t, tail, ds, rest, h0, w1, w2, w3, h, rfl⟩
    obtain ⟨rfl, rfl⟩ := List.cons.inj h0
    have l1 := wireString_length w1
    have l2 := wireString_length w2
    have l3 := (wireList_drop w3).1
    rw [decodeScheme_cons, varchar_of_wire (by omega) w1, Res.bind_ok]
    simp only [wireString_drop w1]
    rw [varchar_of_wire (by omega) w2, Res.bind_ok]
    simp only [wireString_drop w2]
    rw [(decodeBuckets_ok tail (ds.map some) (tail.length - rest.length)).mpr
      ((C202_key_ok_iff_partial tail (by omega) _ _).mpr ⟨rfl, ds, rest, rfl, w3, by omega⟩), Res.bind_ok]
    simp only [Res.ok.injEq, Prod.mk.injEq, true_and]
    omega

/-- C90: exactly which bytes make decoding a scheme panic: none at all, or an overflowing length of the domain, of the tablet, or among the
buckets. -/
theorem C90_panics_iff_partial (buf : Bytes) (hgo : buf.length ≤ 11728124029610) : decodeScheme buf = .panic ↔
    buf = [] ∨ ∃ b body, buf = b :: body ∧ (WireOverflow body ∨ ∃ d mid, WireString body d mid ∧ (WireOverflow mid ∨
      ∃ t tail, WireString mid t tail ∧ WireListOverflow tail)) := by
  rcases buf with - | ⟨b, body⟩
  · simp [decodeScheme]
  simp only [List.length_cons] at hgo
  constructor
  · intro h
    refine .inr ⟨b, body, rfl, ?_⟩
    rw [decodeScheme_cons] at h
    rcases e1 : decodeVarchar body with ⟨d, n1⟩ | - | -
    · right
      obtain ⟨l1, w1⟩ := (varchar_ok_iff body (by omega) d n1).mp e1
      refine ⟨d, _, w1, ?_⟩
      rw [e1, Res.bind_ok] at h
      simp only at h
      rcases e2 : decodeVarchar (body.drop n1) with ⟨t, n2⟩ | - | -
      · right
        obtain ⟨l2, w2⟩ := (varchar_ok_iff _ (by rw [List.length_drop]; omega) t n2).mp e2
        refine ⟨t, _, w2, ?_⟩
        rw [e2, Res.bind_ok] at h
        simp only at h
        rw [← C202_key_panics_iff_partial _ (by simp only [List.length_drop]; omega), ← decodeBuckets_panic]
        rcases e3 : decodeBuckets ((body.drop n1).drop n2) with ⟨bs, n3⟩ | - | -
        · rw [e3] at h; simp at h
        · rw [e3] at h; simp at h
        · rfl
      · rw [e2] at h; simp at h
      · left; exact (varchar_panic_iff _ (by rw [List.length_drop]; omega)).mp e2
    · rw [e1] at h; simp at h
    · left; exact (varchar_panic_iff _ (by omega)).mp e1
  · rintro (h | ⟨b', body', h0, h⟩)
    · simp at h
    · obtain ⟨rfl, rfl⟩ := List.cons.inj h0
      rw [decodeScheme_cons]
      rcases h with h | ⟨d, mid, w1, h⟩
      · rw [(varchar_panic_iff _ (by omega)).mpr h]; rfl
      · have l1 := wireString_length w1
        rw [varchar_of_wire (by omega) w1, Res.bind_ok]
        simp only [wireString_drop w1]
        rcases h with h | ⟨t, tail, w2, h⟩
        · rw [(varchar_panic_iff _ (by omega)).mpr h]; rfl
        · have l2 := wireString_length w2
          rw [varchar_of_wire (by omega) w2, Res.bind_ok]
          simp only [wireString_drop w2]
          rw [(decodeBuckets_panic tail).mpr ((C202_key_panics_iff_partial tail (by omega)).mpr h)]; rfl

/-- The full claim of C202: nothing panics, and whatever decodes to a key has as many strings as it counts: a byte at least for the number, and
for the length of each. -/
def KeysWellFormed : Prop := ∀ buf : Bytes, buf ≠ [] → newMappedKey buf ≠ .panic ∧
  ∀ (k : MappedKey) (n : Nat), newMappedKey buf = .ok (k, n) → (k.keys.map fun s => 1 + s.bytes.length).sum < n

/-- C202 does not hold: a length of 2^63 panics, and missing strings at the end are read as empty ones. -/
theorem C202_refuted : ¬ KeysWellFormed ∧
    newMappedKey [0x80, 0x80, 0x80, 0x80, 0x80, 0x80, 0x80, 0x80, 0x80, 0x01] = .panic ∧
    newMappedKey [2, 1, 7] = .ok (⟨[some [7], some []], [2, 1, 7]⟩, 3) := by
  have h1 : newMappedKey [0x80, 0x80, 0x80, 0x80, 0x80, 0x80, 0x80, 0x80, 0x80, 0x01] = .panic := by decide +kernel
  have h2 : newMappedKey [2, 1, 7] = .ok (⟨[some [7], some []], [2, 1, 7]⟩, 3) := by decide +kernel
  exact ⟨fun h => absurd ((h _ (by decide)).2 _ _ h2) (by decide), h1, h2⟩

/-- Two sub keys, the second one missing, and bytes that do not belong to the key. -/
example : WireList [2, 1, 7] [[7], []] [] :=
  .inr ⟨[2], [1, 7], rfl, .last 2 (by decide), by decide, by decide,
    .cons _ _ _ _ _ (.present [1] [7] [] (.last 1 (by decide)) (by decide)) (.cons _ _ _ _ _ .absent (.nil _))⟩

example : newMappedKey [1, 2, 7, 8, 9] = .ok (⟨[some [7, 8]], [1, 2, 7, 8, 9]⟩, 4) ∧
    decodeScheme [0, 1, 7, 0, 1, 1, 5, 9] = .ok (⟨some [7], some [], some [some [5]]⟩, 7) ∧
    decodeScheme [0, 1, 7] = .ok (⟨some [7], some [], some []⟩, 3) ∧ newMappedKey [1, 2, 7] = .err := by decide +kernel

/-- The second of two sub keys overflows. -/
example : newMappedKey [2, 1, 7, 0x80, 0x80, 0x80, 0x80, 0x80, 0x80, 0x80, 0x80, 0x80, 0x01] = .panic ∧
    decodeScheme [0, 0, 0, 2, 1, 7, 0x80, 0x80, 0x80, 0x80, 0x80, 0x80, 0x80, 0x80, 0x80, 0x01] = .panic := by decide +kernel

example := C202_key_ok_iff_partial [1, 2, 7, 8, 9] (by decide) ⟨[some [7, 8]], [1, 2, 7, 8, 9]⟩ 4

example := C202_key_panics_iff_partial [2, 1, 7, 0x80, 0x80, 0x80, 0x80, 0x80, 0x80, 0x80, 0x80, 0x80, 0x01] (by decide)

example := C202_scheme_ok_iff_partial [0, 1, 7, 0, 1, 1, 5, 9] (by decide) ⟨some [7], some [], some [some [5]]⟩ 7

example := C90_panics_iff_partial [0, 0, 0, 2, 1, 7, 0x80, 0x80, 0x80, 0x80, 0x80, 0x80, 0x80, 0x80, 0x80, 0x01] (by decide)

end Poodle.Props
