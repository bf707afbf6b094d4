import Verif.Spec.Scheme
import Verif.Lemmas.Key
import Verif.Props.Codec

/-
Properties C55, C56: schemes (/repo/src/util/scheme_util.go).
-/

namespace Poodle.Props
open Poodle Poodle.Spec

/-- The bytes of a part that is left out when nil. -/
def partBytes (s : Slice) : Bytes := (s.map encodeVarchar).getD []

/-- The bytes of the buckets. -/
def bucketBytes (b : Option (List Slice)) : Bytes := (b.map keyBytes).getD []

/-- All bytes. -/
def schemeBytes (s : Scheme) : Bytes := [0x00] ++ partBytes s.domain ++ partBytes s.tablet ++ bucketBytes s.buckets

theorem schemeBuckets_eq : ∀ (bs : List Slice) (buf : Bytes), buf.length ≤ maxSchemeLength →
    schemeBuckets bs buf = if (buf ++ flatKeys bs).length ≤ maxSchemeLength then .ok (buf ++ flatKeys bs) else .err
  | [], buf, h => by simp [schemeBuckets, flatKeys, h]
  | b :: bs, buf, h => by
    have e : buf ++ flatKeys (b :: bs) = (buf ++ encodeVarchar b.bytes) ++ flatKeys bs := by simp [flatKeys]
    rw [schemeBuckets, schemeAppend]
    split
    · rename_i h2
      rw [Res.bind_err, if_neg]
      rw [e, List.length_append]; omega
    · rename_i h2
      rw [Res.bind_ok, schemeBuckets_eq bs _ (by omega), e]

theorem part_eq (o : Slice) (buf : Bytes) (h : buf.length ≤ maxSchemeLength) :
    schemePart buf o =
      if (buf ++ partBytes o).length ≤ maxSchemeLength then .ok (buf ++ partBytes o) else .err := by
  cases o with
  | none => simp [partBytes, schemePart, h]
  | some d =>
    have e : partBytes (some d) = encodeVarchar d := rfl
    rw [e, schemePart, schemeAppend]
    split
    · rw [if_neg (by omega)]
    · rw [if_pos (by omega)]

theorem scheme_encode_eq (s : Scheme) : s.encode =
    if (schemeBytes s).length ≤ maxSchemeLength then .ok (schemeBytes s) else .err := by
  unfold Scheme.encode schemeBytes
  rw [part_eq s.domain [0x00] (by simp [maxSchemeLength])]
  by_cases h1 : ([0x00] ++ partBytes s.domain).length ≤ maxSchemeLength
  · rw [if_pos h1, Res.bind_ok, part_eq s.tablet _ h1]
    by_cases h2 : ([0x00] ++ partBytes s.domain ++ partBytes s.tablet).length ≤ maxSchemeLength
    · rw [if_pos h2, Res.bind_ok]
      generalize [0x00] ++ partBytes s.domain ++ partBytes s.tablet = buf at *
      rcases s.buckets with - | bs
      · simp [bucketBytes, h2]
      · have e : bucketBytes (some bs) = encodeUvarint64 bs.length ++ flatKeys bs := rfl
        simp only [schemeAppend]
        rw [e]
        by_cases h3 : (buf ++ encodeUvarint64 bs.length).length > maxSchemeLength
        · rw [if_pos h3, Res.bind_err, if_neg]
          simp only [List.length_append] at *; omega
        · rw [if_neg h3, Res.bind_ok, schemeBuckets_eq _ _ (by omega), List.append_assoc]
    · rw [if_neg h2, Res.bind_err, if_neg]
      simp only [List.length_append] at *; omega
  · rw [if_neg h1, Res.bind_err, if_neg]
    simp only [List.length_append] at *; omega

/-- The lengths of a scheme are Go lengths. -/
def SchemeFits (s : Scheme) : Prop :=
  s.domain.bytes.length < 2 ^ 63 ∧ s.tablet.bytes.length < 2 ^ 63 ∧ (s.buckets.getD []).length < 2 ^ 63 ∧
    ∀ b ∈ s.buckets.getD [], b.bytes.length < 2 ^ 63

theorem partBytes_length {o : Slice} (h : o.bytes.length < 2 ^ 63) : (partBytes o).length = partSize o := by
  cases o with
  | none => rfl
  | some d =>
    simp only [Slice.bytes, Option.getD_some] at h
    simp only [partBytes, partSize, Option.map_some, Option.getD_some]
    exact encodeVarchar_length (by omega)

theorem schemeBytes_length {s : Scheme} (h : SchemeFits s) : (schemeBytes s).length = schemeSize s := by
  obtain ⟨h1, h2, h3, h4⟩ := h
  simp only [schemeBytes, schemeSize, List.length_append, partBytes_length h1, partBytes_length h2, List.length_singleton]
  congr 1
  rcases e : s.buckets with - | bs
  · rfl
  · rw [e] at h3 h4
    simp only [Option.getD_some] at h3 h4
    simp only [bucketBytes, Option.map_some, Option.getD_some]
    exact keyBytes_length bs (by omega) fun b hb => by have := h4 b hb; omega

/-! ### C56 Scheme size limit -/

/-- C56: encoding succeeds exactly when the encoded form has at most 1024 bytes, otherwise it returns an error. -/
theorem C56_limit_iff (s : Scheme) (h : SchemeFits s) :
    ((∃ w, s.encode = .ok w) ↔ schemeSize s ≤ 1024) ∧ s.encode ≠ .panic := by
  rw [scheme_encode_eq, schemeBytes_length h]
  constructor
  · constructor
    · rintro ⟨w, hw⟩
      by_contra hc
      rw [if_neg (by exact hc)] at hw
      exact absurd hw (by simp)
    · intro h2
      exact ⟨_, if_pos (by exact h2)⟩
  · split <;> simp

example := C56_limit_iff ⟨some [1, 2], some [], some [some [3], none]⟩ (by simp [SchemeFits, Slice.bytes])

/-- C56: the bytes produced have exactly that size. -/
theorem C56_size (s : Scheme) (h : SchemeFits s) (w : Bytes) (hw : s.encode = .ok w) : w.length = schemeSize s := by
  rw [scheme_encode_eq] at hw
  split at hw
  · cases hw; exact schemeBytes_length h
  · exact absurd hw (by simp)

example : SchemeFits ⟨some [1, 2], some [], some [some [3], none]⟩ ∧
    Scheme.encode ⟨some [1, 2], some [], some [some [3], none]⟩ = .ok [0, 2, 1, 2, 0, 2, 1, 3, 0] := by
  constructor
  · simp [SchemeFits, Slice.bytes]
  · decide +kernel

/-! ### C55 Scheme round trip -/

/-- The claim of C55. -/
def SchemeRoundTrip : Prop := ∀ (s : Scheme) (w : Bytes), s.encode = .ok w →
  ∃ t n, decodeScheme w = .ok (t, n) ∧ SameScheme t s

/-- C55 is false: a scheme without domain is decoded with its tablet as domain. -/
theorem C55_refuted : ¬ SchemeRoundTrip := by
  intro h
  obtain ⟨t, n, h1, h2⟩ := h ⟨none, some [7], some []⟩ [0, 1, 7, 0] (by decide +kernel)
  have e : decodeScheme [0, 1, 7, 0] = .ok (⟨some [7], some [], some []⟩, 4) := by decide +kernel
  rw [e] at h1
  cases h1
  exact absurd h2.1 (by decide)

theorem decodeVarchar_nil : decodeVarchar [] = .ok ([], 0) := rfl
theorem decodeUvarint64_nil : decodeUvarint64 [] = .ok (0, 0) := rfl

theorem encodeVarchar_nil : encodeVarchar [] = [0] := by decide +kernel

/-- A part followed by anything, or the last part. -/
theorem decodeVarchar_part (o : Slice) (rest : Bytes) (h : o = none → rest = [])
    (hgo : (partBytes o ++ rest).length < 2 ^ 63) :
    decodeVarchar (partBytes o ++ rest) = .ok (o.bytes, (partBytes o).length) := by
  cases o with
  | none => rw [h rfl]; rfl
  | some d => exact decodeVarchar_roundtrip d rest hgo

/-- Decoding the buckets at the end of a scheme. -/
def decodeBuckets (buf : Bytes) : Res (List Slice × Nat) := do
  let (n, n3) ← decodeUvarint64 buf
  if n > maxMake24 then .panic
  else do
    let (bs, n4) ← decodeSubKeys n (buf.drop n3)
    .ok (bs, n3 + n4)

theorem decodeScheme_cons (b : UInt8) (rest : Bytes) : decodeScheme (b :: rest) = (do
    let (d, n1) ← decodeVarchar rest
    let (t, n2) ← decodeVarchar (rest.drop n1)
    let (bs, n3) ← decodeBuckets ((rest.drop n1).drop n2)
    .ok ({ domain := some d, tablet := some t, buckets := some bs }, 1 + n1 + n2 + n3)) := by
  simp only [decodeScheme, decodeBuckets]
  rcases decodeVarchar rest with ⟨d, n1⟩ | - | -
  · simp only [Res.bind_ok]
    rcases decodeVarchar (rest.drop n1) with ⟨t, n2⟩ | - | -
    · simp only [Res.bind_ok]
      rcases decodeUvarint64 ((rest.drop n1).drop n2) with ⟨n, n3⟩ | - | -
      · simp only [Res.bind_ok]
        split
        · rfl
        · rcases decodeSubKeys n (((rest.drop n1).drop n2).drop n3) with ⟨bs, n4⟩ | - | -
          · simp [Nat.add_assoc]
          · rfl
          · rfl
      · rfl
      · rfl
    · rfl
    · rfl
  · rfl
  · rfl

theorem decodeBuckets_keyBytes (bs : List Slice) (rest : Bytes) (h : (keyBytes bs ++ rest).length ≤ maxMake24) :
    decodeBuckets (keyBytes bs ++ rest) = .ok (bs.map fun s => some s.bytes, (keyBytes bs).length) := by
  have := newMappedKey_keyBytes bs rest h
  unfold newMappedKey at this
  unfold decodeBuckets
  rcases e : decodeUvarint64 (keyBytes bs ++ rest) with ⟨n, n3⟩ | - | -
  · rw [e] at this
    simp only [Res.bind_ok] at this ⊢
    split at this
    · exact absurd this (by simp)
    · rename_i hn
      rw [if_neg hn]
      rcases e2 : decodeSubKeys n ((keyBytes bs ++ rest).drop n3) with ⟨bs', n4⟩ | - | -
      · rw [e2] at this
        simp only [Res.bind_ok, Res.ok.injEq, Prod.mk.injEq, MappedKey.mk.injEq] at this ⊢
        exact ⟨this.1.1, this.2⟩
      · rw [e2] at this; exact absurd this (by simp)
      · rw [e2] at this; exact absurd this (by simp)
  · rw [e] at this; exact absurd this (by simp)
  · rw [e] at this; exact absurd this (by simp)

theorem bucketBytes_decode (b : Option (List Slice)) (rest : Bytes) (h : b = none → rest = [])
    (hgo : (bucketBytes b ++ rest).length ≤ maxMake24) :
    decodeBuckets (bucketBytes b ++ rest) = .ok ((b.getD []).map fun s => some s.bytes, (bucketBytes b).length) := by
  cases b with
  | none => rw [h rfl]; rfl
  | some bs => exact decodeBuckets_keyBytes bs rest hgo

/-- A non-empty bucket list at a place where a string is expected is not read as the empty string. -/
theorem decodeVarchar_keyBytes_ne {bs : List Slice} (hne : bs ≠ []) (hlen : (keyBytes bs).length ≤ maxSchemeLength)
    (m : Nat) : decodeVarchar (keyBytes bs) ≠ .ok ([], m) := by
  have hm : maxSchemeLength = 1024 := rfl
  have hf : (flatKeys bs).length ≤ 1024 := by
    simp only [keyBytes, List.length_append] at hlen; omega
  have hks := length_le_flat bs fun s hs => Nat.lt_of_le_of_lt (flat_bound hf s hs) (by omega)
  obtain ⟨h1, h2, -⟩ := putUvarint_spec (x := bs.length) (by omega)
  have hpos : 0 < bs.length := List.length_pos_iff.mpr hne
  have := decodeVarchar_prefix (rest := flatKeys bs) h1 h2 (by omega) (by
    simp only [List.length_append]; omega)
  unfold keyBytes encodeUvarint64
  rw [this, if_neg (by omega)]
  split
  · simp
  · rename_i hx
    intro h
    simp only [Res.ok.injEq, Prod.mk.injEq, List.take_eq_nil_iff] at h
    rcases h.1 with h | h
    · omega
    · rw [h] at hks; simp at hks; exact hne hks

/-- C55, part: with all three parts present (possibly empty) the scheme is decoded, with any trailing bytes. -/
theorem C55_present_partial (s : Scheme) (w rest : Bytes) (hw : s.encode = .ok w) (hrest : rest.length < 2 ^ 40)
    (hd : s.domain ≠ none) (ht : s.tablet ≠ none) (hb : s.buckets ≠ none) :
    ∃ t, decodeScheme (w ++ rest) = .ok (t, w.length) ∧ SameScheme t s := by
  rw [scheme_encode_eq] at hw
  split at hw
  swap
  · exact absurd hw (by simp)
  rename_i hlen
  cases hw
  have hm : maxSchemeLength = 1024 := rfl
  have hmm : 2 ^ 40 + 1024 < maxMake24 := by decide
  have hL : (schemeBytes s).length =
    1 + (partBytes s.domain).length + (partBytes s.tablet).length + (bucketBytes s.buckets).length := by
    simp only [schemeBytes, List.length_append, List.length_singleton]
  have e : schemeBytes s ++ rest =
      0x00 :: (partBytes s.domain ++ (partBytes s.tablet ++ (bucketBytes s.buckets ++ rest))) := by simp [schemeBytes]
  have hmm' : maxMake24 < 2 ^ 63 := by decide
  refine ⟨⟨some s.domain.bytes, some s.tablet.bytes, some ((s.buckets.getD []).map fun s => some s.bytes)⟩, ?_, ?_⟩
  · rw [e, decodeScheme_cons, decodeVarchar_part _ _ (fun h => absurd h hd) (by simp only [List.length_append]; omega),
      Res.bind_ok]
    simp only [List.drop_left]
    rw [decodeVarchar_part _ _ (fun h => absurd h ht) (by simp only [List.length_append]; omega), Res.bind_ok]
    simp only [List.drop_left]
    rw [bucketBytes_decode _ _ (fun h => absurd h hb) (by simp only [List.length_append]; omega), Res.bind_ok, hL]
  · refine ⟨rfl, rfl, ?_⟩
    simp [Slice.bytes]

example := C55_present_partial ⟨some [7], some [8, 9], some [some [1], some []]⟩ [0, 1, 7, 2, 8, 9, 2, 1, 1, 0] [5] (by decide +kernel) (by decide)
  (by decide) (by decide) (by decide)

/-- C55, exactly: the encoding of a scheme is decoded to the same scheme if and only if no missing part is followed by a
non-empty one. -/
theorem C55_roundtrip_iff_partial (s : Scheme) (w : Bytes) (hw : s.encode = .ok w) :
    (∃ t n, decodeScheme w = .ok (t, n) ∧ SameScheme t s) ↔
      ((s.domain = none → s.tablet.bytes = [] ∧ s.buckets.getD [] = []) ∧ (s.tablet = none → s.buckets.getD [] = [])) := by
  rw [scheme_encode_eq] at hw
  split at hw
  swap
  · exact absurd hw (by simp)
  rename_i hlen
  cases hw
  have hm : maxSchemeLength = 1024 := rfl
  have hmm : 1024 < maxMake24 := by decide
  have hmm' : maxMake24 < 2 ^ 63 := by decide
  have hL : (schemeBytes s).length =
    1 + (partBytes s.domain).length + (partBytes s.tablet).length + (bucketBytes s.buckets).length := by
    simp only [schemeBytes, List.length_append, List.length_singleton]
  have e : schemeBytes s =
      0x00 :: (partBytes s.domain ++ (partBytes s.tablet ++ bucketBytes s.buckets)) := by simp [schemeBytes]
  have hb0 : ∀ b : Option (List Slice), b.getD [] = [] → decodeVarchar (bucketBytes b) = .ok ([], (bucketBytes b).length) := by
    rintro (- | bs) h
    · rfl
    · simp only [Option.getD_some] at h; subst h; decide +kernel
  constructor
  · rintro ⟨t, n, h1, h2⟩
    rw [e, decodeScheme_cons] at h1
    constructor
    · intro hd
      unfold SameScheme at h2
      rw [hd] at h1 h2
      simp only [partBytes, Option.map_none, Option.getD_none, List.nil_append] at h1
      change decodeVarchar _ >>= _ = _ at h1
      obtain ⟨⟨d, n1⟩, h3, h1⟩ := Res.bind_eq_ok.mp h1
      obtain ⟨⟨t', n2⟩, h4, h1⟩ := Res.bind_eq_ok.mp h1
      obtain ⟨⟨bs, n3⟩, h5, h1⟩ := Res.bind_eq_ok.mp h1
      cases h1
      have hdn : d = [] := h2.1
      subst hdn
      rcases e1 : s.tablet with - | tb
      · rw [e1] at h3 h2
        refine ⟨rfl, ?_⟩
        rcases e2 : s.buckets with - | b
        · rfl
        · by_contra hne
          rw [e2] at h3
          refine decodeVarchar_keyBytes_ne (bs := b) hne ?_ n1 h3
          rw [hL, e2] at hlen
          simp only [bucketBytes, Option.map_some, Option.getD_some] at hlen
          omega
      · rw [e1] at h3 h2
        simp only [Option.map_some, Option.getD_some] at h3
        rw [decodeVarchar_roundtrip _ _ (by
          rw [hL, e1] at hlen; simp only [partBytes, Option.map_some, Option.getD_some] at hlen
          simp only [List.length_append]; omega)] at h3
        cases h3
        refine ⟨rfl, ?_⟩
        rw [e1] at h4
        simp only [Option.map_some, Option.getD_some, List.drop_left] at h4
        have ht : t' = [] := h2.2.1
        subst ht
        rcases e2 : s.buckets with - | b
        · rfl
        · by_contra hne
          rw [e2] at h4
          refine decodeVarchar_keyBytes_ne (bs := b) hne ?_ n2 h4
          rw [hL, e2] at hlen
          simp only [bucketBytes, Option.map_some, Option.getD_some] at hlen
          omega
    · intro ht
      unfold SameScheme at h2
      rw [ht] at h1 h2
      obtain ⟨⟨d, n1⟩, h3, h1⟩ := Res.bind_eq_ok.mp h1
      obtain ⟨⟨t', n2⟩, h4, h1⟩ := Res.bind_eq_ok.mp h1
      obtain ⟨⟨bs, n3⟩, h5, h1⟩ := Res.bind_eq_ok.mp h1
      cases h1
      have htn : t' = [] := h2.2.1
      subst htn
      rcases e2 : s.buckets with - | b
      · rfl
      by_contra hne
      rw [e2] at h3 h4 h5
      have hlen2 : (keyBytes b).length ≤ maxSchemeLength := by
        rw [hL, e2] at hlen
        simp only [bucketBytes, Option.map_some, Option.getD_some] at hlen
        omega
      rcases e1 : s.domain with - | dm
      · rw [e1] at h3 h2
        have hdn : d = [] := h2.1
        subst hdn
        exact decodeVarchar_keyBytes_ne (bs := b) hne hlen2 n1 h3
      · rw [e1] at h3 h4
        simp only [partBytes, Option.map_some, Option.getD_some, Option.map_none, Option.getD_none, List.nil_append] at h3 h4
        rw [decodeVarchar_roundtrip _ _ (by
          rw [hL, e1, e2] at hlen
          simp only [partBytes, bucketBytes, Option.map_some, Option.getD_some] at hlen
          simp only [List.length_append, bucketBytes, Option.map_some, Option.getD_some]; omega)] at h3
        cases h3
        rw [List.drop_left] at h4
        exact decodeVarchar_keyBytes_ne (bs := b) hne hlen2 n2 h4
  · rintro ⟨h1, h2⟩
    have hbuck : decodeBuckets (bucketBytes s.buckets) =
        .ok ((s.buckets.getD []).map fun s => some s.bytes, (bucketBytes s.buckets).length) := by
      have := bucketBytes_decode s.buckets [] (fun _ => rfl) (by simp only [List.append_nil]; omega)
      rwa [List.append_nil] at this
    have hnilb : decodeBuckets [] = .ok ([], 0) := by decide +kernel
    have same : ∀ (l : List Slice) m, l.map Slice.bytes = (s.buckets.getD []).map Slice.bytes →
        decodeScheme (schemeBytes s) = .ok (⟨some s.domain.bytes, some s.tablet.bytes, some l⟩, m) →
        ∃ t n, decodeScheme (schemeBytes s) = .ok (t, n) ∧ SameScheme t s :=
      fun l m hl h => ⟨_, _, h, rfl, rfl, hl⟩
    have hmap : (((s.buckets.getD []).map fun s : Slice => (some s.bytes : Slice))).map Slice.bytes =
        (s.buckets.getD []).map Slice.bytes := by simp [Slice.bytes]
    rcases e1 : s.domain with - | dm
    · obtain ⟨h3, h4⟩ := h1 e1
      -- everything after the magic byte is empty or zero
      rcases e2 : s.tablet with - | tb
      · refine same [] (1 + (bucketBytes s.buckets).length + 0 + 0) (by rw [h4]) ?_
        rw [e, e1, e2, decodeScheme_cons]
        simp only [partBytes, Option.map_none, Option.getD_none, List.nil_append]
        rw [hb0 _ h4, Res.bind_ok]
        simp only [List.drop_length, decodeVarchar_nil, Res.bind_ok, List.drop_nil, hnilb]
        rfl
      · rw [e2] at h3
        simp only [Slice.bytes, Option.getD_some] at h3
        subst h3
        refine same [] (1 + 1 + (bucketBytes s.buckets).length + 0) (by rw [h4]) ?_
        rw [e, e1, e2, decodeScheme_cons]
        simp only [partBytes, Option.map_none, Option.map_some, Option.getD_some, Option.getD_none, List.nil_append]
        rw [decodeVarchar_roundtrip _ _ (by
          rw [hL, e2] at hlen; simp only [partBytes, Option.map_some, Option.getD_some] at hlen
          simp only [List.length_append]; omega), Res.bind_ok]
        simp only [List.drop_left]
        simp only [encodeVarchar_nil, List.length_singleton]
        rw [hb0 _ h4, Res.bind_ok]
        simp only [List.drop_length, hnilb, Res.bind_ok]
        rfl
    · rcases e2 : s.tablet with - | tb
      · have h4 := h2 e2
        refine same [] (1 + (encodeVarchar dm).length + (bucketBytes s.buckets).length + 0) (by rw [h4]) ?_
        rw [e, e1, e2, decodeScheme_cons]
        simp only [partBytes, Option.map_none, Option.map_some, Option.getD_some, Option.getD_none, List.nil_append]
        rw [decodeVarchar_roundtrip _ _ (by
          rw [hL, e1] at hlen; simp only [partBytes, Option.map_some, Option.getD_some] at hlen
          simp only [List.length_append]; omega), Res.bind_ok]
        simp only [List.drop_left]
        rw [hb0 _ h4, Res.bind_ok]
        simp only [List.drop_length, hnilb, Res.bind_ok]
        rfl
      · refine same ((s.buckets.getD []).map fun s => some s.bytes)
          (1 + (encodeVarchar dm).length + (encodeVarchar tb).length + (bucketBytes s.buckets).length) hmap ?_
        rw [hL, e1, e2] at hlen
        simp only [partBytes, Option.map_some, Option.getD_some] at hlen
        rw [e, e1, e2, decodeScheme_cons]
        simp only [partBytes, Option.map_some, Option.getD_some]
        rw [decodeVarchar_roundtrip _ _ (by simp only [List.length_append]; omega), Res.bind_ok]
        simp only [List.drop_left]
        rw [decodeVarchar_roundtrip _ _ (by simp only [List.length_append]; omega), Res.bind_ok]
        simp only [List.drop_left]
        rw [hbuck, Res.bind_ok]
        rfl

example : Scheme.encode ⟨some [7], some [8, 9], some [some [1], some []]⟩ = .ok [0, 1, 7, 2, 8, 9, 2, 1, 1, 0] ∧
    Scheme.encode ⟨some [7], none, none⟩ = .ok [0, 1, 7] := by decide +kernel

/-! ### C90 Scheme decoding never crashes -/

/-- The claim of C90. -/
def SchemeDecodeTotal : Prop := ∀ buf : Bytes, decodeScheme buf ≠ .panic

/-- C90 is false: an empty buffer, or a huge length, crashes. -/
theorem C90_refuted : ¬ SchemeDecodeTotal := fun h => h [] rfl

/-- C90: a huge announced length crashes as well (2^63 in the length of the domain). -/
theorem C90_long_refuted : decodeScheme [0, 0x80, 0x80, 0x80, 0x80, 0x80, 0x80, 0x80, 0x80, 0x80, 0x01] = .panic := by
  decide +kernel

/-- The buffer announces no length above `m` at any position. -/
def NoHugeLength (buf : Bytes) (m : Nat) : Prop :=
  ∀ pre p rest v, buf = pre ++ p ++ rest → IsUvarint p v → v ≤ m

theorem NoHugeLength.drop {buf : Bytes} {m : Nat} (h : NoHugeLength buf m) (k : Nat) : NoHugeLength (buf.drop k) m := by
  intro pre p rest v e hp
  refine h (buf.take k ++ pre) p rest v ?_ hp
  calc buf = buf.take k ++ buf.drop k := (List.take_append_drop k buf).symm
    _ = _ := by rw [e]; simp

theorem decodeVarchar_ne_panic {buf : Bytes} (h : NoHugeLength buf maxMake24) (hgo : buf.length < 2 ^ 63) :
    decodeVarchar buf ≠ .panic := by
  intro hp
  obtain ⟨p, rest, v, rfl, h1, h2, h3, h4⟩ := (C03_decodeVarchar_panics_iff_partial buf hgo).mp hp
  have := h [] p rest v rfl h1
  have hm : maxMake24 + 10 < 2 ^ 63 := by decide
  omega

theorem decodeSubKeys_ne_panic : ∀ (n : Nat) {buf : Bytes}, NoHugeLength buf maxMake24 → buf.length < 2 ^ 63 →
    decodeSubKeys n buf ≠ .panic
  | 0, _, _, _ => by simp [decodeSubKeys]
  | n + 1, buf, h, hgo => by
    rw [decodeSubKeys]
    rcases e : decodeVarchar buf with ⟨d, len⟩ | - | -
    · simp only [Res.bind_ok]
      have := decodeSubKeys_ne_panic n (h.drop len) (by rw [List.length_drop]; omega)
      rcases e2 : decodeSubKeys n (buf.drop len) with ⟨ds, m⟩ | - | -
      · simp
      · simp
      · exact absurd e2 this
    · simp
    · exact absurd e (decodeVarchar_ne_panic h hgo)

/-- C90, part: a non-empty buffer crashes only if it announces, at some position, a length that no buffer can have (more than
11 million million). -/
theorem C90_no_panic_partial (buf : Bytes) (hne : buf ≠ []) (hgo : buf.length < 2 ^ 63)
    (h : NoHugeLength buf 11728124029610) : decodeScheme buf ≠ .panic := by
  have hm : (11728124029610 : Nat) = maxMake24 := by decide
  rw [hm] at h
  rcases buf with - | ⟨b, rest⟩
  · exact absurd rfl hne
  have h0 : NoHugeLength rest maxMake24 := h.drop 1
  have hg0 : rest.length < 2 ^ 63 := by simp only [List.length_cons] at hgo; omega
  rw [decodeScheme_cons]
  rcases e1 : decodeVarchar rest with ⟨d, n1⟩ | - | -
  · simp only [Res.bind_ok]
    have h1 := h0.drop n1
    have hg1 : (rest.drop n1).length < 2 ^ 63 := by rw [List.length_drop]; omega
    rcases e2 : decodeVarchar (rest.drop n1) with ⟨t, n2⟩ | - | -
    · simp only [Res.bind_ok]
      have h2 := h1.drop n2
      have hg2 : ((rest.drop n1).drop n2).length < 2 ^ 63 := by rw [List.length_drop]; omega
      generalize (rest.drop n1).drop n2 = buf at *
      have : decodeBuckets buf ≠ .panic := by
        unfold decodeBuckets
        rcases e3 : decodeUvarint64 buf with ⟨n, n3⟩ | - | -
        · simp only [Res.bind_ok]
          have hn : ¬ n > maxMake24 := by
            rcases buf with - | ⟨x, xs⟩
            · cases e3; decide
            · obtain ⟨p, r, e4, hp, -, -, -, -⟩ := (C04_decodeUvarint64_ok_iff_partial _ (by simp) hg2 _ _).mp e3
              have := h2 [] p r n e4 hp
              omega
          rw [if_neg hn]
          have := decodeSubKeys_ne_panic n (h2.drop n3) (by rw [List.length_drop]; omega)
          rcases e5 : decodeSubKeys n (buf.drop n3) with ⟨bs, n4⟩ | - | -
          · simp
          · simp
          · exact absurd e5 this
        · simp
        · exact absurd e3 (C04_decodeUvarint64_no_panic_partial _)
      rcases e6 : decodeBuckets buf with ⟨bs, n3⟩ | - | -
      · simp
      · simp
      · exact absurd e6 this
    · simp
    · exact absurd e2 (decodeVarchar_ne_panic h1 hg1)
  · simp
  · exact absurd e1 (decodeVarchar_ne_panic h0 hg0)

/-- The hypothesis holds in particular for every buffer of at most 6 bytes. -/
example (buf : Bytes) (h : buf.length ≤ 6) : NoHugeLength buf 11728124029610 := by
  rintro pre p rest v rfl hp
  have := hp.lt_pow
  have : 128 ^ p.length ≤ 128 ^ 6 := Nat.pow_le_pow_right (by decide) (by simp only [List.length_append] at h; omega)
  omega

/-! ### C91 Copying a scheme -/

/-- C91: a copy has the same parts and the same encoding. -/
theorem C91_copy (s : Scheme) : s.copy = s ∧ s.copy.encode = s.encode := by
  have : s.copy = s := by
    obtain ⟨d, t, b⟩ := s
    cases d <;> cases t <;> cases b <;> rfl
  rw [this]; simp

example : Scheme.copy ⟨some [7], none, some [some [1]]⟩ = ⟨some [7], none, some [some [1]]⟩ := by decide

end Poodle.Props
