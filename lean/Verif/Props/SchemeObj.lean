import Verif.Spec.SchemeObj
import Verif.Props.Scheme

namespace Poodle.Props
open Poodle Spec

/-- What is left of the buckets after an attempt to decode `n` of them: those before the first that fails, then nil. -/
def BucketsRead (n : Nat) (buf : Bytes) (bs : List Slice) : Prop :=
  ∃ k ks m, k < n ∧ decodeSubKeys k buf = .ok (ks, m) ∧ (∀ d l, decodeVarchar (buf.drop m) ≠ .ok (d, l)) ∧
    bs = ks ++ List.replicate (n - k) none

theorem bucketLoop_ok : ∀ (n : Nat) (buf : Bytes), (∀ ks m, decodeSubKeys n buf = .ok (ks, m) → bucketLoop n buf = (ks, .ok m)) ∧
    (decodeSubKeys n buf = .err → ∃ bs, bucketLoop n buf = (bs, .err) ∧ BucketsRead n buf bs) ∧
    (decodeSubKeys n buf = .panic → ∃ bs, bucketLoop n buf = (bs, .panic) ∧ BucketsRead n buf bs) := by
  intro n
  induction n with
  | zero =>
    intro buf
    refine ⟨?_, ?_, ?_⟩
    · intro ks m h
      simp only [decodeSubKeys, Res.ok.injEq, Prod.mk.injEq] at h
      rw [bucketLoop, h.1, h.2]
    · intro h; simp [decodeSubKeys] at h
    · intro h; simp [decodeSubKeys] at h
  | succ n ih =>
    intro buf
    rcases hd : decodeVarchar buf with ⟨d, len⟩ | - | -
    · obtain ⟨h1, h2, h3⟩ := ih (buf.drop len)
      have hpre : ∀ bs, BucketsRead n (buf.drop len) bs → BucketsRead (n + 1) buf (some d :: bs) := by
        rintro bs ⟨k, ks, m, hk, hks, hf, rfl⟩
        refine ⟨k + 1, some d :: ks, len + m, by omega, ?_, ?_, ?_⟩
        · simp only [decodeSubKeys, hd, Res.bind_ok, hks]
        · rw [← List.drop_drop]; exact hf
        · rw [show n + 1 - (k + 1) = n - k by omega, List.cons_append]
      rcases hs : decodeSubKeys n (buf.drop len) with ⟨ds, m⟩ | - | -
      · refine ⟨?_, ?_, ?_⟩
        · intro ks m' h
          simp only [decodeSubKeys, hd, Res.bind_ok, hs, Res.ok.injEq, Prod.mk.injEq] at h
          simp only [bucketLoop, hd, h1 ds m hs, ← h.1, ← h.2]
        · intro h; simp [decodeSubKeys, hd, hs] at h
        · intro h; simp [decodeSubKeys, hd, hs] at h
      · obtain ⟨bs, e, hr⟩ := h2 hs
        refine ⟨?_, ?_, ?_⟩
        · intro ks m h; simp [decodeSubKeys, hd, hs] at h
        · intro _; exact ⟨some d :: bs, by simp only [bucketLoop, hd, e], hpre bs hr⟩
        · intro h; simp [decodeSubKeys, hd, hs] at h
      · obtain ⟨bs, e, hr⟩ := h3 hs
        refine ⟨?_, ?_, ?_⟩
        · intro ks m h; simp [decodeSubKeys, hd, hs] at h
        · intro h; simp [decodeSubKeys, hd, hs] at h
        · intro _; exact ⟨some d :: bs, by simp only [bucketLoop, hd, e], hpre bs hr⟩
    · refine ⟨?_, ?_, ?_⟩
      · intro ks m h; simp [decodeSubKeys, hd] at h
      · intro _
        refine ⟨List.replicate (n + 1) none, by simp only [bucketLoop, hd], 0, [], 0, by omega, rfl, ?_, rfl⟩
        intro d l h; rw [List.drop_zero, hd] at h; cases h
      · intro h; simp [decodeSubKeys, hd] at h
    · refine ⟨?_, ?_, ?_⟩
      · intro ks m h; simp [decodeSubKeys, hd] at h
      · intro h; simp [decodeSubKeys, hd] at h
      · intro _
        refine ⟨List.replicate (n + 1) none, by simp only [bucketLoop, hd], 0, [], 0, by omega, rfl, ?_, rfl⟩
        intro d l h; rw [List.drop_zero, hd] at h; cases h

/-- What a failed `Decode` leaves in the object: the parts before the first that fails. -/
inductive PartsRead (buf : Bytes) : Scheme → Prop
  | none : (∀ d n, decodeVarchar (buf.drop 1) ≠ .ok (d, n)) ∨ buf = [] → PartsRead buf noScheme
  | domain (d : Bytes) (n1 : Nat) : buf ≠ [] → decodeVarchar (buf.drop 1) = .ok (d, n1) →
      (∀ t n, decodeVarchar (buf.drop (1 + n1)) ≠ .ok (t, n)) → PartsRead buf { domain := some d, tablet := none, buckets := none }
  | tablet (d t : Bytes) (n1 n2 : Nat) : buf ≠ [] → decodeVarchar (buf.drop 1) = .ok (d, n1) →
      decodeVarchar (buf.drop (1 + n1)) = .ok (t, n2) →
      (∀ c n, decodeUvarint64 (buf.drop (1 + n1 + n2)) = .ok (c, n) → c > maxMake24) →
      PartsRead buf { domain := some d, tablet := some t, buckets := none }
  | buckets (d t : Bytes) (n1 n2 c n3 : Nat) (bs : List Slice) : buf ≠ [] → decodeVarchar (buf.drop 1) = .ok (d, n1) →
      decodeVarchar (buf.drop (1 + n1)) = .ok (t, n2) → decodeUvarint64 (buf.drop (1 + n1 + n2)) = .ok (c, n3) → c ≤ maxMake24 →
      BucketsRead c (buf.drop (1 + n1 + n2 + n3)) bs → PartsRead buf { domain := some d, tablet := some t, buckets := some bs }

/-- `Decode` of a fresh object: the same result as decoding the bytes, with all parts or those before the failure; and doing it again
changes nothing. -/
theorem decode_fresh (buf : Bytes) : ∃ s : MScheme, (newMScheme buf).decode.1 = s ∧ s.buf = buf ∧ s.decode = (s, (newMScheme buf).decode.2) ∧
    ((∃ c n, decodeScheme buf = .ok (c, n) ∧ (newMScheme buf).decode.2 = .ok n ∧ s.decoded = true ∧ s.parts = c) ∨
     (decodeScheme buf = .err ∧ (newMScheme buf).decode.2 = .err ∧ s.decoded = false ∧ PartsRead buf s.parts) ∨
     (decodeScheme buf = .panic ∧ (newMScheme buf).decode.2 = .panic ∧ s.decoded = false ∧ PartsRead buf s.parts)) := by
  refine ⟨_, rfl, ?_⟩
  cases buf with
  | nil => exact ⟨rfl, rfl, Or.inr (Or.inr ⟨rfl, rfl, rfl, .none (Or.inr rfl)⟩)⟩
  | cons b rest =>
    rcases h1 : decodeVarchar rest with ⟨d, n1⟩ | - | -
    rotate_left
    · have e : (newMScheme (b :: rest)).decode = (newMScheme (b :: rest), .err) := by simp [MScheme.decode, newMScheme, h1]
      rw [e]
      exact ⟨rfl, e, Or.inr (Or.inl ⟨by simp [decodeScheme, h1], rfl, rfl, .none (Or.inl (by simp [h1]))⟩)⟩
    · have e : (newMScheme (b :: rest)).decode = (newMScheme (b :: rest), .panic) := by simp [MScheme.decode, newMScheme, h1]
      rw [e]
      exact ⟨rfl, e, Or.inr (Or.inr ⟨by simp [decodeScheme, h1], rfl, rfl, .none (Or.inl (by simp [h1]))⟩)⟩
    have d1 : ∀ m, (b :: rest).drop (1 + m) = rest.drop m := by intro m; rw [Nat.add_comm]; rfl
    have d0 : (b :: rest).drop 1 = rest := rfl
    rcases h2 : decodeVarchar (rest.drop n1) with ⟨t, n2⟩ | - | -
    rotate_left
    · have e : ∀ dom, MScheme.decode { decoded := false, buf := b :: rest, domain := dom, tablet := none, buckets := none } =
          ({ decoded := false, buf := b :: rest, domain := some d, tablet := none, buckets := none }, .err) := by
        intro dom
        simp [MScheme.decode, h1, d1, h2]
      rw [newMScheme, e]
      refine ⟨rfl, e _, Or.inr (Or.inl ⟨by simp [decodeScheme, h1, h2], rfl, rfl, .domain d n1 (by simp) h1 ?_⟩)⟩
      rw [d1]; simp [h2]
    · have e : ∀ dom, MScheme.decode { decoded := false, buf := b :: rest, domain := dom, tablet := none, buckets := none } =
          ({ decoded := false, buf := b :: rest, domain := some d, tablet := none, buckets := none }, .panic) := by
        intro dom
        simp [MScheme.decode, h1, d1, h2]
      rw [newMScheme, e]
      refine ⟨rfl, e _, Or.inr (Or.inr ⟨by simp [decodeScheme, h1, h2], rfl, rfl, .domain d n1 (by simp) h1 ?_⟩)⟩
      rw [d1]; simp [h2]
    have d2 : (b :: rest).drop (1 + n1 + n2) = (rest.drop n1).drop n2 := by rw [List.drop_drop, ← d1, Nat.add_assoc]
    have hstep : ∀ dec dom tab bk, MScheme.decode { decoded := dec, buf := b :: rest, domain := dom, tablet := tab, buckets := bk } =
        MScheme.decodeBuckets { decoded := dec, buf := b :: rest, domain := some d, tablet := some t, buckets := bk } (1 + n1 + n2) := by
      intro dec dom tab bk
      simp [MScheme.decode, h1, d1, h2]
    rcases h3 : decodeUvarint64 ((rest.drop n1).drop n2) with ⟨c, n3⟩ | - | -
    rotate_left
    · have e : ∀ dom tab, MScheme.decode { decoded := false, buf := b :: rest, domain := dom, tablet := tab, buckets := none } =
          ({ decoded := false, buf := b :: rest, domain := some d, tablet := some t, buckets := none }, .err) := by
        intro dom tab
        rw [hstep]
        simp only [MScheme.decodeBuckets, d2, h3]
      rw [newMScheme, e]
      refine ⟨rfl, e _ _, Or.inr (Or.inl ⟨by simp only [decodeScheme, h1, h2, h3, Res.bind_ok, Res.bind_err], rfl, rfl,
        .tablet d t n1 n2 (by simp) h1 ((d1 n1).symm ▸ h2) ?_⟩)⟩
      rw [d2, h3]
      intro c' n he
      cases he
    · have e : ∀ dom tab, MScheme.decode { decoded := false, buf := b :: rest, domain := dom, tablet := tab, buckets := none } =
          ({ decoded := false, buf := b :: rest, domain := some d, tablet := some t, buckets := none }, .panic) := by
        intro dom tab
        rw [hstep]
        simp only [MScheme.decodeBuckets, d2, h3]
      rw [newMScheme, e]
      refine ⟨rfl, e _ _, Or.inr (Or.inr ⟨by simp only [decodeScheme, h1, h2, h3, Res.bind_ok, Res.bind_panic], rfl, rfl,
        .tablet d t n1 n2 (by simp) h1 ((d1 n1).symm ▸ h2) ?_⟩)⟩
      rw [d2, h3]
      intro c' n he
      cases he
    by_cases hc : c > maxMake24
    · have e : ∀ dom tab, MScheme.decode { decoded := false, buf := b :: rest, domain := dom, tablet := tab, buckets := none } =
          ({ decoded := false, buf := b :: rest, domain := some d, tablet := some t, buckets := none }, .panic) := by
        intro dom tab
        rw [hstep]
        simp only [MScheme.decodeBuckets, d2, h3, if_pos hc]
      rw [newMScheme, e]
      refine ⟨rfl, e _ _, Or.inr (Or.inr ⟨by simp only [decodeScheme, h1, h2, h3, Res.bind_ok, if_pos hc], rfl, rfl,
        .tablet d t n1 n2 (by simp) h1 ((d1 n1).symm ▸ h2) ?_⟩)⟩
      rw [d2, h3]
      intro c' n he
      cases he
      exact hc
    have d3 : (b :: rest).drop (1 + n1 + n2 + n3) = ((rest.drop n1).drop n2).drop n3 := by rw [← List.drop_drop, d2]
    obtain ⟨k1, k2, k3⟩ := bucketLoop_ok c (((rest.drop n1).drop n2).drop n3)
    rcases h4 : decodeSubKeys c (((rest.drop n1).drop n2).drop n3) with ⟨bs, n4⟩ | - | -
    · have e : ∀ dec dom tab bk, MScheme.decode { decoded := dec, buf := b :: rest, domain := dom, tablet := tab, buckets := bk } =
          ({ decoded := true, buf := b :: rest, domain := some d, tablet := some t, buckets := some bs }, .ok (1 + n1 + n2 + n3 + n4)) := by
        intro dec dom tab bk
        rw [hstep]
        simp only [MScheme.decodeBuckets, d2, h3, if_neg hc, d3, k1 _ _ h4]
      rw [newMScheme, e]
      exact ⟨rfl, e _ _ _ _, Or.inl ⟨_, _, by simp only [decodeScheme, h1, h2, h3, h4, Res.bind_ok, if_neg hc]; rfl, rfl, rfl, rfl⟩⟩
    · obtain ⟨bs, hb, hr⟩ := k2 h4
      have e : ∀ dom tab bk, MScheme.decode { decoded := false, buf := b :: rest, domain := dom, tablet := tab, buckets := bk } =
          ({ decoded := false, buf := b :: rest, domain := some d, tablet := some t, buckets := some bs }, .err) := by
        intro dom tab bk
        rw [hstep]
        simp only [MScheme.decodeBuckets, d2, h3, if_neg hc, d3, hb]
      rw [newMScheme, e]
      exact ⟨rfl, e _ _ _, Or.inr (Or.inl ⟨by simp only [decodeScheme, h1, h2, h3, h4, Res.bind_ok, Res.bind_err, if_neg hc], rfl, rfl,
        .buckets d t n1 n2 c n3 bs (by simp) h1 ((d1 n1).symm ▸ h2) (d2.symm ▸ h3) (by omega) (d3.symm ▸ hr)⟩)⟩
    · obtain ⟨bs, hb, hr⟩ := k3 h4
      have e : ∀ dom tab bk, MScheme.decode { decoded := false, buf := b :: rest, domain := dom, tablet := tab, buckets := bk } =
          ({ decoded := false, buf := b :: rest, domain := some d, tablet := some t, buckets := some bs }, .panic) := by
        intro dom tab bk
        rw [hstep]
        simp only [MScheme.decodeBuckets, d2, h3, if_neg hc, d3, hb]
      rw [newMScheme, e]
      exact ⟨rfl, e _ _ _, Or.inr (Or.inr ⟨by simp only [decodeScheme, h1, h2, h3, h4, Res.bind_ok, Res.bind_panic, if_neg hc], rfl, rfl,
        .buckets d t n1 n2 c n3 bs (by simp) h1 ((d1 n1).symm ▸ h2) (d2.symm ▸ h3) (by omega) (d3.symm ▸ hr)⟩)⟩

/-- The two states an object may be in. -/
theorem call_state (buf : Bytes) (s : MScheme) (c : SchemeCall) (hs : s = newMScheme buf ∨ s = (newMScheme buf).decode.1) :
    ((s.call c).1 = s ∧ c ≠ .decode) ∨ ((s.call c).1 = (newMScheme buf).decode.1 ∧ c = .decode) := by
  cases c
  case decode =>
    refine Or.inr ⟨?_, rfl⟩
    obtain ⟨s', e, -, h, -⟩ := decode_fresh buf
    rcases hs with rfl | rfl
    · rfl
    · rw [e]
      change s'.decode.1 = s'
      rw [h]
  all_goals exact Or.inl ⟨rfl, by simp⟩

/-- Calls other than `Copy` and `EstBufSize`. -/
def Plain (c : SchemeCall) : Prop := c ≠ .copy ∧ c ≠ .est

theorem call_answer_fresh (buf : Bytes) (c : SchemeCall) (hc : Plain c) : ((newMScheme buf).call c).2 = answer buf false c := by
  cases c
  case decode =>
    change (newMScheme buf).decode.2.bind _ = _
    obtain ⟨s', -, -, -, h⟩ := decode_fresh buf
    rcases h with ⟨c, n, h1, h2, -⟩ | ⟨h1, h2, -⟩ | ⟨h1, h2, -⟩ <;> rw [h2, answer, h1] <;> rfl
  case magic => cases buf <;> rfl
  case copy => exact absurd rfl hc.1
  case est => exact absurd rfl hc.2
  all_goals rfl

theorem parts_fields {s : MScheme} {c : Scheme} (h : s.parts = c) : s.domain = c.domain ∧ s.tablet = c.tablet ∧ s.buckets = c.buckets := by
  subst h; exact ⟨rfl, rfl, rfl⟩

theorem call_answer_decoded (buf : Bytes) (c : SchemeCall) (hc : Plain c) : ((newMScheme buf).decode.1.call c).2 = answer buf true c := by
  obtain ⟨s, e, hb, hi, h⟩ := decode_fresh buf
  rw [e]
  have hdec : (s.call .decode).2 = answer buf true .decode := by
    change s.decode.2.bind _ = _
    rw [hi]
    rcases h with ⟨c, n, h1, h2, -⟩ | ⟨h1, h2, -⟩ | ⟨h1, h2, -⟩ <;> rw [h2, answer, h1] <;> rfl
  have hmagic : (s.call .magic).2 = answer buf true .magic := by
    change s.magic.bind _ = _
    rw [MScheme.magic, hb]
    cases buf <;> rfl
  have hbuf : (s.call .buf).2 = answer buf true .buf := by
    change Res.ok (SchemeOut.slice (some s.buf)) = _
    rw [hb]; rfl
  have bad : s.decoded = false → known buf true = none → ((s.call c).2 = answer buf true c) := by
    intro hd hk
    cases c
    case decode => exact hdec
    case magic => exact hmagic
    case buf => exact hbuf
    case copy => exact absurd rfl hc.1
    case est => exact absurd rfl hc.2
    all_goals simp [MScheme.call, MScheme.getDomain, MScheme.domainName, MScheme.getTablet, MScheme.tabletName, MScheme.getBuckets,
      MScheme.bucketAt, hd, answer, hk, shown, Res.bind]
  rcases h with ⟨c', n, h1, h2, h3, h4⟩ | ⟨h1, h2, h3, -⟩ | ⟨h1, h2, h3, -⟩
  · have hk : known buf true = some c' := by simp [known, h1]
    obtain ⟨p1, p2, p3⟩ := parts_fields h4
    cases c
    case decode => exact hdec
    case magic => exact hmagic
    case buf => exact hbuf
    case copy => exact absurd rfl hc.1
    case est => exact absurd rfl hc.2
    case domainName =>
      simp only [MScheme.call, MScheme.domainName, h3, answer, hk, shown, p1, if_true, Option.bind_some, Slice.bytes]
      rcases c'.domain with - | d <;> rfl
    case tabletName =>
      simp only [MScheme.call, MScheme.tabletName, h3, answer, hk, shown, p2, if_true, Option.bind_some, Slice.bytes]
      rcases c'.tablet with - | d <;> rfl
    case bucketAt i =>
      simp only [MScheme.call, MScheme.bucketAt, h3, answer, hk, shown, p3, if_true, Option.bind_some]
      rcases c'.buckets with - | bs
      · by_cases hi : 0 ≤ i <;> simp [hi, Res.bind]
      · by_cases hi : 0 ≤ i
        · have hn : ¬ i < 0 := by omega
          simp only [if_pos hi, if_neg hn, Option.bind_some]
          rcases bs[i.toNat]? with - | b <;> rfl
        · have hn : i < 0 := by omega
          simp only [if_neg hi, if_pos hn, Res.bind]
    all_goals simp [MScheme.call, MScheme.getDomain, MScheme.getTablet, MScheme.getBuckets, h3, answer, hk, shown, Res.bind, p1, p2, p3]
  · exact bad h3 (by simp [known, h1])
  · exact bad h3 (by simp [known, h1])

/-- C186: the calls on a scheme made from bytes answer as the bytes say, in whatever order they come: the parts panic until `Decode` was
called, and for ever if the bytes do not decode; then they are what the bytes decode to.  Every `Decode` gives the same result, `Encode`
is an error, and nothing changes the bytes. -/
theorem C186_history (buf : Bytes) (cs : List SchemeCall) (hcs : ∀ c ∈ cs, Plain c) : ((newMScheme buf).calls cs).2 = answers buf false cs := by
  suffices hh : ∀ (cs : List SchemeCall) (s : MScheme) (tried : Bool), (∀ c ∈ cs, Plain c) →
      s = (if tried then (newMScheme buf).decode.1 else newMScheme buf) → (s.calls cs).2 = answers buf tried cs from hh cs _ false hcs rfl
  intro cs
  induction cs with
  | nil => intro s tried _ _; rfl
  | cons c cs ih =>
    intro s tried hp hs
    have hst : s = newMScheme buf ∨ s = (newMScheme buf).decode.1 := by cases tried <;> simp at hs <;> simp [hs]
    have hans : (s.call c).2 = answer buf tried c := by
      cases tried
      · rw [hs]; exact call_answer_fresh buf c (hp c (by simp))
      · rw [hs]; exact call_answer_decoded buf c (hp c (by simp))
    rw [MScheme.calls, answers, hans, ih (s.call c).1 (tried || c == .decode) (fun c h => hp c (by simp [h])) ?_]
    rcases call_state buf s c hst with ⟨e, hc⟩ | ⟨e, rfl⟩
    · rw [e, hs]
      have : (c == SchemeCall.decode) = false := by simpa using hc
      rw [this, Bool.or_false]
    · rw [e]; simp

/-- The state after any calls. -/
theorem calls_state (buf : Bytes) (cs : List SchemeCall) :
    ((newMScheme buf).calls cs).1 = if .decode ∈ cs then (newMScheme buf).decode.1 else newMScheme buf := by
  suffices hh : ∀ (cs : List SchemeCall) (s : MScheme), s = newMScheme buf ∨ s = (newMScheme buf).decode.1 →
      (s.calls cs).1 = if .decode ∈ cs then (newMScheme buf).decode.1 else s from hh cs _ (Or.inl rfl)
  intro cs
  induction cs with
  | nil => intro s _; rfl
  | cons c cs ih =>
    intro s hs
    rw [MScheme.calls]
    rcases call_state buf s c hs with ⟨e, hc⟩ | ⟨e, rfl⟩
    · rw [e, ih s hs]
      simp [Ne.symm hc]
    · rw [e, ih _ (Or.inr rfl)]
      simp

theorem copy_same (s : Scheme) : s.copy = s := by
  obtain ⟨d, t, b⟩ := s
  rcases d with - | d <;> rcases t with - | t <;> rcases b with - | b <;> rfl

/-- C187: a copy of a scheme made from bytes is the scheme the bytes decode to. -/
def CopyHasContent : Prop := ∀ (buf : Bytes) (c : Scheme) (n : Nat) (cs : List SchemeCall), decodeScheme buf = .ok (c, n) →
  ((newMScheme buf).calls cs).1.copy = c

/-- C187 does not hold: without a `Decode` before, the copy is empty, although the scheme is not. -/
theorem C187_refuted : ¬ CopyHasContent := by
  intro h
  have := h [0x80, 0, 0, 0] { domain := some [], tablet := some [], buckets := some [] } 4 [.isDecoded] (by decide +kernel)
  revert this
  decide +kernel

/-- C187, exactly: after any calls without `Decode`, the copy has no parts and its estimate is 1; after calls with `Decode`, if the bytes
decode, it has all of them; if they do not, it silently has those before the one that failed. -/
theorem C187_partial (buf : Bytes) (cs : List SchemeCall) :
    (.decode ∉ cs → ((newMScheme buf).calls cs).1.copy = noScheme ∧ ((newMScheme buf).calls cs).1.estBufSize = 1) ∧
    (.decode ∈ cs → ∀ c n, decodeScheme buf = .ok (c, n) →
      ((newMScheme buf).calls cs).1.copy = c ∧ ((newMScheme buf).calls cs).1.estBufSize = c.estBufSize) ∧
    (.decode ∈ cs → (∀ c n, decodeScheme buf ≠ .ok (c, n)) → PartsRead buf ((newMScheme buf).calls cs).1.copy) := by
  rw [calls_state]
  refine ⟨?_, ?_, ?_⟩
  · intro h
    rw [if_neg h]
    exact ⟨rfl, rfl⟩
  · intro h c n hd
    rw [if_pos h]
    obtain ⟨s, e, -, -, h⟩ := decode_fresh buf
    rw [e]
    rcases h with ⟨c', n', h1, -, -, h4⟩ | ⟨h1, -⟩ | ⟨h1, -⟩
    · rw [h1] at hd
      cases hd
      exact ⟨by rw [MScheme.copy, copy_same, h4], by rw [MScheme.estBufSize, h4]⟩
    · rw [h1] at hd; cases hd
    · rw [h1] at hd; cases hd
  · intro h hd
    rw [if_pos h]
    obtain ⟨s, e, -, -, h⟩ := decode_fresh buf
    rw [e, MScheme.copy, copy_same]
    rcases h with ⟨c', n', h1, -⟩ | ⟨-, -, -, h⟩ | ⟨-, -, -, h⟩
    · exact absurd h1 (hd _ _)
    · exact h
    · exact h

/-- A scheme with two buckets: `Decode` twice, in between the parts; before, a panic. -/
def twoBuckets : Bytes := [0x80, 1, 65, 1, 66, 2, 1, 67, 0]

example : decodeScheme twoBuckets = .ok ({ domain := some [65], tablet := some [66], buckets := some [some [67], some []] }, 9) := by decide +kernel

example : ((newMScheme twoBuckets).calls [.domain, .decode, .domain, .tabletName, .bucketAt 0, .bucketAt 2, .decode, .isDecoded, .encode]).2 =
    [.panic, .ok (.number 9), .ok (.slice (some [65])), .ok (.slice (some [66])), .ok (.slice (some [67])), .panic, .ok (.number 9),
      .ok (.flag true), .err] :=
  (C186_history twoBuckets _ (by simp [Plain])).trans (by decide +kernel)

/-- The second bucket is cut off: the copy has the first and a nil. -/
example : ((newMScheme [0x80, 1, 65, 1, 66, 2, 1, 67, 5, 6]).calls [.decode]).1.copy =
    { domain := some [65], tablet := some [66], buckets := some [some [67], none] } := by decide +kernel

example : SchemeCall.decode ∈ [SchemeCall.decode] ∧ ∀ c n, decodeScheme [0x80, 1, 65, 1, 66, 2, 1, 67, 5, 6] ≠ .ok (c, n) := by
  have : decodeScheme [0x80, 1, 65, 1, 66, 2, 1, 67, 5, 6] = .err := by decide +kernel
  simp [this]

end Poodle.Props
