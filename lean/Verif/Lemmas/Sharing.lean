import Verif.Spec.Sharing
import Verif.Model.ValueCopy
import Verif.Lemmas.Value

/-
Lemmas about slices in memory, and about decoding from memory against decoding of byte strings.
-/

namespace Poodle
open Poodle.Spec

/-! ### Memory -/

theorem get_some (m : Mem) (s : Sl) : m.get (some s) = some (m.read s) := rfl
theorem get_none (m : Mem) : m.get none = none := rfl

theorem read_append {m : Mem} {s : Sl} (h : inside m s) (ext : Mem) : (m ++ ext).read s = m.read s := by
  obtain ⟨l, h1, -⟩ := h
  have hl : s.arr < m.length := (List.getElem?_eq_some_iff.mp h1).1
  rw [Mem.read, Mem.read, List.getElem?_append_left hl]

theorem inside_append {m : Mem} {s : Sl} (h : inside m s) (ext : Mem) : inside (m ++ ext) s := by
  obtain ⟨l, h1, h2⟩ := h
  have hl : s.arr < m.length := (List.getElem?_eq_some_iff.mp h1).1
  exact ⟨l, by rw [List.getElem?_append_left hl]; exact h1, h2⟩

theorem inside_lt {m : Mem} {s : Sl} (h : inside m s) : s.arr < m.length := by
  obtain ⟨l, h1, -⟩ := h
  exact (List.getElem?_eq_some_iff.mp h1).1

theorem read_length {m : Mem} {s : Sl} (h : inside m s) : (m.read s).length = s.len := by
  obtain ⟨l, h1, h2⟩ := h
  rw [Mem.read, h1, Option.getD_some, List.length_take, List.length_drop]
  omega

theorem make_read (m : Mem) (l : Bytes) : (m.make l).1.read (m.make l).2 = l := by
  simp [Mem.make, Mem.read]

theorem make_inside (m : Mem) (l : Bytes) : inside (m.make l).1 (m.make l).2 := ⟨l, by simp [Mem.make], by simp [Mem.make]⟩

theorem make_ext (m : Mem) (l : Bytes) : (m.make l).1 = m ++ [l] := rfl

theorem make_arr (m : Mem) (l : Bytes) : (m.make l).2.arr = m.length := rfl

theorem read_sub {m : Mem} {s : Sl} {lo len : Nat} (h : lo + len ≤ s.len) : m.read (s.sub lo len) = ((m.read s).drop lo).take len := by
  simp only [Mem.read, Sl.sub]
  rw [List.drop_take, List.take_take, List.drop_drop, Nat.min_eq_left (by omega)]

theorem read_rest {m : Mem} {s : Sl} {lo : Nat} : m.read (s.rest lo) = (m.read s).drop lo := by
  simp only [Mem.read, Sl.rest]
  rw [List.drop_take, List.drop_drop]

/-- The first slice is a part of the second. -/
def within (t s : Sl) : Prop := t.arr = s.arr ∧ s.off ≤ t.off ∧ t.off + t.len ≤ s.off + s.len

theorem within.refl (s : Sl) : within s s := ⟨rfl, Nat.le_refl _, Nat.le_refl _⟩

theorem within.trans {a b c : Sl} (h1 : within a b) (h2 : within b c) : within a c :=
  ⟨h1.1.trans h2.1, Nat.le_trans h2.2.1 h1.2.1, Nat.le_trans h1.2.2 h2.2.2⟩

theorem within.inside {m : Mem} {t s : Sl} (h : within t s) (hs : inside m s) : inside m t := by
  obtain ⟨l, h1, h2⟩ := hs
  refine ⟨l, by rw [h.1]; exact h1, ?_⟩
  have := h.2.2
  omega

theorem within.covers {t s : Sl} (h : within t s) {a i : Nat} (hc : covers t a i) : covers s a i := by
  obtain ⟨h1, h2, h3⟩ := h
  obtain ⟨c1, c2, c3⟩ := hc
  exact ⟨h1.symm.trans c1, by omega, by omega⟩

theorem within_sub {s : Sl} {lo len : Nat} (h : lo + len ≤ s.len) : within (s.sub lo len) s :=
  ⟨rfl, by simp [Sl.sub], by simp only [Sl.sub]; omega⟩

theorem within_rest {s : Sl} {lo : Nat} (h : lo ≤ s.len) : within (s.rest lo) s :=
  ⟨rfl, by simp [Sl.rest], by simp only [Sl.rest]; omega⟩

/-! ### Writing -/

theorem write_length (m : Mem) (a i : Nat) (b : UInt8) : (m.write a i b).length = m.length := by simp [Mem.write]

theorem write_other {m : Mem} {a i : Nat} {b : UInt8} {c : Nat} (h : c ≠ a) : (m.write a i b)[c]? = m[c]? := by
  rw [Mem.write, List.getElem?_set_ne (Ne.symm h)]

theorem write_same {m : Mem} {a i : Nat} {b : UInt8} {l : Bytes} (h : m[a]? = some l) : (m.write a i b)[a]? = some (l.set i b) := by
  have hl : a < m.length := (List.getElem?_eq_some_iff.mp h).1
  rw [Mem.write, List.getElem?_set_self hl, h, Option.getD_some]

theorem inside_write {m : Mem} {s : Sl} (h : inside m s) (a i : Nat) (b : UInt8) : inside (m.write a i b) s := by
  obtain ⟨l, h1, h2⟩ := h
  by_cases hc : s.arr = a
  · subst hc
    exact ⟨_, write_same h1, by simpa using h2⟩
  · exact ⟨l, by rw [write_other hc]; exact h1, h2⟩

theorem set_eq_self_iff (l : Bytes) (i : Nat) (b : UInt8) (h : i < l.length) : l.set i b = l ↔ l[i]? = some b := by
  constructor
  · intro e
    have : (l.set i b)[i]? = some b := by rw [List.getElem?_set_self h]
    rwa [e] at this
  · intro e
    obtain ⟨h1, h2⟩ := List.getElem?_eq_some_iff.mp e
    rw [← h2, List.set_getElem_self]

theorem read_write {m : Mem} {s : Sl} (h : inside m s) (a i : Nat) (b : UInt8) :
    (m.write a i b).read s = m.read s ↔ (covers s a i → byteAt m a i = some b) := by
  obtain ⟨l, h1, h2⟩ := h
  by_cases hc : s.arr = a
  · subst hc
    rw [Mem.read, Mem.read, write_same h1, h1, Option.getD_some, Option.getD_some, byteAt, h1, Option.getD_some]
    by_cases hi : s.off ≤ i ∧ i < s.off + s.len
    · constructor
      · intro e _
        have : (((l.set i b).drop s.off).take s.len)[i - s.off]? = ((l.drop s.off).take s.len)[i - s.off]? := by rw [e]
        rw [List.getElem?_take_of_lt (by omega), List.getElem?_take_of_lt (by omega), List.getElem?_drop, List.getElem?_drop,
          show s.off + (i - s.off) = i by omega, List.getElem?_set_self (by omega)] at this
        exact this.symm
      · intro e
        rw [(set_eq_self_iff l i b (by omega)).mpr (e ⟨rfl, hi.1, hi.2⟩)]
    · constructor
      · intro _ hcov
        exact absurd ⟨hcov.2.1, hcov.2.2⟩ hi
      · intro _
        apply List.ext_getElem?
        intro j
        by_cases hj : j < s.len
        · rw [List.getElem?_take_of_lt hj, List.getElem?_take_of_lt hj, List.getElem?_drop, List.getElem?_drop,
            List.getElem?_set_ne (by omega)]
        · rw [List.getElem?_take_eq_none (by omega), List.getElem?_take_eq_none (by omega)]
  · constructor
    · intro _ hcov
      exact absurd hcov.1 hc
    · intro _
      rw [Mem.read, Mem.read, write_other hc]

theorem inside_writes {s : Sl} : ∀ (l : List (Nat × Nat × UInt8)) {m : Mem}, inside m s → inside (writes m l) s
  | [], _, h => h
  | w :: l, _, h => inside_writes l (inside_write h w.1 w.2.1 w.2.2)

theorem read_writes {s : Sl} : ∀ (l : List (Nat × Nat × UInt8)) {m : Mem}, inside m s → (∀ w ∈ l, ¬ covers s w.1 w.2.1) →
    (writes m l).read s = m.read s
  | [], _, _, _ => rfl
  | w :: l, m, h, hw => by
    have h1 := read_writes l (inside_write h w.1 w.2.1 w.2.2) (fun x hx => hw x (List.mem_cons_of_mem _ hx))
    have h2 := (read_write h w.1 w.2.1 w.2.2).mpr (fun hc => absurd hc (hw w List.mem_cons_self))
    exact h1.trans h2

/-! ### Decoding -/

/-- Apply a function to the result of a call. -/
def mapR {α β : Type} (f : α → β) (x : Res α) : Res β := x >>= fun a => .ok (f a)

@[simp] theorem mapR_ok {α β : Type} (f : α → β) (a : α) : mapR f (.ok a) = .ok (f a) := rfl
@[simp] theorem mapR_err {α β : Type} (f : α → β) : mapR f (.err : Res α) = .err := rfl
@[simp] theorem mapR_panic {α β : Type} (f : α → β) : mapR f (.panic : Res α) = .panic := rfl

theorem goSlice_parts {buf d : Bytes} {lo hi : Int} (h : goSlice buf lo hi = .ok d) :
    0 ≤ lo ∧ lo ≤ hi ∧ hi ≤ buf.length ∧ d = (buf.take hi.toNat).drop lo.toNat ∧ d.length = hi.toNat - lo.toNat := by
  rw [goSlice] at h
  split_ifs at h with hc
  cases h
  refine ⟨hc.1, hc.2.1, hc.2.2, rfl, ?_⟩
  rw [List.length_drop, List.length_take]
  omega

theorem decodeVarchar_window {buf d : Bytes} {n : Nat} (h : decodeVarchar buf = .ok (d, n)) :
    d.length ≤ n ∧ n ≤ buf.length ∧ d = (buf.drop (n - d.length)).take d.length := by
  cases buf with
  | nil =>
    simp only [decodeVarchar, Res.ok.injEq, Prod.mk.injEq] at h
    obtain ⟨rfl, rfl⟩ := h
    simp
  | cons b0 bs =>
    rw [decodeVarchar] at h
    simp only at h
    split_ifs at h with h1 h2 h3
    obtain ⟨e, h4, h5⟩ := Res.bind_eq_ok.mp h
    cases h5
    obtain ⟨g1, g2, g3, g4, g5⟩ := goSlice_parts h4
    refine ⟨by omega, by omega, ?_⟩
    have e1 : (wrap64 ((uvarint (b0 :: bs)).2 + wrap64 (uvarint (b0 :: bs)).1)).toNat - d.length = (uvarint (b0 :: bs)).2.toNat := by omega
    rw [e1]
    conv_lhs => rw [g4]
    rw [List.drop_take, g5]

theorem varcharAt_view {m : Mem} {s : Sl} (h : inside m s) : mapR (fun p => (m.read p.1, p.2)) (varcharAt m s) = decodeVarchar (m.read s) := by
  rw [varcharAt]
  cases e : decodeVarchar (m.read s) with
  | ok p =>
    obtain ⟨d, n⟩ := p
    obtain ⟨h1, h2, h3⟩ := decodeVarchar_window e
    rw [read_length h] at h2
    simp only [Res.bind_ok, mapR_ok]
    rw [read_sub (by omega), ← h3]
  | err => rfl
  | panic => rfl

theorem varcharAt_ok {m : Mem} {s t : Sl} {n : Nat} (h : inside m s) (e : varcharAt m s = .ok (t, n)) :
    decodeVarchar (m.read s) = .ok (m.read t, n) ∧ within t s ∧ n ≤ s.len ∧ t.len ≤ n := by
  have hv := varcharAt_view h
  rw [e, mapR_ok] at hv
  refine ⟨hv.symm, ?_⟩
  rw [varcharAt] at e
  obtain ⟨⟨d, k⟩, h1, h2⟩ := Res.bind_eq_ok.mp e
  cases h2
  obtain ⟨h3, h4, -⟩ := decodeVarchar_window h1
  rw [read_length h] at h4
  exact ⟨within_sub (by omega), h4, h3⟩

theorem subKeysAt_view {m : Mem} : ∀ (n : Nat) {s : Sl}, inside m s →
    mapR (fun p => (p.1.map m.get, p.2)) (subKeysAt m n s) = decodeSubKeys n (m.read s)
  | 0, _, _ => rfl
  | n + 1, s, h => by
    rw [subKeysAt, decodeSubKeys, ← varcharAt_view h]
    cases e : varcharAt m s with
    | ok p =>
      obtain ⟨t, k⟩ := p
      obtain ⟨-, -, hk, -⟩ := varcharAt_ok h e
      simp only [Res.bind_ok, mapR_ok]
      rw [← read_rest, ← subKeysAt_view n ((within_rest hk).inside h)]
      cases subKeysAt m n (s.rest k) <;> rfl
    | err => rfl
    | panic => rfl

theorem subKeysAt_within {m : Mem} : ∀ (n : Nat) {s : Sl} {l : List (Option Sl)} {k : Nat}, inside m s → subKeysAt m n s = .ok (l, k) →
    (∀ t ∈ slicesIn l, within t s) ∧ k ≤ s.len
  | 0, _, _, _, _, e => by
    cases e
    exact ⟨by simp [slicesIn], Nat.zero_le _⟩
  | n + 1, s, l, k, h, e => by
    rw [subKeysAt] at e
    obtain ⟨⟨t, k1⟩, h1, e⟩ := Res.bind_eq_ok.mp e
    obtain ⟨⟨l', k2⟩, h2, e⟩ := Res.bind_eq_ok.mp e
    cases e
    obtain ⟨-, w, hk, -⟩ := varcharAt_ok h h1
    obtain ⟨w2, hk2⟩ := subKeysAt_within n ((within_rest hk).inside h) h2
    refine ⟨?_, ?_⟩
    · intro u hu
      rw [slicesIn] at hu
      rcases List.mem_cons.mp hu with rfl | hu
      · exact w
      · exact (w2 u hu).trans (within_rest hk)
    · simp only [Sl.rest] at hk2
      omega

theorem uvarint_le (buf : Bytes) : (uvarint buf).2.toNat ≤ buf.length := by
  by_cases h : 0 < (uvarint buf).2
  · obtain ⟨p, rest, e, -, -, -, hn⟩ := (uvarint_pos_iff (buf := buf) (v := (uvarint buf).1) (n := (uvarint buf).2)).mp ⟨rfl, h⟩
    have : buf.length = p.length + rest.length := by rw [← List.length_append, ← e]
    rw [hn]
    omega
  · omega

theorem decodeUvarint64_le {buf : Bytes} {v n : Nat} (h : decodeUvarint64 buf = .ok (v, n)) : n ≤ buf.length := by
  cases buf with
  | nil => simp only [decodeUvarint64, Res.ok.injEq, Prod.mk.injEq] at h; omega
  | cons b0 bs =>
    rw [decodeUvarint64] at h
    simp only at h
    split_ifs at h with h1 h2 h3
    simp only [Res.ok.injEq, Prod.mk.injEq] at h
    obtain ⟨-, rfl⟩ := h
    exact uvarint_le _

theorem mappedKeyAt_view {m : Mem} {s : Sl} (h : inside m s) :
    mapR (fun p => (viewMapped m p.1, p.2)) (mappedKeyAt m s) = newMappedKey (m.read s) := by
  rw [mappedKeyAt, newMappedKey]
  cases e : decodeUvarint64 (m.read s) with
  | ok p =>
    obtain ⟨n, k⟩ := p
    have hk := decodeUvarint64_le e
    rw [read_length h] at hk
    simp only [Res.bind_ok]
    split_ifs
    · rfl
    · rw [← read_rest, ← subKeysAt_view n ((within_rest hk).inside h)]
      cases subKeysAt m n (s.rest k) <;> rfl
  | err => rfl
  | panic => rfl

theorem mappedKeyAt_within {m : Mem} {s : Sl} {k : SMapped} {n : Nat} (h : inside m s) (e : mappedKeyAt m s = .ok (k, n)) :
    k.buf = s ∧ ∀ t ∈ slicesIn k.keys, within t s := by
  rw [mappedKeyAt] at e
  obtain ⟨⟨c, n1⟩, h1, e⟩ := Res.bind_eq_ok.mp e
  have hk := decodeUvarint64_le h1
  rw [read_length h] at hk
  simp only at e
  split_ifs at e
  obtain ⟨⟨l, n2⟩, h2, e⟩ := Res.bind_eq_ok.mp e
  cases e
  exact ⟨rfl, fun t ht => ((subKeysAt_within c ((within_rest hk).inside h) h2).1 t ht).trans (within_rest hk)⟩

theorem stdWire_suffix {w : Bytes} {k : VKind} {n : Nat} {c : Bytes} (h : IsStdWire w k n c) :
    c.length ≤ w.length ∧ c = (w.drop (w.length - c.length)).take c.length := by
  have : ∃ p, w = p ++ c := by
    cases h with
    | prim m len l _ => exact ⟨m :: l, rfl⟩
    | array m _ len c' l _ => exact ⟨m :: (c' ++ l), rfl⟩
    | records m _ len c' l _ => exact ⟨m :: (c' ++ l), rfl⟩
  obtain ⟨p, rfl⟩ := this
  simp

theorem placeStd_view {m : Mem} {s : Sl} {d : StdValue} {n : Nat} (h : inside m s) (hd : decodeStd (m.read s) = .ok (d, n)) :
    viewStd m (placeStd s d) = d ∧ (∀ t ∈ slicesStd (placeStd s d), within t s) ∧ n = d.buf.length ∧ n ≤ s.len := by
  obtain ⟨rest, h1, h2, h3⟩ := (decodeStd_ok_iff _ _ _).mp hd
  obtain ⟨h4, h5⟩ := stdWire_suffix h3
  have hl : d.buf.length ≤ s.len := by
    rw [← read_length h, h1]
    simp
  refine ⟨?_, ?_, h2, by omega⟩
  · rw [viewStd, placeStd]
    simp only
    rw [read_sub (by omega), read_sub (by omega), h1]
    have e1 : ((d.buf ++ rest).drop 0).take d.buf.length = d.buf := by simp
    have e2 : ((d.buf ++ rest).drop (d.buf.length - d.content.length)).take d.content.length = d.content := by
      rw [List.drop_append_of_le_length (by omega), List.take_append_of_le_length (by rw [List.length_drop]; omega), ← h5]
    rw [e1, e2]
  · intro t ht
    simp only [slicesStd, placeStd, List.mem_cons, List.not_mem_nil, or_false] at ht
    rcases ht with rfl | rfl
    · exact within_sub (by omega)
    · exact within_sub (by omega)

theorem stdAt_view {m : Mem} {s : Sl} (h : inside m s) : mapR (fun p => (viewStd m p.1, p.2)) (stdAt m s) = decodeStd (m.read s) := by
  rw [stdAt]
  cases e : decodeStd (m.read s) with
  | ok p =>
    obtain ⟨d, n⟩ := p
    simp only [Res.bind_ok, mapR_ok]
    rw [(placeStd_view h e).1]
  | err => rfl
  | panic => rfl

theorem stdAt_ok {m : Mem} {s : Sl} {d : SStd} {n : Nat} (h : inside m s) (e : stdAt m s = .ok (d, n)) :
    decodeStd (m.read s) = .ok (viewStd m d, n) ∧ (∀ t ∈ slicesStd d, within t s) ∧ n = d.buf.len ∧ n ≤ s.len := by
  have hv := stdAt_view h
  rw [e, mapR_ok] at hv
  refine ⟨hv.symm, ?_⟩
  rw [stdAt] at e
  obtain ⟨⟨d', k⟩, h1, h2⟩ := Res.bind_eq_ok.mp e
  cases h2
  obtain ⟨-, h3, h4, h5⟩ := placeStd_view h h1
  exact ⟨h3, h4, h5⟩

theorem simpleAt_view {m : Mem} {s : Sl} (h : inside m s) :
    mapR (fun p => (m.read p.1, m.read p.2.1, p.2.2)) (simpleAt m s) = decodeSimple (m.read s) := by
  rw [simpleAt, decodeSimple, ← varcharAt_view h]
  cases e : varcharAt m s with
  | ok p =>
    obtain ⟨t, n⟩ := p
    obtain ⟨-, -, hn, -⟩ := varcharAt_ok h e
    simp only [Res.bind_ok, mapR_ok]
    rw [read_sub (by omega)]
    simp
  | err => rfl
  | panic => rfl

theorem simpleAt_within {m : Mem} {s c b : Sl} {n : Nat} (h : inside m s) (e : simpleAt m s = .ok (c, b, n)) : within c s ∧ within b s := by
  rw [simpleAt] at e
  obtain ⟨⟨t, k⟩, h1, h2⟩ := Res.bind_eq_ok.mp e
  cases h2
  obtain ⟨-, h3, h4, -⟩ := varcharAt_ok h h1
  exact ⟨h3, within_sub (by omega)⟩

theorem decodeRecord_places {buf : Bytes} {r : RecInfo} {n : Nat} (h : decodeRecord buf = .ok (r, n)) :
    ∃ kn vn sn, newMappedKey (buf.drop 1) = .ok (r.key, kn) ∧ decodeStd (buf.drop (1 + r.key.getBuf.length)) = .ok (r.value, vn) ∧
      decodeStd (buf.drop (1 + r.key.getBuf.length + r.value.buf.length)) = .ok (r.scheme, sn) ∧ r.buf = buf.take n ∧ n ≤ buf.length ∧
      1 ≤ buf.length ∧ 1 + r.key.getBuf.length ≤ buf.length ∧ 1 + r.key.getBuf.length + r.value.buf.length ≤ buf.length := by
  unfold decodeRecord at h
  split at h
  · exact absurd h (by simp)
  rename_i hb
  obtain ⟨m, -, h⟩ := Res.bind_eq_ok.mp h
  split at h
  · exact absurd h (by simp)
  obtain ⟨k, hk, h⟩ := Res.bind_eq_ok.mp h
  split at h
  · exact absurd h (by simp)
  obtain ⟨v, hv, h⟩ := Res.bind_eq_ok.mp h
  obtain ⟨s, hs, h⟩ := Res.bind_eq_ok.mp h
  obtain ⟨t, ht, h⟩ := Res.bind_eq_ok.mp h
  obtain ⟨g, hg, h⟩ := Res.bind_eq_ok.mp h
  obtain ⟨b, hb', h⟩ := Res.bind_eq_ok.mp h
  simp only [Res.ok.injEq, Prod.mk.injEq] at h
  obtain ⟨rfl, rfl⟩ := h
  simp only
  rw [decodeRecPart] at hv hs
  split_ifs at hv with v1 v2
  split_ifs at hs with s1 s2
  obtain ⟨⟨vd, vn⟩, hvd, hv⟩ := Res.bind_eq_ok.mp hv
  obtain ⟨⟨sd, sn⟩, hsd, hs⟩ := Res.bind_eq_ok.mp hs
  simp only at hv hs
  split_ifs at hv
  split_ifs at hs
  cases hv
  cases hs
  obtain ⟨-, -, g3, g4, -⟩ := goSlice_parts hb'
  exact ⟨k.2, vn, sn, hk, hvd, hsd, by simpa using g4, by omega, by omega, by omega, by simp only at s1 ⊢; omega⟩

theorem memRecord_ok' {m : Mem} {s : Sl} {r : RecInfo} {n : Nat} (h : inside m s) (hd : decodeRecord (m.read s) = .ok (r, n)) :
    ∃ r', recordAt m s = .ok (r', n) ∧ viewInfo m r' = r ∧ (∀ t ∈ slicesInfo r', within t s) ∧ r'.buf.len = r.buf.length := by
  obtain ⟨kn, vn, sn, hk, hv, hs, hb, hn, l1, l2, l3⟩ := decodeRecord_places hd
  rw [read_length h] at hn l1 l2 l3
  have i1 := (within_rest (s := s) l1).inside h
  have i2 := (within_rest (s := s) l2).inside h
  have i3 := (within_rest (s := s) l3).inside h
  rw [← read_rest] at hk hv hs
  rw [← mappedKeyAt_view i1] at hk
  obtain ⟨⟨k, n1⟩, e1, e2⟩ := Res.bind_eq_ok.mp hk
  simp only [Res.ok.injEq, Prod.mk.injEq] at e2
  obtain ⟨p1, p2, p3, p4⟩ := placeStd_view i2 hv
  obtain ⟨q1, q2, q3, q4⟩ := placeStd_view i3 hs
  obtain ⟨k1, k2⟩ := mappedKeyAt_within i1 e1
  have hl : r.buf.length = n := by rw [hb, List.length_take, read_length h]; omega
  refine ⟨_, by rw [recordAt, hd, Res.bind_ok]; simp only; rw [e1, Res.bind_ok], ?_, ?_, rfl⟩
  · rw [viewInfo]
    simp only
    rw [p1, q1, e2.1, read_sub (by omega), hl]
    cases r
    simp only at hb ⊢
    rw [hb]
    simp
  · intro t ht
    simp only [slicesInfo, slicesMapped, List.mem_cons, List.mem_append, List.not_mem_nil, or_false] at ht
    rcases ht with rfl | ((ht | rfl) | ht) | ht
    · exact within_sub (by omega)
    · exact (k2 t ht).trans (within_rest l1)
    · rw [k1]; exact within_rest l1
    · exact (p2 t ht).trans (within_rest l2)
    · exact (q2 t ht).trans (within_rest l3)

theorem recordAt_view {m : Mem} {s : Sl} (h : inside m s) :
    mapR (fun p => (viewInfo m p.1, p.2)) (recordAt m s) = decodeRecord (m.read s) := by
  cases e : decodeRecord (m.read s) with
  | ok p =>
    obtain ⟨r, n⟩ := p
    obtain ⟨r', e1, e2, -⟩ := memRecord_ok' h e
    rw [e1, mapR_ok]
    simp only
    rw [e2]
  | err => rw [recordAt, e]; rfl
  | panic => rw [recordAt, e]; rfl

theorem memRecord_ok {m : Mem} {s : Sl} {r : SRecInfo} {n : Nat} (h : inside m s) (e : recordAt m s = .ok (r, n)) :
    decodeRecord (m.read s) = .ok (viewInfo m r, n) ∧ (∀ t ∈ slicesInfo r, within t s) ∧ r.buf.len = n ∧ n ≤ s.len := by
  have hv := recordAt_view h
  rw [e, mapR_ok] at hv
  simp only at hv
  obtain ⟨r', e1, e2, e3, e4⟩ := memRecord_ok' h hv.symm
  rw [e] at e1
  cases e1
  obtain ⟨-, -, -, -, -, -, hb, hn, -⟩ := decodeRecord_places hv.symm
  rw [read_length h] at hn
  have hl : (viewInfo m r).buf.length = n := by rw [hb, List.length_take, read_length h]; omega
  exact ⟨hv.symm, e3, by omega, hn⟩

theorem schemeAt_view {m : Mem} {s : Sl} (h : inside m s) :
    mapR (fun p => (viewScheme m p.1, p.2)) (schemeAt m s) = decodeScheme (m.read s) := by
  have hl := read_length h
  by_cases h0 : s.len = 0
  · rw [h0, List.length_eq_zero_iff] at hl
    rw [schemeAt, if_pos h0, hl, decodeScheme]
    rfl
  · rw [schemeAt, if_neg h0]
    have i1 := (within_rest (s := s) (lo := 1) (by omega)).inside h
    have hr : m.read (s.rest 1) = (m.read s).drop 1 := read_rest
    cases eb : m.read s with
    | nil => rw [eb] at hl; simp at hl; omega
    | cons b0 rest =>
      rw [eb, List.drop_succ_cons, List.drop_zero] at hr
      rw [decodeScheme, ← hr, ← varcharAt_view i1]
      cases e1 : varcharAt m (s.rest 1) with
      | ok p =>
        obtain ⟨d, n1⟩ := p
        obtain ⟨-, -, l1, -⟩ := varcharAt_ok i1 e1
        have i2 := (within_rest l1).inside i1
        simp only [Res.bind_ok, mapR_ok]
        rw [← read_rest, ← varcharAt_view i2]
        cases e2 : varcharAt m ((s.rest 1).rest n1) with
        | ok p =>
          obtain ⟨t, n2⟩ := p
          obtain ⟨-, -, l2, -⟩ := varcharAt_ok i2 e2
          have i3 := (within_rest l2).inside i2
          simp only [Res.bind_ok, mapR_ok]
          rw [← read_rest]
          cases e3 : decodeUvarint64 (m.read (((s.rest 1).rest n1).rest n2)) with
          | ok p =>
            obtain ⟨n, n3⟩ := p
            have l3 := decodeUvarint64_le e3
            rw [read_length i3] at l3
            have i4 := (within_rest l3).inside i3
            simp only [Res.bind_ok]
            split_ifs
            · rfl
            · rw [← read_rest, ← subKeysAt_view n i4]
              cases subKeysAt m n ((((s.rest 1).rest n1).rest n2).rest n3) <;> rfl
          | err => rfl
          | panic => rfl
        | err => rfl
        | panic => rfl
      | err => rfl
      | panic => rfl

end Poodle
