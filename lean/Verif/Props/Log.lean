import Verif.Spec.Log
import Verif.Props.Codec
import Verif.Props.Key
import Verif.Props.Value
import Verif.Props.MphCodec

/-
Property C210: encodings written one after the other, when the end is missing.
-/

namespace Poodle.Props
open Poodle Poodle.Spec

/-! ### C210 A log with its end cut off is read up to the last complete item -/

/-- Reading is determined by the bytes. -/
theorem readsLog_unique {α : Type} {dec : Bytes → Res (α × Nat)} {buf : Bytes} {xs ys : List α} {e e' : LogEnd}
    (h : ReadsLog dec buf xs e) (h' : ReadsLog dec buf ys e') : xs = ys ∧ e = e' := by
  induction h generalizing ys e' with
  | complete =>
    cases h' with
    | complete => exact ⟨rfl, rfl⟩
    | item h => exact absurd rfl h
    | failed h => exact absurd rfl h
    | crashed h => exact absurd rfl h
  | item hne hd _ ih =>
    cases h' with
    | complete => exact absurd rfl hne
    | item _ hd' ht =>
      rw [hd] at hd'
      cases hd'
      obtain ⟨h1, h2⟩ := ih ht
      exact ⟨by rw [h1], h2⟩
    | failed _ hd' => rw [hd] at hd'; cases hd'
    | crashed _ hd' => rw [hd] at hd'; cases hd'
  | failed hne hd =>
    cases h' with
    | complete => exact absurd rfl hne
    | item _ hd' => rw [hd] at hd'; cases hd'
    | failed => exact ⟨rfl, rfl⟩
    | crashed _ hd' => rw [hd] at hd'; cases hd'
  | crashed hne hd =>
    cases h' with
    | complete => exact absurd rfl hne
    | item _ hd' => rw [hd] at hd'; cases hd'
    | failed _ hd' => rw [hd] at hd'; cases hd'
    | crashed => exact ⟨rfl, rfl⟩

section
variable {α β : Type} {dec : Bytes → Res (α × Nat)} {view : α → β} {L : Nat}

/-- `w` is read as something with the view `b`, whatever follows. -/
def ReadAs (dec : Bytes → Res (α × Nat)) (view : α → β) (L : Nat) (w : Bytes) (b : β) : Prop :=
  w ≠ [] ∧ ∀ rest : Bytes, (w ++ rest).length ≤ L → ∃ x, dec (w ++ rest) = .ok (x, w.length) ∧ view x = b

theorem reads_whole {ws : List Bytes} {bs : List β} (h : List.Forall₂ (ReadAs dec view L) ws bs) (q : Bytes) (hL : (ws.flatten ++ q).length ≤ L)
    {ys : List α} {e : LogEnd} (hq : ReadsLog dec q ys e) :
    ∃ xs, ReadsLog dec (ws.flatten ++ q) (xs ++ ys) e ∧ xs.map view = bs := by
  induction h with
  | nil => exact ⟨[], by simpa using hq, rfl⟩
  | @cons w b ws bs hw _ ih =>
    obtain ⟨xs, h1, h2⟩ := ih (by simp only [List.flatten_cons, List.length_append] at hL ⊢; omega)
    obtain ⟨hne, hr⟩ := hw
    rw [List.flatten_cons, List.append_assoc] at hL ⊢
    obtain ⟨x, hx, hv⟩ := hr _ hL
    refine ⟨x :: xs, ReadsLog.item (by simp [hne]) hx (by simpa using h1), by rw [List.map_cons, hv, h2]⟩

theorem wholeItems_le (n : Nat) (ws : List Bytes) : wholeItems n ws ≤ ws.length := by
  induction ws generalizing n with
  | nil => simp [wholeItems]
  | cons w ws ih =>
    rw [wholeItems]
    split
    · have := ih (n - w.length); simp only [List.length_cons]; omega
    · simp

/-- The first `n` bytes are the whole items and a part of the next one. -/
theorem cut_log (n : Nat) (ws : List Bytes) (hne : ∀ w ∈ ws, w ≠ []) : ∃ q : Bytes,
    ws.flatten.take n = (ws.take (wholeItems n ws)).flatten ++ q ∧
      (q ≠ [] → ∃ w, ws[wholeItems n ws]? = some w ∧ q <+: w ∧ q ≠ w) ∧ (CutBetween n ws ↔ q = []) := by
  induction ws generalizing n with
  | nil => exact ⟨[], by simp [wholeItems], by simp, by simp [CutBetween]⟩
  | cons w ws ih =>
    have hw := hne w (by simp)
    by_cases hl : w.length ≤ n
    · obtain ⟨q, h1, h2, h3⟩ := ih (n - w.length) (fun w' h => hne w' (List.mem_cons_of_mem _ h))
      rw [wholeItems, if_pos hl]
      have e : (w :: ws).flatten.take n = w ++ ws.flatten.take (n - w.length) := by
        rw [List.flatten_cons, List.take_append, List.take_of_length_le hl]
      refine ⟨q, ?_, by simpa using h2, ?_⟩
      · rw [e, h1]; simp
      · rw [← h3]
        constructor
        · rintro ⟨i, hi⟩
          rw [e] at hi
          cases i with
          | zero => simp at hi; exact absurd hi.1 hw
          | succ i => exact ⟨i, by simpa using hi⟩
        · rintro ⟨i, hi⟩
          exact ⟨i + 1, by rw [e, hi]; simp⟩
    · rw [wholeItems, if_neg hl]
      have e : (w :: ws).flatten.take n = w.take n := by
        rw [List.flatten_cons, List.take_append, show n - w.length = 0 by omega]; simp
      refine ⟨w.take n, by rw [e]; simp, fun _ => ⟨w, by simp, List.take_prefix _ _, fun h => hl ?_⟩, ?_⟩
      · rw [← h, List.length_take]; exact Nat.min_le_left _ _
      · rw [CutBetween, e]
        constructor
        · rintro ⟨i, hi⟩
          cases i with
          | zero => simpa using hi
          | succ i =>
            have := congrArg List.length hi
            simp only [List.take_succ_cons, List.flatten_cons, List.length_append, List.length_take] at this
            omega
        · intro h
          exact ⟨0, by simpa using h⟩

/-- The log read up to the last whole item, and what the rest gives. -/
theorem reads_cut {ws : List Bytes} {bs : List β} (h : List.Forall₂ (ReadAs dec view L) ws bs) (n : Nat) (hL : ws.flatten.length ≤ L) :
    ∃ q : Bytes, (q ≠ [] → ∃ w, ws[wholeItems n ws]? = some w ∧ q <+: w ∧ q ≠ w) ∧ (CutBetween n ws ↔ q = []) ∧
      ∀ ys e, ReadsLog dec q ys e →
        ∃ xs, ReadsLog dec (ws.flatten.take n) (xs ++ ys) e ∧ xs.map view = bs.take (wholeItems n ws) := by
  have hne : ∀ w ∈ ws, w ≠ [] := by
    intro w hw
    obtain ⟨i, hi, rfl⟩ := List.mem_iff_getElem.mp hw
    exact (h.get hi (by rw [← h.length_eq]; exact hi)).1
  obtain ⟨q, h1, h2, h3⟩ := cut_log n ws hne
  refine ⟨q, h2, h3, fun ys e hq => ?_⟩
  rw [h1]
  refine reads_whole (List.forall₂_take _ h) q ?_ hq
  rw [← h1, List.length_take]
  omega

/-- If parts of encodings are refused, exactly the whole items are read. -/
theorem reads_cut_err {ws : List Bytes} {bs : List β} (h : List.Forall₂ (ReadAs dec view L) ws bs) (n : Nat) (hL : ws.flatten.length ≤ L)
    (herr : ∀ w ∈ ws, ∀ q, q <+: w → q ≠ w → q ≠ [] → dec q = .err) :
    ∃ xs e, ReadsLog dec (ws.flatten.take n) xs e ∧ xs.map view = bs.take (wholeItems n ws) ∧
      e ≠ .crashed ∧ (e = .complete ↔ CutBetween n ws) := by
  obtain ⟨q, h1, h2, h3⟩ := reads_cut h n hL
  by_cases hq : q = []
  · subst hq
    obtain ⟨xs, h4, h5⟩ := h3 [] _ .complete
    exact ⟨xs, _, by simpa using h4, h5, by simp, by simp [h2]⟩
  · obtain ⟨w, hw, hp, hn⟩ := h1 hq
    obtain ⟨xs, h4, h5⟩ := h3 [] _ (.failed hq (herr w (List.mem_of_getElem? hw) q hp hn hq))
    exact ⟨xs, _, by simpa using h4, h5, by simp, by simp [h2, hq]⟩

end

/-- C210, byte strings: whatever byte strings were written with EncodeVarchar, and wherever their log is cut off, reading gives exactly the
strings written completely, and then an error unless the log is cut between two of them. -/
theorem C210_varchars (ds : List Bytes) (n : Nat) (hL : (ds.map encodeVarchar).flatten.length < 2 ^ 62) :
    ∃ e, ReadsLog decodeVarchar ((ds.map encodeVarchar).flatten.take n) (ds.take (wholeItems n (ds.map encodeVarchar))) e ∧
      e ≠ .crashed ∧ (e = .complete ↔ CutBetween n (ds.map encodeVarchar)) := by
  have hd : ∀ d ∈ ds, d.length < 2 ^ 62 := by
    intro d hd
    refine lt_of_le_of_lt ?_ hL
    have h1 : (encodeVarchar d).length ≤ (ds.map encodeVarchar).flatten.length :=
      (List.sublist_flatten_of_mem (List.mem_map_of_mem hd)).length_le
    have h2 : d.length ≤ (encodeVarchar d).length := by simp [encodeVarchar]
    omega
  have hne : ∀ d, encodeVarchar d ≠ [] := by
    intro d h
    have := congrArg decodeVarchar h
    simp only [encodeVarchar, List.append_eq_nil_iff] at h
    rw [h.2] at h
    exact absurd h.1 (by decide +kernel)
  obtain ⟨xs, e, h1, h2, h3⟩ := reads_cut_err (dec := decodeVarchar) (view := id) (L := 2 ^ 62) (ws := ds.map encodeVarchar) (bs := ds)
    (by
      rw [List.forall₂_map_left_iff, List.forall₂_same]
      intro d hd
      exact ⟨hne d, fun rest hr => ⟨d, C01_varchar_roundtrip d rest (by omega), rfl⟩⟩) n (by omega)
    (by
      intro w hw q hq hqne hq0
      obtain ⟨d, hd', rfl⟩ := List.mem_map.mp hw
      exact varchar_strict_prefix_err (hd d hd') hq hqne hq0)
  rw [List.map_id] at h2
  rw [← h2]
  exact ⟨e, h1, h3⟩

/-- Three strings, the last one cut off. -/
example : ∃ e, ReadsLog decodeVarchar [1, 7, 0, 2, 8] [[7], []] e ∧ e ≠ .crashed ∧ (e = .complete ↔ CutBetween 5 [[1, 7], [0], [2, 8, 9]]) :=
  C210_varchars [[7], [], [8, 9]] 5 (by decide +kernel)

/-- C210, values: the same for values, with the value read being the one that its own bytes give. -/
theorem C210_values (vs : List CVal) (ws : List Bytes) (h : List.Forall₂ (fun v w => v.encode = .ok w ∧ v ≠ .prim none) vs ws) (n : Nat) :
    ∃ xs e, ReadsLog decodeStd (ws.flatten.take n) xs e ∧
      xs.map (fun d => Res.ok (d, d.buf.length)) = (ws.take (wholeItems n ws)).map decodeStd ∧
      xs.map (fun d => d.buf) = ws.take (wholeItems n ws) ∧ e ≠ .crashed ∧ (e = .complete ↔ CutBetween n ws) := by
  have hw : ∀ w ∈ ws, ∃ d : StdValue, IsStdWire w d.kind d.size d.content ∧ d.buf = w := by
    intro w hw
    obtain ⟨i, hi, rfl⟩ := List.mem_iff_getElem.mp hw
    obtain ⟨h1, h2⟩ := h.get (by rw [h.length_eq]; exact hi) hi
    obtain ⟨kind, content, hk⟩ := C46_wellFormed _ _ h1 h2
    exact ⟨{ buf := _, kind := kind, size := _, content := content }, hk, rfl⟩
  have hdec : ∀ w ∈ ws, ∃ d, d.buf = w ∧ ∀ rest, decodeStd (w ++ rest) = .ok (d, w.length) := by
    intro w hw'
    obtain ⟨d, hd, hb⟩ := hw w hw'
    have : decodeStd w = .ok (d, w.length) := (C44_accepts_iff _ _ _).mpr ⟨by simpa using hd, by simpa using hb, le_refl _⟩
    refine ⟨d, hb, fun rest => ?_⟩
    have := C44_independent _ _ _ this rest
    simpa using this
  obtain ⟨xs, e, h1, h2, h3⟩ := reads_cut_err (dec := decodeStd) (view := fun d => (d.buf, Res.ok (d, d.buf.length))) (L := ws.flatten.length)
    (ws := ws) (bs := ws.map fun w => (w, decodeStd w))
    (by
      rw [List.forall₂_map_right_iff, List.forall₂_same]
      intro w hw'
      obtain ⟨d, hb, hd⟩ := hdec w hw'
      have h0 := hd []
      rw [List.append_nil] at h0
      obtain ⟨h4, -, -⟩ := C44_consumed _ _ _ h0
      exact ⟨fun h => by simp [h] at h4, fun rest _ => ⟨d, hd rest, by simp only [hb, h0]⟩⟩) n (le_refl _)
    (by
      intro w hw' q hq hqne hq0
      obtain ⟨d, hb, hd⟩ := hdec w hw'
      rcases hc : decodeStd q with ⟨d', m⟩ | - | -
      · obtain ⟨t, rfl⟩ := hq
        have h0 := hd []
        obtain ⟨-, hm, -⟩ := C44_consumed _ _ _ hc
        have := C44_independent _ _ _ hc (q.drop m ++ t)
        rw [← List.append_assoc, List.take_append_drop] at this
        rw [List.append_nil, this] at h0
        simp only [Res.ok.injEq, Prod.mk.injEq, List.length_append] at h0
        exact absurd (by rw [show t = [] from List.length_eq_zero_iff.mp (by omega), List.append_nil]) hqne
      · rfl
      · exact absurd hc (C44_no_panic q))
  refine ⟨xs, e, h1, ?_, ?_, h3⟩
  · have := congrArg (List.map Prod.snd) h2
    simpa [List.map_map, ← List.map_take, Function.comp_def] using this
  · have := congrArg (List.map Prod.fst) h2
    simpa [List.map_map, ← List.map_take, Function.comp_def] using this

example := C210_values [.prim (some [7]), .array [.prim (some [8])]] [[0x01, 1, 7], [0x41, 1, 3, 0x01, 1, 8]]
  (.cons ⟨by decide +kernel, by simp⟩ (.cons ⟨by decide +kernel, by simp⟩ .nil)) 7

/-- C210, perfect hash tables in hash mode, whatever hashes, order of buckets and seeds they were built with. -/
theorem C210_tables (ts : List (MphTable KeyObj)) (ws : List Bytes)
    (h : List.Forall₂ (fun t w => t.encode = .ok w ∧ ∃ (ops : MphOps KeyObj) (order : List (Nat × List Nat) → List (Nat × List Nat))
      (fuel : Nat) (vs : UInt32) (keys : List KeyObj), (∀ l, (order l).Perm l) ∧ keys.length ≤ 2 ^ 31 ∧
        mphBuild ops order fuel vs keys false = .ok t) ts ws) (n : Nat) :
    ∃ e, ReadsLog newMphTable (ws.flatten.take n) (ts.take (wholeItems n ws)) e ∧ e ≠ .crashed ∧ (e = .complete ↔ CutBetween n ws) := by
  obtain ⟨xs, e, h1, h2, h3⟩ := reads_cut_err (dec := newMphTable) (view := id) (L := ws.flatten.length) (ws := ws) (bs := ts)
    (by
      refine h.flip.imp ?_
      rintro w t ⟨he, ops, order, fuel, vs, keys, hord, hlen, hb⟩
      obtain ⟨enc, h1, h2⟩ := C38_hash_mode_partial ops order hord fuel vs keys hlen t hb
      rw [he] at h1
      cases h1
      refine ⟨?_, fun rest _ => ⟨t, h2 rest, rfl⟩⟩
      rintro rfl
      have := h2 []
      simp [newMphTable] at this) n (le_refl _)
    (by
      intro w hw q hq hqne hq0
      obtain ⟨i, hi, rfl⟩ := List.mem_iff_getElem.mp hw
      obtain ⟨he, ops, order, fuel, vs, keys, hord, hlen, hb⟩ := h.get (by rw [h.length_eq]; exact hi) hi
      obtain ⟨r, hr⟩ := hq
      have := C40_truncated_rejected ops order hord fuel vs keys hlen _ hb _ he q.length (by
        have h0 : r ≠ [] := by rintro rfl; exact hqne (by simpa using hr)
        have := List.length_pos_iff.mpr h0
        show q.length < ws[i].length
        rw [← hr, List.length_append]
        omega)
      rw [show (ws.get ⟨i, hi⟩) = q ++ r from hr.symm, List.take_left] at this
      exact this)
  rw [List.map_id] at h2
  rw [← h2]
  exact ⟨e, h1, h3⟩

example (n : Nat) := C210_tables [⟨[1], 0, [1, 0], 1, .hashes 20 [murmurHash 20 [1], murmurHash 20 [2]]⟩]
  [0 :: mphHead (⟨[1], 0, [1, 0], 1, .hashes 20 []⟩ : MphTable KeyObj) ++ be32 20 ++ be32s [murmurHash 20 [1], murmurHash 20 [2]]]
  (.cons ⟨by decide +kernel, murmurMphOps, id, 100, 20, [.key (newSimpleKey (some [1])), .key (newSimpleKey (some [2]))],
    fun l => List.Perm.refl l, by decide, by decide +kernel⟩ .nil) n

/-- The claim C210 for keys (false of the code). -/
def KeyLogIsReadExactly : Prop :=
  ∀ (ks : List Key) (ws : List Bytes), List.Forall₂ (fun k w => k.encode.2 = true ∧ k.encode.1.getBuf = .ok w) ks ws → ∀ n,
    ∃ ms e, ReadsLog newMappedKey (ws.flatten.take n) ms e ∧
      ms.map (fun m => m.keys.map Slice.bytes) = (ks.take (wholeItems n ws)).map fun k => k.keys.map Slice.bytes

/-- C210 is false for keys: the rest of the last key is read as a key with empty sub keys. -/
theorem C210_refuted : ¬ KeyLogIsReadExactly := by
  intro h
  obtain ⟨ms, e, h1, h2⟩ := h [⟨false, [some [7]], none, 0⟩, ⟨false, [some [97, 98], some [99]], none, 0⟩] [[1, 1, 7], [2, 2, 97, 98, 1, 99]]
    (.cons (by decide +kernel) (.cons (by decide +kernel) .nil)) 7
  have h3 : ReadsLog newMappedKey [1, 1, 7, 2, 2, 97, 98]
      [⟨[some [7]], [1, 1, 7, 2, 2, 97, 98]⟩, ⟨[some [97, 98], some []], [2, 2, 97, 98]⟩] .complete :=
    .item (by simp) (n := 3) (by decide +kernel) (.item (by simp) (n := 4) (by decide +kernel) .complete)
  rw [(readsLog_unique h1 h3).1] at h2
  revert h2
  decide +kernel

/-- C210, exact for keys: the keys written completely are read, wherever the log is cut off.  What is left of the next one is an error, or is
read as one more key, in which some sub keys from some position on are replaced by empty ones; then reading ends as if the log were complete. -/
theorem C210_keys_partial (ks : List Key) (ws : List Bytes)
    (h : List.Forall₂ (fun k w => k.encode.2 = true ∧ k.encode.1.getBuf = .ok w) ks ws) (n : Nat) (hL : ws.flatten.length ≤ 2 ^ 43) :
    ∃ ms e, ReadsLog newMappedKey (ws.flatten.take n) ms e ∧ e ≠ .crashed ∧
      (ms.map (fun m => m.keys.map Slice.bytes) = (ks.take (wholeItems n ws)).map (fun k => k.keys.map Slice.bytes) ∧
          (e = .complete ↔ CutBetween n ws) ∨
        ¬ CutBetween n ws ∧ e = .complete ∧ ∃ k i, ks[wholeItems n ws]? = some k ∧ i < k.keys.length ∧
          ms.map (fun m => m.keys.map Slice.bytes) = (ks.take (wholeItems n ws)).map (fun k => k.keys.map Slice.bytes) ++
            [(k.keys.take i).map Slice.bytes ++ List.replicate (k.keys.length - i) []]) := by
  have hk : List.Forall₂ (ReadAs newMappedKey (fun m => m.keys.map Slice.bytes) (2 ^ 43)) ws (ks.map fun k => k.keys.map Slice.bytes) := by
    rw [List.forall₂_map_right_iff]
    refine h.flip.imp ?_
    rintro w k ⟨h1, h2⟩
    obtain ⟨w', e1, -, hr⟩ := C07_key_roundtrip k k.encode.1 (Prod.ext rfl h1)
    rw [h2] at e1
    cases e1
    refine ⟨?_, fun rest hl => ?_⟩
    · rintro rfl
      obtain ⟨m, hm, hmk⟩ := hr [0] (by decide)
      obtain ⟨m', hm', hmk'⟩ := hr [1, 0] (by decide)
      rw [show newMappedKey ([] ++ [0]) = .ok (⟨[], [0]⟩, 1) by decide +kernel] at hm
      simp at hm
    · obtain ⟨m, hm, hmk⟩ := hr rest hl
      refine ⟨m, hm, ?_⟩
      simp only [hmk, List.map_map]
      rfl
  obtain ⟨q, h1, h2, h3⟩ := reads_cut hk n hL
  by_cases hq : q = []
  · subst hq
    obtain ⟨xs, h4, h5⟩ := h3 [] _ .complete
    exact ⟨xs, _, by simpa using h4, by simp, .inl ⟨by rw [h5, List.map_take], by simp [h2]⟩⟩
  · obtain ⟨w, hw, hp, hn⟩ := h1 hq
    obtain ⟨hwi, rfl⟩ := List.getElem?_eq_some_iff.mp hw
    have hki : wholeItems n ws < ks.length := by rw [h.length_eq]; exact hwi
    obtain ⟨e1, e2⟩ := h.get hki hwi
    rcases C84_truncated_key_partial (ks[wholeItems n ws]) _ _ q (Prod.ext rfl e1) e2 hp hn hq with he | ⟨i, hi, c, body, -, -, -, -, he⟩
    · obtain ⟨xs, h4, h5⟩ := h3 [] _ (.failed hq he)
      exact ⟨xs, _, by simpa using h4, by simp, .inl ⟨by rw [h5, List.map_take], by simp [h2, hq]⟩⟩
    · obtain ⟨xs, h4, h5⟩ := h3 _ _ (.item hq he (by rw [List.drop_length]; exact .complete))
      refine ⟨_, _, h4, by simp, .inr ⟨by rw [h2]; exact hq, rfl, ks[wholeItems n ws], i, List.getElem?_eq_getElem hki, hi, ?_⟩⟩
      rw [List.map_append, h5, ← List.map_take]
      simp only [List.map_cons, List.map_nil, List.map_append, List.map_map, List.map_replicate]
      rfl

example := C210_keys_partial [⟨false, [some [7]], none, 0⟩, ⟨false, [some [97, 98], some [99]], none, 0⟩] [[1, 1, 7], [2, 2, 97, 98, 1, 99]]
    (.cons (by decide +kernel) (.cons (by decide +kernel) .nil)) 7 (by decide)

end Poodle.Props
