import Verif.Lemmas.Key

/-
Properties C07-C16, C82, C84: composite keys (/repo/src/util/key_util.go).
-/

namespace Poodle.Props
open Poodle Poodle.Spec

/-! ### C07 Composite key round trip -/

/-- C07: whatever `Encode` accepts is decoded to the same sub keys, with any trailing bytes, and the number of consumed
bytes is the length of the encoding.  (`2^43` bytes is a bound below which `make` cannot fail.) -/
theorem C07_key_roundtrip (k k' : Key) (h : k.encode = (k', true)) :
    ∃ w, k'.getBuf = .ok w ∧ k'.keys = k.keys ∧
      ∀ rest : Bytes, (w ++ rest).length ≤ 2 ^ 43 →
        ∃ m, newMappedKey (w ++ rest) = .ok (m, w.length) ∧ m.keys = k.keys.map fun s => some s.bytes := by
  rw [key_encode_eq] at h
  split at h
  · simp only [Prod.mk.injEq, and_true] at h
    subst h
    refine ⟨keyBytes k.keys, by simp [Key.getBuf, Slice.bytes], rfl, fun rest hr => ?_⟩
    rw [newMappedKey_keyBytes k.keys rest (Nat.le_trans hr (by decide))]
    exact ⟨_, rfl, rfl⟩
  · simp at h

example := C07_key_roundtrip (newSimpleKey (some [97, 98])) (newSimpleKey (some [97, 98])).encode.1 (by decide +kernel)

/-- C07: in particular the decoded key is `Equal` to the original, provided no sub key is the nil slice (a nil sub key,
possible only through `NewSimpleKey(nil)`, comes back as an empty one). -/
theorem C07_key_roundtrip_equal (k k' : Key) (h : k.encode = (k', true)) (hnil : none ∉ k.keys) :
    ∃ w, k'.getBuf = .ok w ∧
      ∀ rest : Bytes, (w ++ rest).length ≤ 2 ^ 43 →
        ∃ m, newMappedKey (w ++ rest) = .ok (m, w.length) ∧
          (KeyObj.mapped m).equal? (.key k) = some true ∧ (KeyObj.key k).equal? (.mapped m) = some true := by
  obtain ⟨w, hw, -, hr⟩ := C07_key_roundtrip k k' h
  refine ⟨w, hw, fun rest hl => ?_⟩
  obtain ⟨m, hm, hk⟩ := hr rest hl
  refine ⟨m, hm, ?_⟩
  have e : m.keys = k.keys := by
    rw [hk]
    conv_rhs => rw [← List.map_id k.keys]
    apply List.map_congr_left
    intro s hs
    rcases s with - | b
    · exact absurd hs hnil
    · rfl
  simp [KeyObj.equal?_eq, KeyObj.subKeys, e]

example : (({ newKey with keys := [some [1, 2], some [3]] } : Key).encode).2 = true ∧
    none ∉ ({ newKey with keys := [some [1, 2], some [3]] } : Key).keys := by decide +kernel

/-! ### C08 Key size limit -/

/-- C08: `Encode` succeeds if and only if the encoded size is at most 4096 bytes; then the bytes are the wire form of the
sub keys, of exactly that size; otherwise nothing changes. -/
theorem C08_key_size_limit (k : Key) (hn : k.keys.length < 2 ^ 63) (hs : ∀ s ∈ k.keys, s.bytes.length < 2 ^ 63) :
    ((k.encode).2 = true ↔ keySize (k.keys.map Slice.bytes) ≤ 4096) ∧
    ((k.encode).2 = false → (k.encode).1 = k) ∧
    ((k.encode).2 = true → (k.encode).1.keys = k.keys ∧ (k.encode).1.encoded = true ∧
      ∃ w, (k.encode).1.getBuf = .ok w ∧ IsKeyWire (k.keys.map Slice.bytes) w ∧
        w.length = keySize (k.keys.map Slice.bytes) ∧ (k.encode).1.estBufSize = w.length) := by
  have hs' : ∀ s ∈ k.keys, s.bytes.length < 2 ^ 64 := fun s h => Nat.lt_trans (hs s h) (by decide)
  have hlen := keyBytes_length k.keys (by omega) hs'
  rw [key_encode_eq]
  have hmax : maxKeyLength = 4096 := rfl
  by_cases h : (keyBytes k.keys).length ≤ maxKeyLength
  · rw [if_pos h]
    refine ⟨by simp only [true_iff]; omega, by simp, fun _ => ⟨rfl, rfl, keyBytes k.keys, ?_, ?_, hlen, rfl⟩⟩
    · simp [Key.getBuf, Slice.bytes]
    · refine ⟨putUvarint k.keys.length, flatKeys k.keys, rfl, ?_, ?_, flatKeys_isVarchars _ hs'⟩
      · simpa using (putUvarint_spec (x := k.keys.length) (by omega)).1
      · simpa using putUvarint_length (x := k.keys.length) (by omega)
  · rw [if_neg h]
    refine ⟨by simp only [Bool.false_eq_true, false_iff]; omega, by simp, by simp⟩

example : keySize [List.replicate 4093 7] = 4096 := by
  have h1 : uvLen 1 = 1 := uvLen_small (by decide)
  have h2 : uvLen 4093 = 2 := by
    have : Nat.log 128 4093 = 1 := by
      rw [Nat.log_eq_iff (Or.inl (by decide))]; decide
    simp [uvLen, this]
  simp only [keySize, List.map_cons, List.map_nil, List.length_replicate, List.sum_cons, List.sum_nil, h2,
    List.length_singleton, h1, Nat.reduceAdd]

/-! ### C09 Key encoding is injective and prefix free -/

/-- C09: if two encodings, each followed by anything, coincide then the sub keys are the same. -/
theorem C09_key_encoding_prefix_free (k1 k1' k2 k2' : Key) (h1 : k1.encode = (k1', true)) (h2 : k2.encode = (k2', true))
    (w1 w2 r1 r2 : Bytes) (hw1 : k1'.getBuf = .ok w1) (hw2 : k2'.getBuf = .ok w2) (h : w1 ++ r1 = w2 ++ r2) :
    k1.keys.map Slice.bytes = k2.keys.map Slice.bytes ∧ w1 = w2 := by
  have key : ∀ (k k' : Key) (w : Bytes), k.encode = (k', true) → k'.getBuf = .ok w →
      w = keyBytes k.keys ∧ (keyBytes k.keys).length ≤ 4096 := by
    intro k k' w h hw
    rw [key_encode_eq] at h
    split at h
    · rename_i hle
      simp only [Prod.mk.injEq, and_true] at h
      subst h
      simp [Key.getBuf, Slice.bytes] at hw
      exact ⟨hw.symm, hle⟩
    · simp at h
  obtain ⟨e1, l1⟩ := key _ _ _ h1 hw1
  obtain ⟨e2, l2⟩ := key _ _ _ h2 hw2
  subst e1 e2
  -- cut the common continuation down to 8192 bytes, then decode both sides
  have m24 : (8192 : Nat) ≤ maxMake24 := by decide
  have ht : keyBytes k1.keys ++ r1.take (8192 - (keyBytes k1.keys).length)
      = keyBytes k2.keys ++ r2.take (8192 - (keyBytes k2.keys).length) := by
    have := congrArg (List.take 8192) h
    rw [List.take_append, List.take_append, List.take_of_length_le (l := keyBytes k1.keys) (by omega),
      List.take_of_length_le (l := keyBytes k2.keys) (by omega)] at this
    exact this
  have d1 := newMappedKey_keyBytes k1.keys (r1.take (8192 - (keyBytes k1.keys).length))
    (by simp only [List.length_append, List.length_take]; omega)
  have d2 := newMappedKey_keyBytes k2.keys (r2.take (8192 - (keyBytes k2.keys).length))
    (by simp only [List.length_append, List.length_take]; omega)
  rw [ht, d2] at d1
  simp only [Res.ok.injEq, Prod.mk.injEq, MappedKey.mk.injEq] at d1
  constructor
  · have := congrArg (List.map Slice.bytes) d1.1.1
    rw [List.map_map, List.map_map] at this
    exact this.symm
  · exact (List.append_inj h d1.2.symm).1

example : ∃ w, (({ newKey with keys := [some [1, 2], some [3]] } : Key).encode).1.getBuf = .ok w ∧ w = [2, 2, 1, 2, 1, 3] := by
  refine ⟨_, ?_, rfl⟩
  decide +kernel

/-! ### C10 A decoded key's Buf() is the encoding of that key -/

/-- The full claim C10 (false of the code). -/
def MappedKeyBufIsExact : Prop :=
  ∀ (buf : Bytes) (m : MappedKey) (n : Nat), newMappedKey buf = .ok (m, n) → m.getBuf = buf.take n

/-- C10 is false: with one trailing byte `Buf()` returns four bytes for a key encoded in three. -/
theorem C10_refuted : ¬ MappedKeyBufIsExact := by
  intro h
  have := h [1, 1, 5, 9] ⟨[some [5]], [1, 1, 5, 9]⟩ 3 (by decide +kernel)
  revert this; decide +kernel

/-- C10, exact: `Buf()` of a decoded key is the whole buffer it was decoded from (trailing bytes included), or the single
byte 0 when it has no sub keys. -/
theorem C10_mappedKey_buf_partial (buf : Bytes) (m : MappedKey) (n : Nat) (h : newMappedKey buf = .ok (m, n)) :
    m.getBuf = (if m.keys = [] then [0] else buf) ∧
      (m.keys ≠ [] → (m.getBuf = buf.take n ↔ buf.length ≤ n)) := by
  have hb : m.buf = buf ∧ (buf = [] → m.keys = []) := by
    unfold newMappedKey at h
    rcases hd : decodeUvarint64 buf with ⟨a, b⟩ | - | -
    · rw [hd, Res.bind_ok] at h
      simp only at h
      split at h
      · simp at h
      · rw [Res.bind_eq_ok] at h
        obtain ⟨⟨ks, j⟩, hk, h⟩ := h
        simp only [Res.ok.injEq, Prod.mk.injEq] at h
        obtain ⟨rfl, rfl⟩ := h
        refine ⟨rfl, ?_⟩
        rintro rfl
        simp [decodeUvarint64] at hd
        rw [← hd.1] at hk
        simp [decodeSubKeys] at hk
        simp [hk.1]
    · rw [hd] at h; simp at h
    · rw [hd] at h; simp at h
  have e : m.getBuf = (if m.keys = [] then [0] else buf) := by
    unfold MappedKey.getBuf MappedKey.isEmpty
    rw [hb.1]
    by_cases hk : m.keys = []
    · simp [hk]
    · have : buf ≠ [] := fun hc => hk (hb.2 hc)
      simp [hk, this]
  refine ⟨e, fun hk => ?_⟩
  rw [e, if_neg hk]
  constructor
  · intro h2
    have := congrArg List.length h2
    simp at this; omega
  · intro h2
    rw [List.take_of_length_le h2]

example : newMappedKey [2, 1, 5, 1, 6] = .ok (⟨[some [5], some [6]], [2, 1, 5, 1, 6]⟩, 5) := by decide +kernel

/-! ### C11 Encoded key bytes track the content -/

/-- Mutating calls on a `Key`. -/
inductive KeyOp where
  | add (s : Slice)
  | encode

/-- One call; an `Add` that panics leaves the key as it was. -/
def applyKeyOp (k : Key) : KeyOp → Key
  | .add s => match k.add s with
    | .ok k' => k'
    | _ => k
  | .encode => k.encode.1

/-- A history of calls. -/
def runKeyOps (k : Key) (ops : List KeyOp) : Key := ops.foldl applyKeyOp k

/-- The full claim C11 (false of the code). -/
def KeyBufTracksContent : Prop :=
  ∀ ops : List KeyOp, ∀ w, (runKeyOps newKey ops).getBuf = .ok w →
    IsKeyWire ((runKeyOps newKey ops).keys.map Slice.bytes) w

/-- Specification of a history: the current sub keys and the sub keys at the last successful `Encode`. -/
def keyHistory (ks : List Bytes) (last : Option (List Bytes)) : List KeyOp → List Bytes × Option (List Bytes)
  | [] => (ks, last)
  | .add s :: ops => if s.bytes = [] then keyHistory ks last ops else keyHistory (ks ++ [s.bytes]) last ops
  | .encode :: ops => keyHistory ks (if keySize ks ≤ 4096 then some ks else last) ops

/-- All sub keys in a history are Go slices. -/
def KeyOp.small : KeyOp → Prop
  | .add s => s.bytes.length < 2 ^ 63
  | .encode => True

theorem keyOps_history (ops : List KeyOp) (k : Key) (last : Option (List Bytes)) (hops : ∀ o ∈ ops, o.small)
    (hlen : k.keys.length + ops.length < 2 ^ 63) (hk : ∀ s ∈ k.keys, s.bytes.length < 2 ^ 63)
    (he : k.encoded = last.isSome) (hl : ∀ ks, last = some ks → ∃ w, k.getBuf = .ok w ∧ IsKeyWire ks w) :
    let r := runKeyOps k ops
    let h := keyHistory (k.keys.map Slice.bytes) last ops
    r.keys.map Slice.bytes = h.1 ∧ r.encoded = h.2.isSome ∧
      ∀ ks, h.2 = some ks → ∃ w, r.getBuf = .ok w ∧ IsKeyWire ks w := by
  induction ops generalizing k last with
  | nil => exact ⟨rfl, he, hl⟩
  | cons o ops ih =>
    have hsmall := hops o (by simp)
    have hops' : ∀ o ∈ ops, o.small := fun o ho => hops o (by simp [ho])
    simp only [List.length_cons] at hlen
    cases o with
    | add s =>
      by_cases hs : s.bytes = []
      · have : applyKeyOp k (.add s) = k := by simp [applyKeyOp, Key.add, hs]
        simp only [runKeyOps, List.foldl_cons, this, keyHistory, hs, if_true]
        exact ih k last hops' (by omega) hk he hl
      · have e : applyKeyOp k (.add s) =
            { k with keys := k.keys ++ [s], estBufSize := k.estBufSize + (1 + s.bytes.length) } := by
          simp [applyKeyOp, Key.add, hs]
        simp only [runKeyOps, List.foldl_cons, keyHistory, hs, if_false]
        rw [e]
        have := ih { k with keys := k.keys ++ [s], estBufSize := k.estBufSize + (1 + s.bytes.length) } last hops'
          (by simp; omega) (by
            intro t ht
            simp at ht
            rcases ht with ht | rfl
            · exact hk t ht
            · exact hsmall) he hl
        simpa [runKeyOps] using this
    | encode =>
      simp only [runKeyOps, List.foldl_cons, keyHistory]
      obtain ⟨h1, h2, h3⟩ := C08_key_size_limit k (by omega) hk
      by_cases hsz : keySize (k.keys.map Slice.bytes) ≤ 4096
      · rw [if_pos hsz]
        obtain ⟨e1, e2, w, hw, hwire, -⟩ := h3 (h1.mpr hsz)
        have := ih k.encode.1 (some (k.keys.map Slice.bytes)) hops' (by rw [e1]; omega) (by rw [e1]; exact hk)
          (by simp [e2]) (by
            intro ks hks
            cases hks
            exact ⟨w, hw, hwire⟩)
        rw [e1] at this
        exact this
      · rw [if_neg hsz]
        have e : k.encode.1 = k := h2 (by
          by_contra hc
          exact hsz (h1.mp (by simpa using hc)))
        have := ih k.encode.1 last hops' (by rw [e]; omega) (by rw [e]; exact hk) (by rw [e]; exact he)
          (by rw [e]; exact hl)
        rw [e] at this
        simpa [runKeyOps, applyKeyOp, e] using this

/-- C11, exact: `Buf()` is the encoding of the sub keys at the time of the last successful `Encode`, and panics before the first.
Hence it is the encoding of the current sub keys exactly when nothing was added since. -/
theorem C11_key_buf_history_partial (ops : List KeyOp) (hops : ∀ o ∈ ops, o.small) (hlen : ops.length < 2 ^ 63) :
    let r := runKeyOps newKey ops
    let h := keyHistory [] none ops
    r.keys.map Slice.bytes = h.1 ∧ r.encoded = h.2.isSome ∧ (r.getBuf = .panic ↔ h.2 = none) ∧
      ∀ ks, h.2 = some ks → ∃ w, r.getBuf = .ok w ∧ IsKeyWire ks w := by
  obtain ⟨h1, h2, h3⟩ : _ ∧ _ ∧ _ := keyOps_history ops newKey none hops (by simpa [newKey] using hlen) (by simp [newKey]) rfl (by simp)
  refine ⟨h1, h2, ?_, h3⟩
  change (runKeyOps newKey ops).encoded = (keyHistory [] none ops).2.isSome at h2
  rw [Key.getBuf, h2]
  cases (keyHistory [] none ops).2 <;> simp

example := C11_key_buf_history_partial [.add (some [97]), .encode, .add (some [98, 99]), .encode]
  (by simp [KeyOp.small, Slice.bytes]) (by decide)

/-- C11 is false: `Add` after `Encode` keeps the stale bytes. -/
theorem C11_refuted : ¬ KeyBufTracksContent := by
  intro h
  have := h [.add (some [1]), .encode, .add (some [2])] [1, 1, 1] (by decide +kernel)
  have hk : (runKeyOps newKey [.add (some [1]), .encode, .add (some [2])]).keys.map Slice.bytes = [[1], [2]] := by
    decide +kernel
  rw [hk] at this
  obtain ⟨p, v, hw, hp, hpl, hv⟩ := this
  have hp2 : IsUvarint (putUvarint 2) 2 := (putUvarint_spec (by decide)).1
  have e : p = [1] := by
    rw [List.length_cons, List.length_singleton, uvLen_small (by decide)] at hpl
    obtain ⟨x, rfl⟩ := List.length_eq_one_iff.mp hpl
    simp at hw; rw [hw.1]
  subst e
  have := (Spec.IsUvarint.prefix_unique hp (IsUvarint.last 1 (by decide)) (r := []) (r' := []) rfl).2
  simp at this

example : ∀ o ∈ [KeyOp.add (some [1]), .encode, .add (some [2])], o.small := by
  simp [KeyOp.small, Slice.bytes]

/-! ### C12 Key equality -/

/-- C12: `Equal` never panics and means identical sub key sequences, whatever the implementations. -/
theorem C12_key_equal_iff (a b : KeyObj) :
    (a.equal? b = some true ↔ a.subKeys = b.subKeys) ∧ (a.equal? b).isSome := by
  rw [KeyObj.equal?_eq]; simp

/-- C12: `Equal` is an equivalence relation. -/
theorem C12_key_equal_equivalence (a b c : KeyObj) :
    a.equal? a = some true ∧ (a.equal? b = b.equal? a) ∧
      (a.equal? b = some true → b.equal? c = some true → a.equal? c = some true) := by
  simp only [KeyObj.equal?_eq, Option.some.injEq, decide_eq_true_eq, true_and]
  exact ⟨by simp [eq_comm], fun h1 h2 => h1.trans h2⟩

example : KeyObj.equal? (.key (newSimpleKey (some [1]))) (.mapped ⟨[some [1]], [1, 1, 1, 9]⟩) = some true := by decide +kernel

/-! ### C13 Key comparison is a total order -/

/-- The full claim C13 (false of the code): `Compare` is the lexicographic comparison of the sub key sequences. -/
def KeyCompareIsLexicographic : Prop :=
  ∀ a b : KeyObj, a.compare b = .ok (ordInt (compare a.subKeys b.subKeys))

/-- C13 is false: comparing a key with a strict prefix of it (here ["a","b"] with ["a"]) panics. -/
theorem C13_refuted : ¬ KeyCompareIsLexicographic := by
  intro h
  have := h (.key ⟨false, [some [97], some [98]], none, 5⟩) (.key ⟨false, [some [97]], none, 3⟩)
  revert this; decide +kernel

/-- C13, exact: `Compare` panics exactly when the argument's sub keys are a strict prefix of the receiver's, or at the
first difference the argument's sub key is a strict prefix of the receiver's sub key. -/
theorem C13_key_compare_panics_iff_partial (a b : KeyObj) : a.compare b = .panic ↔
    (∃ x a', a.subKeys = b.subKeys ++ x :: a') ∨
    (∃ c u w a' b', a.subKeys = c ++ some u :: a' ∧ b.subKeys = c ++ some w :: b' ∧ w <+: u ∧ w ≠ u) := by
  rw [KeyObj.compare_eq, keyCmpRec_panic_iff]

/-- C13, exact: otherwise it is the lexicographic three-way comparison. -/
theorem C13_key_compare_lexicographic_partial (a b : KeyObj) (h : a.compare b ≠ .panic) :
    a.compare b = .ok (ordInt (compare a.subKeys b.subKeys)) := by
  rw [KeyObj.compare_eq] at h ⊢
  rcases hc : keyCmpRec a.subKeys b.subKeys with r | - | -
  · rw [keyCmpRec_ok _ _ r hc]
  · exact absurd hc (keyCmpRec_not_err _ _)
  · exact absurd hc h

example := C13_key_compare_lexicographic_partial (.key (newSimpleKey (some [97]))) (.key (newSimpleKey (some [97, 98]))) (by decide +kernel)

/-- C13: the panics are one-sided: whenever `Compare` panics the receiver is greater than the argument, so comparing in
the other direction does not panic and answers -1. -/
theorem C13_key_compare_panics_only_greater_partial (a b : KeyObj) (h : a.compare b = .panic) :
    compare a.subKeys b.subKeys = .gt ∧ b.compare a = .ok (-1) := by
  have aux : ∀ (a b : List Slice), keyCmpRec a b = .panic → keyCmpRec b a = .ok (-1) := by
    intro a
    induction a with
    | nil => intro b h; cases b <;> simp [keyCmpRec] at h
    | cons x a ih =>
      intro b h
      cases b with
      | nil => simp [keyCmpRec]
      | cons y b =>
        simp only [keyCmpRec] at h ⊢
        rcases hxy : compareByteSlice x y with q | - | -
        · rw [hxy] at h
          simp only at h
          by_cases h0 : q = 0
          · simp only [h0, ne_eq, not_true, if_false] at h
            have hq := compareByteSlice_ok hxy
            have : compare x y = .eq := by
              rw [h0] at hq; cases hc : compare x y <;> rw [hc] at hq <;> simp [ordInt] at hq ⊢
            have := Std.LawfulEqCmp.compare_eq_iff_eq.mp this
            subst this
            rw [compareByteSlice_self]
            simpa using ih b h
          · simp [h0] at h
        · exact absurd hxy (compareByteSlice_not_err x y)
        · rcases x with - | u <;> rcases y with - | w
          · simp [compareByteSlice] at hxy
          · simp [compareByteSlice] at hxy
          · simp [compareByteSlice] at hxy
          · rw [compareByteSlice_some, cmpRec_panic_iff] at hxy
            have hne : ¬ (u <+: w ∧ u ≠ w) := by
              rintro ⟨h1, h2⟩
              exact h2 (h1.eq_of_length (Nat.le_antisymm h1.length_le hxy.1.length_le))
            rcases hc : cmpRec w u with r | - | -
            · have hr := cmpRec_ok w u r hc
              have : r = -1 := by
                obtain ⟨t, rfl⟩ := hxy.1
                have : ∀ (w t : Bytes), w ≠ w ++ t → cmpRec w (w ++ t) = .ok (-1) := by
                  intro w
                  induction w with
                  | nil => intro t ht; cases t with
                    | nil => exact absurd rfl ht
                    | cons _ _ => rfl
                  | cons z w ih2 =>
                    intro t ht
                    simp only [List.cons_append, cmpRec]
                    rw [if_neg (UInt8.lt_irrefl _), if_neg (UInt8.lt_irrefl _)]
                    exact ih2 t (fun hc => ht (by simp [← hc]))
                rw [this w t hxy.2] at hc
                simpa using hc.symm
              rw [compareByteSlice_some, hc, this]; rfl
            · exact absurd hc (cmpRec_not_err w u)
            · rw [cmpRec_panic_iff] at hc; exact absurd hc hne
  have hba := aux _ _ (by rw [← KeyObj.compare_eq]; exact h)
  refine ⟨?_, by rw [KeyObj.compare_eq]; exact hba⟩
  have := keyCmpRec_ok _ _ _ hba
  have hlt : compare b.subKeys a.subKeys = .lt := by
    cases hc : compare b.subKeys a.subKeys <;> rw [hc] at this <;> simp [ordInt] at this ⊢
  rw [Std.OrientedCmp.eq_swap (cmp := compare), hlt]; rfl

example := C13_key_compare_panics_only_greater_partial (.key (newSimpleKey (some [97, 98]))) (.key (newSimpleKey (some [97]))) (by decide +kernel)

/-- C13: consistency with `Equal`: the result is 0 exactly on equal keys. -/
theorem C13_key_compare_zero_iff_partial (a b : KeyObj) : a.compare b = .ok 0 ↔ a.equal? b = some true := by
  rw [(C12_key_equal_iff a b).1]
  constructor
  · intro h
    have := C13_key_compare_lexicographic_partial a b (by rw [h]; simp)
    rw [h] at this
    simp only [Res.ok.injEq] at this
    have h2 : compare a.subKeys b.subKeys = .eq := by
      cases hc : compare a.subKeys b.subKeys <;> rw [hc] at this <;> simp [ordInt] at this ⊢
    exact Std.LawfulEqCmp.compare_eq_iff_eq.mp h2
  · intro h
    have hn : a.compare b ≠ .panic := by
      rw [Ne, C13_key_compare_panics_iff_partial, h]
      rintro (⟨x, a', h1⟩ | ⟨c, u, w, a', b', h1, h2, h3, h4⟩)
      · have := congrArg List.length h1; simp at this
      · rw [h1] at h2
        have := List.append_cancel_left h2
        simp at this
        exact h4 this.1.symm
    rw [C13_key_compare_lexicographic_partial a b hn, h, Std.ReflOrd.compare_self]; rfl

example : KeyObj.compare (.key (newSimpleKey (some [1]))) (.key (newSimpleKey (some [1, 2]))) = .ok (-1) := by decide +kernel

/-! ### C14 Equal keys hash equally -/

/-- C14. -/
theorem C14_equal_keys_hash_equal (a b : KeyObj) (f : Slice → UInt32) (h : a.equal? b = some true) : a.hash f = b.hash f := by
  rw [(C12_key_equal_iff a b).1] at h
  rw [KeyObj.hash_eq, KeyObj.hash_eq, h]

example : KeyObj.equal? .empty (.mapped ⟨[], [0, 7]⟩) = some true := by decide +kernel

/-! ### C15 Distinct keys are separable by hashing -/

/-- The full claim C15 (false of the code). -/
def DistinctKeysSeparable : Prop :=
  ∀ a b : KeyObj, a.equal? b = some false → ∃ f : Slice → UInt32, a.hash f ≠ b.hash f

/-- C15, exact: two keys hash equally under every hash function if and only if every sub key value occurs in them with
the same parity. -/
theorem C15_hash_equal_iff_partial (a b : KeyObj) :
    (∀ f : Slice → UInt32, a.hash f = b.hash f) ↔ ∀ s, a.subKeys.count s % 2 = b.subKeys.count s % 2 := by
  have e : ∀ (f : Slice → UInt32) (k : KeyObj), k.hash f = xorAll f k.subKeys := by
    intro f k; rw [KeyObj.hash_eq, foldl_xor, UInt32.zero_xor]
  constructor
  · intro h s
    have := h fun t => if t = s then 1 else 0
    rw [e, e, xorAll_indicator, xorAll_indicator] at this
    split at this <;> split at this
    · omega
    · simp at this
    · simp at this
    · omega
  · intro h f
    have h0 : xorAll f (a.subKeys ++ b.subKeys) = 0 := by
      refine xorAll_even f _ _ (Nat.le_refl _) fun s => ?_
      rw [List.count_append]; have := h s; omega
    rw [xorAll_append] at h0
    rw [e, e]
    exact UInt32.xor_eq_zero_iff.mp h0

/-- C15 is false: ["a","b"] and ["b","a"] collide under every hash function. -/
theorem C15_refuted : ¬ DistinctKeysSeparable := by
  intro h
  obtain ⟨f, hf⟩ := h (.key ⟨false, [some [97], some [98]], none, 5⟩) (.key ⟨false, [some [98], some [97]], none, 5⟩)
    (by decide +kernel)
  apply hf
  refine (C15_hash_equal_iff_partial _ _).mpr (fun s => ?_) f
  simp only [KeyObj.subKeys, List.count_cons, List.count_nil]
  omega

/-- C15: single sub key versus single sub key is always separable. -/
theorem C15_simple_keys_separable_partial (a b : KeyObj) (s t : Slice) (ha : a.subKeys = [s]) (hb : b.subKeys = [t])
    (h : a.equal? b = some false) : ∃ f : Slice → UInt32, a.hash f ≠ b.hash f := by
  by_contra hc
  simp only [not_exists, not_not] at hc
  have := (C15_hash_equal_iff_partial a b).mp hc s
  rw [ha, hb] at this
  have hst : s ≠ t := by
    rintro rfl
    rw [KeyObj.equal?_eq, ha, hb] at h; simp at h
  have hts : ¬ t = s := fun hc => hst hc.symm
  simp [hts] at this

example : ∃ a b : KeyObj, a.equal? b = some false ∧ ∀ f, a.hash f = b.hash f :=
  ⟨.empty, .key ⟨false, [some [1], some [1]], none, 5⟩, by decide +kernel, fun f => by
    refine (C15_hash_equal_iff_partial _ _).mpr (fun s => ?_) f
    simp only [KeyObj.subKeys, List.count_cons, List.count_nil]; split <;> omega⟩

/-! ### C16 Key size estimate -/

/-- C16: at any point of any history of `Add`/`Encode` on a key started by `NewKey` or `NewSimpleKey`, the estimate is at
most the encoded size, with equality if there are fewer than 128 sub keys, all shorter than 128 bytes. -/
theorem C16_key_estimate (k0 : Key) (h0 : k0 = newKey ∨ ∃ s : Slice, s.bytes.length < 2 ^ 63 ∧ k0 = newSimpleKey s)
    (ops : List KeyOp) (hops : ∀ o ∈ ops, o.small) (hlen : ops.length + 1 < 2 ^ 63) :
    let r := runKeyOps k0 ops
    r.estBufSize ≤ keySize (r.keys.map Slice.bytes) ∧
      (r.keys.length < 128 → (∀ s ∈ r.keys, s.bytes.length < 128) → r.estBufSize = keySize (r.keys.map Slice.bytes)) := by
  have step : ∀ (ops : List KeyOp) (k : Key), (∀ o ∈ ops, o.small) → k.keys.length + ops.length < 2 ^ 63 →
      (∀ s ∈ k.keys, s.bytes.length < 2 ^ 63) →
      (k.estBufSize ≤ keySize (k.keys.map Slice.bytes) ∧
      (k.keys.length < 128 → (∀ s ∈ k.keys, s.bytes.length < 128) → k.estBufSize = keySize (k.keys.map Slice.bytes))) →
      ((runKeyOps k ops).estBufSize ≤ keySize ((runKeyOps k ops).keys.map Slice.bytes) ∧
      ((runKeyOps k ops).keys.length < 128 → (∀ s ∈ (runKeyOps k ops).keys, s.bytes.length < 128) →
        (runKeyOps k ops).estBufSize = keySize ((runKeyOps k ops).keys.map Slice.bytes))) := by
    intro ops
    induction ops with
    | nil => intro k _ _ _ h; exact h
    | cons o ops ih =>
      intro k hops hlen hk hinv
      simp only [List.length_cons] at hlen
      have hsm := hops o (by simp)
      simp only [runKeyOps, List.foldl_cons]
      refine ih _ (fun o ho => hops o (by simp [ho])) ?_ ?_ ?_
      · cases o with
        | add s =>
          by_cases hs : s.bytes = []
          · simp [applyKeyOp, Key.add, hs]; omega
          · simp [applyKeyOp, Key.add, hs]; omega
        | encode =>
          simp only [applyKeyOp, key_encode_eq]; split <;> simp <;> omega
      · cases o with
        | add s =>
          by_cases hs : s.bytes = []
          · simpa [applyKeyOp, Key.add, hs] using hk
          · intro t ht
            simp [applyKeyOp, Key.add, hs] at ht
            rcases ht with ht | rfl
            · exact hk t ht
            · exact hsm
        | encode =>
          simp only [applyKeyOp, key_encode_eq]
          split
          · exact hk
          · exact hk
      · cases o with
        | add s =>
          by_cases hs : s.bytes = []
          · simpa [applyKeyOp, Key.add, hs] using hinv
          · have e : applyKeyOp k (.add s) =
                { k with keys := k.keys ++ [s], estBufSize := k.estBufSize + (1 + s.bytes.length) } := by
              simp [applyKeyOp, Key.add, hs]
            rw [e]
            have hsz : keySize ((k.keys ++ [s]).map Slice.bytes) + uvLen k.keys.length =
                keySize (k.keys.map Slice.bytes) + uvLen (k.keys.length + 1) + (uvLen s.bytes.length + s.bytes.length) := by
              simp [keySize]; omega
            have hm := uvLen_mono (a := k.keys.length) (b := k.keys.length + 1) (by omega)
            have hp := uvLen_pos s.bytes.length
            refine ⟨?_, fun h1 h2 => ?_⟩
            · dsimp only; omega
            · dsimp only at h1 h2 ⊢
              simp only [List.length_append, List.length_singleton] at h1
              have := hinv.2 (by omega) fun t ht => h2 t (by simp [ht])
              have e1 := uvLen_small (a := k.keys.length) (by omega)
              have e2 := uvLen_small (a := k.keys.length + 1) (by omega)
              have e3 := uvLen_small (h2 s (by simp))
              omega
        | encode =>
          simp only [applyKeyOp, key_encode_eq]
          have hl := keyBytes_length k.keys (by omega) fun s hs => Nat.lt_trans (hk s hs) (by decide)
          split
          · exact ⟨Nat.le_of_eq hl, fun _ _ => hl⟩
          · exact hinv
  rcases h0 with rfl | ⟨s, hs, rfl⟩
  · exact step ops newKey hops (by simp [newKey]; omega) (by simp [newKey]) (by
      have : uvLen 0 = 1 := uvLen_small (by decide)
      simp [newKey, keySize, this])
  · refine step ops _ hops (by simp [newSimpleKey]; omega) (by simpa [newSimpleKey] using hs) ?_
    have h1 : uvLen 1 = 1 := uvLen_small (by decide)
    have hp := uvLen_pos s.bytes.length
    refine ⟨by simp [newSimpleKey, keySize, h1]; omega, fun _ h2 => ?_⟩
    have := uvLen_small (h2 s (by simp [newSimpleKey]))
    simp [newSimpleKey, keySize, h1, this]; omega

example : (runKeyOps newKey [.add (some [1, 2]), .add (some [3])]).estBufSize = 6 := by decide +kernel

/-- C16 for the other keys: the estimate of the empty key and of keys made from bytes is the length of `Buf`. -/
theorem C16_other_keys (o : KeyObj) (h : ∀ k, o ≠ .key k) : ∃ b, o.getBuf = .ok b ∧ o.estBufSize = b.length := by
  cases o with
  | empty => exact ⟨[0], rfl, rfl⟩
  | mapped m =>
    refine ⟨m.getBuf, rfl, ?_⟩
    rw [KeyObj.estBufSize, MappedKey.getBuf]
    split <;> rfl
  | key k => exact absurd rfl (h k)

example := C16_other_keys (.mapped ⟨[some [5]], [1, 1, 5, 9]⟩) (by simp)

/-! ### C82 Copying a key preserves it -/

/-- The full claim C82 (false of the code). -/
def KeyCopyPreserves : Prop :=
  ∀ k : KeyObj, ∃ c, k.copy = .ok c ∧ c.equal? k = some true

/-- C82 is false: a key with an empty sub key (e.g. `NewStringKey("")`) cannot be copied. -/
theorem C82_refuted : ¬ KeyCopyPreserves := by
  intro h
  obtain ⟨c, hc, -⟩ := h (.key (newSimpleKey (some [])))
  have : KeyObj.copy (.key (newSimpleKey (some []))) = .panic := by decide +kernel
  rw [this] at hc; simp at hc

theorem addAll_eq (ks : List Slice) (k : Key) :
    (∃ s ∈ ks, s.bytes = []) ∧ addAll k ks = .panic ∨
    (∀ s ∈ ks, s.bytes ≠ []) ∧ ∃ k', addAll k ks = .ok k' ∧ k'.keys = k.keys ++ ks := by
  induction ks generalizing k with
  | nil => right; simp [addAll]
  | cons s ss ih =>
    by_cases hs : s.bytes = []
    · left; simp [addAll, Key.add, hs]
    · have e : addAll k (s :: ss) =
          addAll { k with keys := k.keys ++ [s], estBufSize := k.estBufSize + (1 + s.bytes.length) } ss := by
        simp [addAll, Key.add, hs]
      rw [e]
      rcases ih { k with keys := k.keys ++ [s], estBufSize := k.estBufSize + (1 + s.bytes.length) } with
        ⟨⟨t, ht, h1⟩, h2⟩ | ⟨h1, k', h2, h3⟩
      · left; exact ⟨⟨t, by simp [ht], h1⟩, h2⟩
      · right
        refine ⟨by simpa [hs] using h1, k', h2, by simpa using h3⟩

/-- C82, exact: copying a constructed key (and `CopyConstruct` of a mapped one) panics if and only if it has an empty sub
key; otherwise the copy is Equal to the original. -/
theorem C82_key_copyConstruct_partial (k : KeyObj) :
    (k.copyConstruct = .panic ↔ ∃ s ∈ k.subKeys, s.bytes = []) ∧
      (k.copyConstruct ≠ .panic → ∃ c, k.copyConstruct = .ok c ∧ c.equal? k = some true) := by
  cases k with
  | empty => simp [KeyObj.copyConstruct, KeyObj.subKeys, KeyObj.equal?_eq]
  | mapped m =>
    simp only [KeyObj.copyConstruct, KeyObj.subKeys]
    rcases addAll_eq m.keys newKey with ⟨h1, h2⟩ | ⟨h1, k', h2, h3⟩
    · rw [h2]; simpa using h1
    · rw [h2]
      simp [KeyObj.equal?_eq, KeyObj.subKeys, h3, newKey]
      exact h1
  | key k =>
    simp only [KeyObj.copyConstruct, KeyObj.subKeys]
    rcases addAll_eq k.keys newKey with ⟨h1, h2⟩ | ⟨h1, k', h2, h3⟩
    · rw [h2]; simpa using h1
    · rw [h2]
      simp [KeyObj.equal?_eq, KeyObj.subKeys, h3, newKey]
      exact h1

/-- C82: `Copy` of a mapped key always succeeds and is Equal. -/
theorem C82_mappedKey_copy_partial (buf : Bytes) (m : MappedKey) (n : Nat) (h : newMappedKey buf = .ok (m, n)) :
    KeyObj.copy (.mapped m) = .ok (.mapped m) ∧ (KeyObj.mapped m).equal? (.mapped m) = some true := by
  have hb : m.buf = buf := by
    unfold newMappedKey at h
    rw [Res.bind_eq_ok] at h
    obtain ⟨⟨a, b⟩, -, h⟩ := h
    simp only at h
    split at h
    · simp at h
    · rw [Res.bind_eq_ok] at h
      obtain ⟨⟨ks, j⟩, -, h⟩ := h
      simp only [Res.ok.injEq, Prod.mk.injEq] at h
      rw [← h.1]
  refine ⟨?_, (C12_key_equal_equivalence _ (.mapped m) (.mapped m)).1⟩
  simp [KeyObj.copy, hb, h]

example : (KeyObj.key ⟨false, [some [1], some [2]], none, 5⟩).copyConstruct ≠ .panic := by decide +kernel

/-! ### C84 Truncated keys are rejected -/

/-- The full claim C84 (false of the code): a strict, non-empty prefix of an encoded key is rejected. -/
def TruncatedKeyRejected : Prop :=
  ∀ (k k' : Key) (w q : Bytes), k.encode = (k', true) → k'.getBuf = .ok w → q <+: w → q ≠ w → q ≠ [] →
    newMappedKey q = .err

/-- C84 is false: dropping the second sub key of ["ab","c"] decodes to ["ab",""]. -/
theorem C84_refuted : ¬ TruncatedKeyRejected := by
  intro h
  have := h ⟨false, [some [97, 98], some [99]], none, 0⟩ _ [2, 2, 97, 98, 1, 99] [2, 2, 97, 98] rfl
    (by decide +kernel) (by decide) (by decide) (by decide)
  revert this; decide +kernel

theorem uvarint_strict_prefix_err {p q : Bytes} {v : Nat} (hp : IsUvarint p v) (hq : q <+: p) (hne : q ≠ p) (h0 : q ≠ []) :
    decodeUvarint64 q = .err ∧ decodeVarchar q = .err := by
  obtain ⟨t, ht⟩ := hq
  rcases decode_cases q h0 with ⟨p', rest, v', e, hp', -⟩ | ⟨-, h⟩
  · have := (hp'.prefix_unique hp (r := rest ++ t) (r' := []) (by rw [← ht, e]; simp)).1
    subst this
    exfalso
    apply hne
    have h3 : rest = [] ∧ t = [] := by
      rw [e, List.append_assoc] at ht
      have : rest ++ t = [] := by simpa using ht
      simpa using this
    rw [e, h3.1, List.append_nil]
  · obtain ⟨b, bs, rfl⟩ := List.exists_cons_of_ne_nil h0
    exact ⟨(decode_no_prefix h).1, (decode_no_prefix h).2.1⟩

theorem varchar_strict_prefix_err {d q : Bytes} (hd : d.length < 2 ^ 62) (hq : q <+: encodeVarchar d)
    (hne : q ≠ encodeVarchar d) (h0 : q ≠ []) : decodeVarchar q = .err := by
  obtain ⟨h1, h2, -⟩ := putUvarint_spec (x := d.length) (by omega)
  obtain ⟨t, ht⟩ := hq
  rcases List.append_eq_append_iff.mp ht with ⟨a, e1, e2⟩ | ⟨c, e1, e2⟩
  · by_cases ha : a = []
    · subst ha
      simp only [List.append_nil] at e1
      by_cases hd0 : d = []
      · exact absurd (by rw [← e1, encodeVarchar, hd0]; simp) hne
      · have := decodeVarchar_prefix (rest := []) h1 h2 (by omega) (by simp; omega)
        rw [List.append_nil, e1] at this
        rw [this, if_neg (by rw [e1] at h2; omega), if_pos (by simp; exact List.length_pos_iff.mpr hd0)]
    · exact (uvarint_strict_prefix_err h1 ⟨a, e1.symm⟩ (fun hc => ha (by rw [hc] at e1; simpa using e1)) h0).2
  · have hlen : c.length < d.length := by
      have h3 := congrArg List.length e2
      simp at h3
      by_contra hc
      have ht0 : t = [] := List.length_eq_zero_iff.mp (by omega)
      subst ht0
      simp at ht
      exact hne ht
    rw [e1, decodeVarchar_prefix h1 h2 (by omega) (by simp; omega), if_neg (by omega), if_pos hlen]

theorem decodeSubKeys_nil (n : Nat) : decodeSubKeys n [] = .ok (List.replicate n (some []), 0) := by
  induction n with
  | zero => rfl
  | succ n ih => simp [decodeSubKeys, decodeVarchar, ih, List.replicate_succ]

theorem decodeSubKeys_truncated (ks : List Slice) (hks : ∀ s ∈ ks, s.bytes.length < 2 ^ 62) (hl : (flatKeys ks).length < 2 ^ 62)
    (q : Bytes) (hq : q <+: flatKeys ks) (hne : q ≠ flatKeys ks) :
    decodeSubKeys ks.length q = .err ∨ ∃ i < ks.length, q = flatKeys (ks.take i) ∧
      decodeSubKeys ks.length q =
        .ok ((ks.take i).map (fun s => some s.bytes) ++ List.replicate (ks.length - i) (some []), q.length) := by
  induction ks generalizing q with
  | nil => simp [flatKeys] at hq; subst hq; simp [flatKeys] at hne
  | cons s ss ih =>
    have e : flatKeys (s :: ss) = encodeVarchar s.bytes ++ flatKeys ss := by simp [flatKeys]
    by_cases h0 : q = []
    · subst h0
      right
      refine ⟨0, by simp, by simp [flatKeys], ?_⟩
      rw [decodeSubKeys_nil]; simp
    · obtain ⟨t, ht⟩ := hq
      rw [e] at ht hne
      by_cases hp : q <+: encodeVarchar s.bytes ∧ q ≠ encodeVarchar s.bytes
      · left
        simp [decodeSubKeys, varchar_strict_prefix_err (hks s (by simp)) hp.1 hp.2 h0]
      · have : ∃ q', q = encodeVarchar s.bytes ++ q' := by
          rcases List.append_eq_append_iff.mp ht with ⟨a, e1, e2⟩ | ⟨c, e1, e2⟩
          · refine ⟨[], ?_⟩
            rw [List.append_nil]
            by_contra hc
            exact hp ⟨⟨a, e1.symm⟩, hc⟩
          · exact ⟨c, e1⟩
        obtain ⟨q', rfl⟩ := this
        have ht' : q' ++ t = flatKeys ss := by simpa using ht
        have hlq : (encodeVarchar s.bytes ++ q').length < 2 ^ 63 := by
          have := congrArg List.length ht'
          rw [e] at hl
          simp at this hl ⊢
          omega
        have ih' := ih (fun x hx => hks x (by simp [hx])) (by rw [e] at hl; simp at hl; omega) q' ⟨t, ht'⟩
          (fun hc => hne (by rw [hc]))
        have hd := decodeVarchar_roundtrip s.bytes q' hlq
        rcases ih' with h1 | ⟨i, hi, hq', h1⟩
        · left
          simp [decodeSubKeys, hd, h1]
        · right
          refine ⟨i + 1, by simp; omega, by rw [hq']; simp [flatKeys], ?_⟩
          simp [decodeSubKeys, hd, h1]

/-- C84, exact: a strict, non-empty prefix of an encoded key is rejected with an error, unless it was cut exactly at a sub
key boundary (after `i` of the sub keys) and still has at least as many bytes after the count as there should be sub keys.
In that case it is accepted and each missing sub key is replaced by an empty one. -/
theorem C84_truncated_key_partial (k k' : Key) (w q : Bytes) (h : k.encode = (k', true)) (hw : k'.getBuf = .ok w)
    (hq : q <+: w) (hne : q ≠ w) (h0 : q ≠ []) :
    newMappedKey q = .err ∨ ∃ i < k.keys.length, ∃ c body : Bytes, q = c ++ body ∧
      IsUvarint c k.keys.length ∧ IsVarchars ((k.keys.take i).map Slice.bytes) body ∧ k.keys.length ≤ body.length ∧
      newMappedKey q = .ok (⟨(k.keys.take i).map (fun s => some s.bytes) ++ List.replicate (k.keys.length - i) (some []), q⟩,
        q.length) := by
  rw [key_encode_eq] at h
  split at h
  case isFalse => simp at h
  case isTrue hle =>
  simp only [Prod.mk.injEq, and_true] at h
  subst h
  simp [Key.getBuf, Slice.bytes] at hw
  subst hw
  have hmax : maxKeyLength = 4096 := rfl
  have hflat : (flatKeys k.keys).length ≤ 4096 := by
    simp only [keyBytes, List.length_append] at hle; omega
  have hks : ∀ s ∈ k.keys, s.bytes.length < 2 ^ 62 := fun s hs => by
    have := flat_bound hflat s hs; omega
  have hn : k.keys.length ≤ 4096 :=
    Nat.le_trans (length_le_flat k.keys fun s hs => by have := hks s hs; omega) hflat
  obtain ⟨h1, h2, -⟩ := putUvarint_spec (x := k.keys.length) (by omega)
  obtain ⟨t, ht⟩ := hq
  have key : (q <+: putUvarint k.keys.length ∧ q ≠ putUvarint k.keys.length) ∨
      ∃ q', q = putUvarint k.keys.length ++ q' ∧ q' ++ t = flatKeys k.keys := by
    simp only [keyBytes, encodeUvarint64] at ht
    rcases List.append_eq_append_iff.mp ht with ⟨a, e1, e2⟩ | ⟨c, e1, e2⟩
    · by_cases hc : q = putUvarint k.keys.length
      · right; refine ⟨[], by simpa using hc, ?_⟩
        rw [hc] at e1
        have : a = [] := by simpa using e1
        subst this; simpa using e2
      · left; exact ⟨⟨a, e1.symm⟩, hc⟩
    · right; exact ⟨c, e1, e2.symm⟩
  rcases key with ⟨k1, k2⟩ | ⟨q', rfl, hq'⟩
  · left
    simp [newMappedKey, (uvarint_strict_prefix_err h1 k1 k2 h0).1]
  · have hl' : q'.length ≤ 4096 := by
      have := congrArg List.length hq'; simp at this; omega
    have hdec := decodeUvarint64_prefix (rest := q') h1 h2 (by omega) (by simp; omega)
    have hm24 : ¬ k.keys.length > maxMake24 := by have : (4096 : Nat) ≤ maxMake24 := by decide
                                                  omega
    by_cases hlt : q'.length < k.keys.length
    · left
      rw [if_pos ⟨hlt, by omega⟩] at hdec
      simp [newMappedKey, hdec]
    · rw [if_neg (by omega)] at hdec
      rcases decodeSubKeys_truncated k.keys hks (by omega) q' ⟨t, hq'⟩
        (fun hc => hne (by rw [hc]; rfl)) with h3 | ⟨i, hi, e, h3⟩
      · left; simp [newMappedKey, hdec, hm24, h3]
      · right
        refine ⟨i, hi, _, q', rfl, h1, ?_, by omega, ?_⟩
        · rw [e]; exact flatKeys_isVarchars _ fun s hs => by have := hks s (List.mem_of_mem_take hs); omega
        · simp [newMappedKey, hdec, hm24, h3]

example : newMappedKey [2, 2, 97, 98] = .ok (⟨[some [97, 98], some []], [2, 2, 97, 98]⟩, 4) ∧
    newMappedKey [2, 2, 97, 98, 1] = .err := by decide +kernel

example := C82_key_copyConstruct_partial (.key ⟨false, [some [1], some []], none, 5⟩)

end Poodle.Props
