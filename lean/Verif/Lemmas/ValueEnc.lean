import Verif.Lemmas.ValueHeap

namespace Poodle
open Spec

/-! ### Headers -/

/-- The bits and bytes of a count field. -/
theorem isCount_small {n : Nat} (h : n < 256) : IsCount 1 (some n) [UInt8.ofNat n] := by
  have := IsCount.one (UInt8.ofNat n)
  rwa [UInt8.toNat_ofNat_of_lt' (by simpa [UInt8.size] using h)] at this

theorem isCount_big {n : Nat} (h : n < 65536) : IsCount 2 (some n) [UInt8.ofNat (n >>> 8), UInt8.ofNat n] := by
  have := IsCount.two (UInt8.ofNat (n >>> 8)) (UInt8.ofNat n)
  have e : (UInt8.ofNat (n >>> 8)).toNat * 256 + (UInt8.ofNat n).toNat = n := by
    rw [UInt8.toNat_ofNat', UInt8.toNat_ofNat', Nat.shiftRight_eq_div_pow]
    omega
  rwa [e] at this

/-- The header of a non-empty collection. -/
theorem countHeader_ok {shift : UInt8} {n : Nat} {m : UInt8} {c : Bytes} (h : countHeader shift n = .ok (m, c)) :
    n < 65536 ∧ c.length = fieldSize n ∧
    ((n = 0 ∧ m = 0 ∧ c = []) ∨ (n ≠ 0 ∧ ∃ b : UInt8, (b = 1 ∨ b = 2) ∧ m = 0x00 ||| (b <<< shift) ∧ IsCount b (some n) c)) := by
  unfold countHeader at h
  unfold fieldSize
  by_cases h0 : n = 0
  · rw [if_pos h0] at h
    cases h
    exact ⟨by omega, by simp [h0], Or.inl ⟨h0, by decide, rfl⟩⟩
  rw [if_neg h0] at h
  rw [if_neg h0]
  by_cases h1 : n < 256
  · rw [if_pos h1] at h
    rw [if_pos h1]
    cases h
    exact ⟨by omega, rfl, Or.inr ⟨h0, 1, Or.inl rfl, rfl, isCount_small h1⟩⟩
  rw [if_neg h1] at h
  rw [if_neg h1]
  by_cases h2 : n < 65536
  · rw [if_pos h2] at h
    cases h
    exact ⟨by omega, rfl, Or.inr ⟨h0, 2, Or.inr rfl, rfl, isCount_big h2⟩⟩
  · rw [if_neg h2] at h; exact absurd h (by simp)

theorem countHeader_iff (shift : UInt8) (n : Nat) :
    (n < 65536 → ∃ m c, countHeader shift n = .ok (m, c)) ∧ (65536 ≤ n → countHeader shift n = .err) := by
  unfold countHeader
  constructor
  · intro h
    split
    · exact ⟨_, _, rfl⟩
    · split
      · exact ⟨_, _, rfl⟩
      · exact ⟨_, _, rfl⟩
  · intro h
    rw [if_neg (by omega), if_neg (by omega), if_neg (by omega)]

theorem withContent_ok {m : UInt8} {c content w : Bytes} (h : withContent m c content = .ok w) :
    content.length < 65536 ∧ ∃ (b : UInt8) (len : Option Nat) (l : Bytes), (b = 0 ∨ b = 1 ∨ b = 2) ∧ IsCount b len l ∧
      content.length = len.getD 0 ∧ l.length = fieldSize content.length ∧ w = (m ||| b) :: (c ++ l ++ content) := by
  unfold withContent at h
  unfold fieldSize
  by_cases h0 : content.length = 0
  · rw [if_pos h0] at h
    cases h
    refine ⟨by omega, 0, none, [], Or.inl rfl, IsCount.none, by simpa using h0, by simp [h0], ?_⟩
    have : content = [] := List.length_eq_zero_iff.mp h0
    simp [this]
  rw [if_neg h0] at h
  rw [if_neg h0]
  by_cases h1 : content.length < 256
  · rw [if_pos h1] at h
    rw [if_pos h1]
    cases h
    exact ⟨by omega, 1, _, _, Or.inr (Or.inl rfl), isCount_small h1, rfl, rfl, rfl⟩
  rw [if_neg h1] at h
  rw [if_neg h1]
  by_cases h2 : content.length < 65536
  · rw [if_pos h2] at h
    cases h
    exact ⟨by omega, 2, _, _, Or.inr (Or.inr rfl), isCount_big h2, rfl, rfl, rfl⟩
  · rw [if_neg h2] at h; exact absurd h (by simp)

theorem withContent_iff (m : UInt8) (c content : Bytes) :
    (content.length < 65536 → ∃ w, withContent m c content = .ok w) ∧ (65536 ≤ content.length → withContent m c content = .err) := by
  unfold withContent
  constructor
  · intro h
    split
    · exact ⟨_, rfl⟩
    · split
      · exact ⟨_, rfl⟩
      · exact ⟨_, rfl⟩
  · intro h
    rw [if_neg (by omega), if_neg (by omega), if_neg (by omega)]

/-! ### The encoding of a constructed value is well formed -/

/-- The decoded value `d` is what `v` was encoded to. -/
def WireOf (v : CVal) (d : StdValue) : Prop :=
  IsStdWire d.buf d.kind d.size d.content ∧
  match v with
  | .prim s => d.kind = .prim ∧ d.size = 0 ∧ s = some d.content
  | .array es => d.size = es.length ∧
      ((es = [] ∧ d.kind = .prim ∧ d.content = []) ∨ (es ≠ [] ∧ d.kind = .array ∧ encodeVals es = .ok d.content))
  | .records rs => d.size = rs.length ∧
      ((rs = [] ∧ d.kind = .prim ∧ d.content = []) ∨ (rs ≠ [] ∧ d.kind = .records ∧ encodeRecs rs = .ok d.content))
  | _ => False

theorem encodePrimitive_wire {s : Slice} {w : Bytes} (h : encodePrimitive s = .ok w) :
    (s = none ∧ w = []) ∨ ∃ d, s = some d ∧ IsStdWire w .prim 0 d ∧ w.length = 1 + fieldSize d.length + d.length := by
  cases s with
  | none => left; cases h; exact ⟨rfl, rfl⟩
  | some d =>
    right
    refine ⟨d, rfl, ?_⟩
    unfold encodePrimitive at h
    simp only at h
    unfold fieldSize
    by_cases h0 : d.length = 0
    · rw [if_pos h0] at h
      cases h
      have : d = [] := List.length_eq_zero_iff.mp h0
      subst this
      exact ⟨IsStdWire.prim 0 none [] [] (by decide) (by decide) (by decide) IsCount.none rfl, by simp⟩
    rw [if_neg h0] at h
    rw [if_neg h0]
    by_cases h1 : d.length < 256
    · rw [if_pos h1] at h
      rw [if_pos h1]
      cases h
      exact ⟨IsStdWire.prim 1 _ _ d (by decide) (by decide) (by decide) (isCount_small h1) rfl,
        by simp only [List.length_cons, List.length_append, List.length_nil]; omega⟩
    rw [if_neg h1] at h
    rw [if_neg h1]
    by_cases h2 : d.length < 65536
    · rw [if_pos h2] at h
      cases h
      exact ⟨IsStdWire.prim 2 _ _ d (by decide) (by decide) (by decide) (isCount_big h2) rfl,
        by simp only [List.length_cons, List.length_append, List.length_nil]; omega⟩
    · rw [if_neg h2] at h; exact absurd h (by simp)

theorem encodePrimitive_iff (s : Slice) :
    (s.bytes.length < 65536 → ∃ w, encodePrimitive s = .ok w) ∧ (65536 ≤ s.bytes.length → encodePrimitive s = .err) := by
  cases s with
  | none => exact ⟨fun _ => ⟨_, rfl⟩, fun h => absurd h (by simp [Slice.bytes])⟩
  | some d =>
    unfold encodePrimitive
    simp only [Slice.bytes, Option.getD_some]
    constructor
    · intro h
      split
      · exact ⟨_, rfl⟩
      · split
        · exact ⟨_, rfl⟩
        · exact ⟨_, rfl⟩
    · intro h
      rw [if_neg (by omega), if_neg (by omega), if_neg (by omega)]

theorem bits_array (b1 b2 : UInt8) (h1 : b1 = 1 ∨ b1 = 2) (h2 : b2 = 0 ∨ b2 = 1 ∨ b2 = 2) :
    ((((0x00 : UInt8) ||| (b1 <<< 6) ||| b2) >>> 6) &&& 3 = b1) ∧ ((((0x00 : UInt8) ||| (b1 <<< 6) ||| b2) >>> 4) &&& 3 = 0) ∧
      (((0x00 : UInt8) ||| (b1 <<< 6) ||| b2) &&& 12 = 0) ∧ (((0x00 : UInt8) ||| (b1 <<< 6) ||| b2) &&& 3 = b2) := by
  rcases h1 with rfl | rfl <;> rcases h2 with rfl | rfl | rfl <;> decide +kernel

theorem bits_records (b1 b2 : UInt8) (h1 : b1 = 1 ∨ b1 = 2) (h2 : b2 = 0 ∨ b2 = 1 ∨ b2 = 2) :
    ((((0x00 : UInt8) ||| (b1 <<< 4) ||| b2) >>> 6) &&& 3 = 0) ∧ ((((0x00 : UInt8) ||| (b1 <<< 4) ||| b2) >>> 4) &&& 3 = b1) ∧
      (((0x00 : UInt8) ||| (b1 <<< 4) ||| b2) &&& 12 = 0) ∧ (((0x00 : UInt8) ||| (b1 <<< 4) ||| b2) &&& 3 = b2) := by
  rcases h1 with rfl | rfl <;> rcases h2 with rfl | rfl | rfl <;> decide +kernel

theorem wireOf_array {es : List CVal} {w : Bytes} (h : (CVal.array es).encode = .ok w) :
    ∃ content, encodeVals es = .ok content ∧ es.length < 65536 ∧ content.length < 65536 ∧
      w.length = 1 + fieldSize es.length + fieldSize content.length + content.length ∧
      (es ≠ [] → IsStdWire w .array es.length content) ∧ (es = [] → w = [0]) := by
  rw [CVal.encode] at h
  obtain ⟨⟨m, c⟩, h1, h⟩ := Res.bind_eq_ok.mp h
  obtain ⟨content, h2, h⟩ := Res.bind_eq_ok.mp h
  obtain ⟨q1, q2, q3⟩ := countHeader_ok h1
  obtain ⟨r1, b2, len, l, r2, r3, r4, r5, r6⟩ := withContent_ok h
  refine ⟨content, h2, q1, r1, ?_, ?_, ?_⟩
  · rw [r6]
    simp only [List.length_cons, List.length_append, q2, r5]
    omega
  · intro hne
    rcases q3 with ⟨h0, -⟩ | ⟨-, b1, hb1, rfl, hc⟩
    · exact absurd (List.length_eq_zero_iff.mp h0) hne
    · obtain ⟨e1, e2, e3, e4⟩ := bits_array b1 b2 hb1 r2
      rw [r6]
      exact IsStdWire.array _ _ len c l content (by rw [e1]; exact hc) e2 e3 (by rw [e4]; exact r3) r4
  · rintro rfl
    rw [encodeVals] at h2
    cases h2
    rcases q3 with ⟨-, rfl, rfl⟩ | ⟨h0, -⟩
    · have : withContent 0 [] [] = .ok [0] := rfl
      rw [this] at h
      cases h; rfl
    · exact absurd rfl h0

theorem wireOf_records {rs : List CRec} {w : Bytes} (h : (CVal.records rs).encode = .ok w) :
    ∃ content, encodeRecs rs = .ok content ∧ rs.length < 65536 ∧ content.length < 65536 ∧
      w.length = 1 + fieldSize rs.length + fieldSize content.length + content.length ∧
      (rs ≠ [] → IsStdWire w .records rs.length content) ∧ (rs = [] → w = [0]) := by
  rw [CVal.encode] at h
  obtain ⟨⟨m, c⟩, h1, h⟩ := Res.bind_eq_ok.mp h
  obtain ⟨content, h2, h⟩ := Res.bind_eq_ok.mp h
  obtain ⟨q1, q2, q3⟩ := countHeader_ok h1
  obtain ⟨r1, b2, len, l, r2, r3, r4, r5, r6⟩ := withContent_ok h
  refine ⟨content, h2, q1, r1, ?_, ?_, ?_⟩
  · rw [r6]
    simp only [List.length_cons, List.length_append, q2, r5]
    omega
  · intro hne
    rcases q3 with ⟨h0, -⟩ | ⟨-, b1, hb1, rfl, hc⟩
    · exact absurd (List.length_eq_zero_iff.mp h0) hne
    · obtain ⟨e1, e2, e3, e4⟩ := bits_records b1 b2 hb1 r2
      rw [r6]
      exact IsStdWire.records _ _ len c l content e1 (by rw [e2]; exact hc) e3 (by rw [e4]; exact r3) r4
  · rintro rfl
    rw [encodeRecs] at h2
    cases h2
    rcases q3 with ⟨-, rfl, rfl⟩ | ⟨h0, -⟩
    · have : withContent 0 [] [] = .ok [0] := rfl
      rw [this] at h
      cases h; rfl
    · exact absurd rfl h0

theorem isStdWire_zero : IsStdWire [0] .prim 0 [] :=
  IsStdWire.prim 0 none [] [] (by decide) (by decide) (by decide) IsCount.none rfl

/-- Every successful encoding, except that of a nil primitive, is a well-formed value. -/
theorem encode_wire {v : CVal} {w : Bytes} (h : v.encode = .ok w) :
    (v = .prim none ∧ w = []) ∨ ∃ d, d.buf = w ∧ WireOf v d := by
  cases v with
  | prim s =>
    rw [CVal.encode] at h
    rcases encodePrimitive_wire h with ⟨rfl, rfl⟩ | ⟨d, rfl, hw, -⟩
    · exact Or.inl ⟨rfl, rfl⟩
    · exact Or.inr ⟨⟨w, .prim, 0, d⟩, rfl, hw, rfl, rfl, rfl⟩
  | array es =>
    right
    obtain ⟨content, h1, -, -, -, h2, h3⟩ := wireOf_array h
    by_cases he : es = []
    · refine ⟨⟨w, .prim, 0, []⟩, rfl, ?_, by simp [he], Or.inl ⟨he, rfl, rfl⟩⟩
      rw [h3 he]; exact isStdWire_zero
    · exact ⟨⟨w, .array, es.length, content⟩, rfl, h2 he, rfl, Or.inr ⟨he, rfl, h1⟩⟩
  | records rs =>
    right
    obtain ⟨content, h1, -, -, -, h2, h3⟩ := wireOf_records h
    by_cases he : rs = []
    · refine ⟨⟨w, .prim, 0, []⟩, rfl, ?_, by simp [he], Or.inl ⟨he, rfl, rfl⟩⟩
      rw [h3 he]; exact isStdWire_zero
    · exact ⟨⟨w, .records, rs.length, content⟩, rfl, h2 he, rfl, Or.inr ⟨he, rfl, h1⟩⟩
  | simple _ _ => rw [CVal.encode] at h; exact absurd h (by simp)
  | std _ => rw [CVal.encode] at h; exact absurd h (by simp)

/-! ### Elements of an encoded array -/

/-- Without nil primitives, the `i`-th element of the content is what the `i`-th value was encoded to. -/
theorem elemOf_encodeVals : ∀ {es : List CVal} {c : Bytes}, encodeVals es = .ok c → (∀ e ∈ es, e ≠ .prim none) →
    ∀ (i : Nat) (e : CVal), es[i]? = some e → ∃ d, elemOf decodeStd c i = .ok d ∧ WireOf e d ∧ e.encode = .ok d.buf
  | [], _, _, _, i, e, h => by simp at h
  | v :: l, c, h, hn, i, e, hi => by
    rw [encodeVals] at h
    obtain ⟨b, h1, h⟩ := Res.bind_eq_ok.mp h
    obtain ⟨bs, h2, h⟩ := Res.bind_eq_ok.mp h
    cases h
    rcases encode_wire h1 with ⟨h3, -⟩ | ⟨d, rfl, hd⟩
    · exact absurd h3 (hn v (by simp))
    have hdec := decodeStd_of_wire (rest := bs) hd.1
    cases i with
    | zero =>
      simp only [List.getElem?_cons_zero, Option.some.injEq] at hi
      subst hi
      exact ⟨d, by rw [elemOf, hdec]; rfl, hd, h1⟩
    | succ i =>
      simp only [List.getElem?_cons_succ] at hi
      obtain ⟨d', h4, h5, h6⟩ := elemOf_encodeVals h2 (fun e he => hn e (by simp [he])) i e hi
      refine ⟨d', ?_, h5, h6⟩
      rw [elemOf, hdec]
      simpa using h4

/-- How many of the values are encoded to something. -/
def present : List CVal → Nat
  | [] => 0
  | .prim none :: l => present l
  | _ :: l => present l + 1

theorem present_le : ∀ es : List CVal, present es ≤ es.length
  | [] => Nat.le_refl _
  | v :: l => by
    have := present_le l
    rw [present.eq_def]
    simp only [List.length_cons]
    split
    · simp_all
    · simp_all; omega
    · simp_all

theorem present_cons {v : CVal} (hv : v ≠ .prim none) (l : List CVal) : present (v :: l) = present l + 1 := by
  rw [present.eq_def]
  split
  · simp_all
  · simp_all
  · simp_all

theorem present_lt : ∀ {es : List CVal}, CVal.prim none ∈ es → present es < es.length
  | [], h => by simp at h
  | v :: l, h => by
    have := present_le l
    by_cases hv : v = .prim none
    · subst hv
      simp only [present, List.length_cons]
      omega
    · have := present_lt (es := l) (by
        rcases List.mem_cons.mp h with h | h
        · exact absurd h.symm hv
        · exact h)
      rw [present_cons hv, List.length_cons]
      omega

/-- Nil primitives leave nothing behind, so the last elements are missing. -/
theorem elemOf_present : ∀ {es : List CVal} {c : Bytes}, encodeVals es = .ok c → elemOf decodeStd c (present es) = .err
  | [], c, h => by
    rw [encodeVals] at h
    cases h
    decide +kernel
  | v :: l, c, h => by
    rw [encodeVals] at h
    obtain ⟨b, h1, h⟩ := Res.bind_eq_ok.mp h
    obtain ⟨bs, h2, h⟩ := Res.bind_eq_ok.mp h
    cases h
    have ih := elemOf_present h2
    rcases encode_wire h1 with ⟨rfl, rfl⟩ | ⟨d, rfl, hd⟩
    · simpa [present] using ih
    · have hv : v ≠ .prim none := by
        rintro rfl
        have : d.buf = [] := by
          rw [CVal.encode] at h1
          exact (Res.ok.inj h1).symm
        exact hd.1.ne_nil this
      rw [present_cons hv, elemOf, decodeStd_of_wire (rest := bs) hd.1]
      simpa using ih

/-! ### Walking in the heap -/

theorem history_coherent {h : Heap} (hc : Coherent h) (l : List Access) :
    Coherent (history h l) ∧ Extends h (history h l) := by
  induction l generalizing h with
  | nil => exact ⟨hc, Extends.refl h⟩
  | cons a l ih =>
    have h1 : Coherent (a.run h) ∧ Extends h (a.run h) := by
      cases a with
      | value id idx => exact valueAt_coherent hc id idx
      | record id idx => exact recordAt_coherent hc id idx
    obtain ⟨q1, q2⟩ := ih h1.1
    exact ⟨q1, h1.2.trans q2⟩

/-- Reading an element of an array that is well formed there. -/
theorem valueAt_ok {h : Heap} (hc : Coherent h) {id : Nat} {d : StdValue} (hr : RepV h id d) (hk : d.kind = .array) {i : Nat}
    (hi : i < d.size) {e : StdValue} (he : elemOf decodeStd d.content i = .ok e) :
    ∃ h' q, h.valueAt id i = (h', .ok (some q)) ∧ Coherent h' ∧ Extends h h' ∧ RepV h' q e := by
  obtain ⟨sl, hs⟩ := hr
  obtain ⟨h', q, h1, h2, h3, h4, -⟩ := lazyAt_ok allocStd_spec hk hc hs hi he
  refine ⟨h', q, ?_, h2, h3, h4⟩
  rw [Heap.valueAt, hs]
  simp only
  rw [if_neg (by simp [hk]), h1]

theorem valueAt_range {h : Heap} {id : Nat} {d : StdValue} (hr : RepV h id d) {i : Nat} (hi : d.kind ≠ .array ∨ d.size ≤ i) :
    h.valueAt id i = (h, .err) := by
  obtain ⟨sl, hs⟩ := hr
  rw [Heap.valueAt, hs]
  simp only
  by_cases hk : d.kind = .array
  · rw [if_neg (by simp [hk]), lazyAt, if_pos (by rcases hi with h | h; exact absurd hk h; exact h)]
  · rw [if_pos hk]

/-- Reading an element that is malformed never gives an object. -/
theorem valueAt_malformed {h : Heap} (hc : Coherent h) {id : Nat} {d : StdValue} (hr : RepV h id d) {i : Nat}
    (he : ∀ e, elemOf decodeStd d.content i ≠ .ok e) (h' : Heap) (q : Nat) : h.valueAt id i ≠ (h', .ok (some q)) := by
  by_cases hk : d.kind = .array
  swap
  · rw [valueAt_range hr (Or.inl hk)]; simp
  rcases Nat.lt_or_ge i d.size with hi | hi
  swap
  · rw [valueAt_range hr (Or.inr hi)]; simp
  obtain ⟨sl, hs⟩ := hr
  obtain ⟨f, hf, h1, h2⟩ := exists_first_fail he
  obtain ⟨q1, q2, q3⟩ := lazyAt_fail allocStd_spec hk hc hs hi hf h1 h2
  rw [Heap.valueAt, hs]
  simp only
  rw [if_neg (by simp [hk])]
  rcases q3 with q3 | q3
  · obtain ⟨h'', r1, -⟩ := q1 q3
    rw [r1]
    rcases e : elemOf decodeStd d.content f with x | - | -
    · exact absurd e (h1 x)
    · simp [failed]
    · simp [failed]
  · rw [q2 q3]
    split <;> simp

theorem wireOf_shows {v : CVal} {d : StdValue} (hw : WireOf v d) {h : Heap} {q : Nat} (hr : RepV h q d) : Shows h q v := by
  obtain ⟨sl, hs⟩ := hr
  refine ⟨d, sl, hs, ?_, ?_⟩
  · have hlt := hw.1.size_lt
    cases v with
    | prim s => exact hw.2.2.1
    | array es => rw [hw.2.1] at hlt ⊢; exact (Nat.mod_eq_of_lt hlt).symm
    | records rs => rw [hw.2.1] at hlt ⊢; exact (Nat.mod_eq_of_lt hlt).symm
    | simple _ _ => exact hw.2.elim
    | std _ => exact hw.2.elim
  · cases v with
    | prim s => simp [StdValue.value, hw.2.1, CVal.value, hw.2.2.2]
    | array es =>
      rcases hw.2.2 with ⟨-, hk, hcont⟩ | ⟨-, hk, -⟩
      · simp [StdValue.value, hk, CVal.value, hcont, Slice.bytes]
      · simp [StdValue.value, hk, CVal.value]
    | records rs =>
      rcases hw.2.2 with ⟨-, hk, hcont⟩ | ⟨-, hk, -⟩
      · simp [StdValue.value, hk, CVal.value, hcont, Slice.bytes]
      · simp [StdValue.value, hk, CVal.value]
    | simple _ _ => exact hw.2.elim
    | std _ => exact hw.2.elim

theorem allNoNil_mem : ∀ {es : List CVal}, allNoNil es = true → ∀ e ∈ es, noNil e = true
  | [], _, e, he => by simp at he
  | v :: l, h, e, he => by
    rw [allNoNil, Bool.and_eq_true] at h
    rcases List.mem_cons.mp he with rfl | he
    · exact h.1
    · exact allNoNil_mem h.2 e he

theorem allPlain_mem : ∀ {es : List CVal}, allPlain es = true → ∀ e ∈ es, isPlain e = true
  | [], _, e, he => by simp at he
  | v :: l, h, e, he => by
    rw [allPlain, Bool.and_eq_true] at h
    rcases List.mem_cons.mp he with rfl | he
    · exact h.1
    · exact allPlain_mem h.2 e he

/-- Without nil primitives everything is found again. -/
theorem walk_noNil : ∀ (p : List Nat) {v : CVal} {d : StdValue} {h : Heap} {id : Nat}, noNil v = true → WireOf v d →
    Coherent h → RepV h id d →
    (∀ u, pathAt v p = some u → ∃ h' q, walk h id p = (h', .ok (some q)) ∧ Shows h' q u) ∧
    (pathAt v p = none → (walk h id p).2 = .err)
  | [], v, d, h, id, _, hw, _, hr => by
    constructor
    · intro u hu
      rw [pathAt] at hu
      cases hu
      exact ⟨h, id, rfl, wireOf_shows hw hr⟩
    · intro hu
      rw [pathAt] at hu
      exact absurd hu (by simp)
  | i :: p, v, d, h, id, hn, hw, hc, hr => by
    have herr : (d.kind ≠ .array ∨ d.size ≤ i) → walk h id (i :: p) = (h, .err) := by
      intro hh
      rw [walk, valueAt_range hr hh]
    cases v with
    | array es =>
      rw [noNil] at hn
      rw [pathAt]
      rcases hw.2.2 with ⟨rfl, hk, -⟩ | ⟨hne, hk, hcont⟩
      · simp only [List.getElem?_nil]
        exact ⟨fun u hu => absurd hu (by simp), fun _ => by rw [herr (Or.inl (by simp [hk]))]⟩
      · rcases hi : es[i]? with - | e
        · simp only
          refine ⟨fun u hu => absurd hu (by simp), fun _ => ?_⟩
          rw [herr (Or.inr (by rw [hw.2.1]; exact List.getElem?_eq_none_iff.mp hi))]
        · simp only
          have hmem := List.mem_of_getElem? hi
          obtain ⟨d', h1, h2, h3⟩ := elemOf_encodeVals hcont (fun e he => by
            rintro rfl
            have := allNoNil_mem hn _ he
            simp [noNil] at this) i e hi
          obtain ⟨h', q, r1, r2, r3, r4⟩ := valueAt_ok hc hr hk (by
            rw [hw.2.1]; exact (List.getElem?_eq_some_iff.mp hi).1) h1
          have ih := walk_noNil p (allNoNil_mem hn e hmem) h2 r2 r4
          rw [walk, r1]
          exact ih
    | prim s =>
      rw [pathAt.eq_def]
      exact ⟨fun u hu => absurd hu (by simp), fun _ => by rw [herr (Or.inl (by simp [hw.2.1]))]⟩
    | records rs =>
      rw [pathAt.eq_def]
      refine ⟨fun u hu => absurd hu (by simp), fun _ => ?_⟩
      rw [herr (Or.inl (by rcases hw.2.2 with ⟨-, hk, -⟩ | ⟨-, hk, -⟩ <;> simp [hk]))]
    | simple _ _ => exact hw.2.elim
    | std _ => exact hw.2.elim

mutual
/-- A nil primitive inside an array makes some element unreachable. -/
theorem walk_nil : ∀ (v : CVal) (d : StdValue), noNil v ≠ true → WireOf v d →
    ∃ (p : List Nat) (u : CVal), pathAt v p = some u ∧ ∀ h id, Coherent h → RepV h id d → ∀ h' q, walk h id p ≠ (h', .ok (some q))
  | .prim none, d, _, hw => by have := hw.2.2.2; simp at this
  | .prim (some x), d, hn, _ => absurd rfl hn
  | .records _, d, hn, _ => absurd rfl hn
  | .simple _ _, d, hn, _ => absurd rfl hn
  | .std _, d, hn, _ => absurd rfl hn
  | .array es, d, hn, hw => by
    rw [noNil] at hn
    rcases hw.2.2 with ⟨rfl, -⟩ | ⟨hne, hk, hcont⟩
    · simp [allNoNil] at hn
    by_cases hmem : CVal.prim none ∈ es
    · have hlt := present_lt hmem
      have hlen : es.length - 1 < es.length := by omega
      refine ⟨[es.length - 1], es[es.length - 1], by simp [pathAt, List.getElem?_eq_getElem hlen], ?_⟩
      intro h id hc hr h' q
      have he : ∀ e, elemOf decodeStd d.content (es.length - 1) ≠ .ok e := by
        intro e
        rw [elemOf_fail (i := present es) (by rw [elemOf_present hcont]; simp) _ (by omega), elemOf_present hcont]
        simp
      have hm := fun h' q => valueAt_malformed hc hr he h' q
      rw [walk]
      rcases hv : h.valueAt id (es.length - 1) with ⟨h1, r⟩
      rcases r with r | - | -
      · cases r with
        | none => simp
        | some q' => exact absurd hv (hm h1 q')
      · simp
      · simp
    · obtain ⟨i, e, hi, hne', hw'⟩ := walk_nil_list es hn
      obtain ⟨d', h1, h2, h3⟩ := elemOf_encodeVals hcont (fun e he => by rintro rfl; exact hmem he) i e hi
      obtain ⟨p, u, hp, hh⟩ := hw' d' h2
      refine ⟨i :: p, u, by rw [pathAt, hi]; exact hp, ?_⟩
      intro h id hc hr h' q
      obtain ⟨h'', q'', r1, r2, r3, r4⟩ := valueAt_ok hc hr hk (by
        rw [hw.2.1]; exact (List.getElem?_eq_some_iff.mp hi).1) h1
      rw [walk, r1]
      exact hh h'' q'' r2 r4 h' q

/-- Some element of the list has it. -/
theorem walk_nil_list : ∀ es : List CVal, allNoNil es ≠ true → ∃ (i : Nat) (e : CVal), es[i]? = some e ∧ noNil e ≠ true ∧ ∀ d, WireOf e d →
    ∃ (p : List Nat) (u : CVal), pathAt e p = some u ∧ ∀ h id, Coherent h → RepV h id d → ∀ h' q, walk h id p ≠ (h', .ok (some q))
  | [], h => by simp [allNoNil] at h
  | v :: l, h => by
    by_cases hv : noNil v = true
    · obtain ⟨i, e, h1, h2, h3⟩ := walk_nil_list l (by
        rw [allNoNil, hv] at h
        simpa using h)
      exact ⟨i + 1, e, by simpa using h1, h2, h3⟩
    · exact ⟨0, v, rfl, hv, fun d hd => walk_nil v d hv hd⟩
end

theorem noNil_of_roundTrips {v : CVal} {w : Bytes} (h : v.encode = .ok w) (hr : RoundTrips v w) : noNil v = true := by
  by_contra hn
  rcases encode_wire h with ⟨rfl, rfl⟩ | ⟨d, rfl, hd⟩
  · obtain ⟨h0, id, h1, -⟩ := hr []
    have : allocStd [] ([] ++ []) = ([], .err) := by decide +kernel
    rw [this] at h1
    exact absurd h1 (by simp)
  · obtain ⟨p, u, hp, hbad⟩ := walk_nil v d hn hd
    obtain ⟨h0, id, h1, h2⟩ := hr []
    have hdec := decodeStd_of_wire (rest := []) hd.1
    obtain ⟨ext, p', e1, e2, e3⟩ := allocStd_spec.onOk [] _ _ _ coherent_nil hdec
    rw [e1] at h1
    cases h1
    obtain ⟨h', q, hw, -⟩ := (h2 [] p).1 u hp
    exact hbad _ _ e2 e3 h' q hw

/-! ### Sizes -/

mutual
theorem encode_length : ∀ (v : CVal) (w : Bytes), isPlain v = true → v.encode = .ok w → w.length = wireSize v
  | .prim none, w, _, h => by rw [CVal.encode] at h; cases h; rfl
  | .prim (some d), w, _, h => by
    rw [CVal.encode] at h
    rcases encodePrimitive_wire h with ⟨h1, -⟩ | ⟨d', h1, -, h2⟩
    · exact absurd h1 (by simp)
    · cases h1
      rw [wireSize]; exact h2
  | .array es, w, hp, h => by
    rw [isPlain] at hp
    obtain ⟨content, h1, -, -, h2, -⟩ := wireOf_array h
    rw [wireSize, ← encodeVals_length es content hp h1]
    exact h2
  | .records _, _, hp, _ => by simp [isPlain] at hp
  | .simple _ _, _, hp, _ => by simp [isPlain] at hp
  | .std _, _, hp, _ => by simp [isPlain] at hp

theorem encodeVals_length : ∀ (es : List CVal) (c : Bytes), allPlain es = true → encodeVals es = .ok c → c.length = wireSizes es
  | [], c, _, h => by rw [encodeVals] at h; cases h; rfl
  | v :: l, c, hp, h => by
    rw [allPlain, Bool.and_eq_true] at hp
    rw [encodeVals] at h
    obtain ⟨b, h1, h⟩ := Res.bind_eq_ok.mp h
    obtain ⟨bs, h2, h⟩ := Res.bind_eq_ok.mp h
    cases h
    rw [wireSizes, List.length_append, encode_length v b hp.1 h1, encodeVals_length l bs hp.2 h2]
end

mutual
theorem encode_fits : ∀ (v : CVal), isPlain v = true →
    (fits16 v = true → ∃ w, v.encode = .ok w) ∧ (fits16 v = false → v.encode = .err)
  | .prim none, _ => ⟨fun _ => ⟨[], rfl⟩, fun h => by simp [fits16] at h⟩
  | .prim (some d), _ => by
    rw [CVal.encode, fits16]
    have := encodePrimitive_iff (some d)
    simp only [Slice.bytes, Option.getD_some] at this
    exact ⟨fun h => this.1 (by simpa using h), fun h => this.2 (by simpa using h)⟩
  | .array es, hp => by
    rw [isPlain] at hp
    have ih := encodeVals_fits es hp
    rw [CVal.encode, fits16]
    by_cases h1 : es.length < 65536
    swap
    · rw [(countHeader_iff 6 es.length).2 (by omega)]
      simp [h1]
    obtain ⟨m, c, hm⟩ := (countHeader_iff 6 es.length).1 h1
    rw [hm]
    simp only [Res.bind_ok]
    rcases h2 : allFit16 es with - | -
    · rw [ih.2 h2]
      simp
    · obtain ⟨content, hc⟩ := ih.1 h2
      rw [hc]
      simp only [Res.bind_ok]
      rw [← encodeVals_length es content hp hc]
      constructor
      · intro h
        exact (withContent_iff m c content).1 (by simp at h; exact h.2)
      · intro h
        exact (withContent_iff m c content).2 (by simp at h; exact h h1)
  | .records _, hp => by simp [isPlain] at hp
  | .simple _ _, hp => by simp [isPlain] at hp
  | .std _, hp => by simp [isPlain] at hp

theorem encodeVals_fits : ∀ (es : List CVal), allPlain es = true →
    (allFit16 es = true → ∃ c, encodeVals es = .ok c) ∧ (allFit16 es = false → encodeVals es = .err)
  | [], _ => ⟨fun _ => ⟨[], rfl⟩, fun h => by simp [allFit16] at h⟩
  | v :: l, hp => by
    rw [allPlain, Bool.and_eq_true] at hp
    have ih1 := encode_fits v hp.1
    have ih2 := encodeVals_fits l hp.2
    rw [encodeVals, allFit16]
    rcases h1 : fits16 v with - | -
    · rw [ih1.2 h1]; simp
    · obtain ⟨w, hw⟩ := ih1.1 h1
      rw [hw]
      rcases h2 : allFit16 l with - | -
      · rw [ih2.2 h2]; simp
      · obtain ⟨c, hc⟩ := ih2.1 h2
        rw [hc]; simp
end

end Poodle
