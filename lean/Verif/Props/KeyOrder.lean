import Verif.Props.NumOrder
import Verif.Props.Key
import Verif.Spec.KeyOrder

/-
Property C218: the order of encoded keys, and sorted maps indexed by encoded keys (/repo/src/util/key_util.go:370-393, :493-533,
/repo/src/collection/util.go:460-491).
-/

namespace Poodle.Props
open Poodle Poodle.Spec

variable {V : Type}

/-! ### C218 Encoded keys sort like the keys -/

/-- Code words, none a proper prefix of the other, decide the comparison before what follows them. -/
theorem compare_code : ∀ p q x y : Bytes, (p <+: q → p = q) → (q <+: p → q = p) →
    compare (p ++ x) (q ++ y) = (compare p q).then (compare x y)
  | [], q, x, y, h1, _ => by
    have := h1 (List.nil_prefix)
    subst this; simp
  | a :: p, [], x, y, _, h2 => by
    have := h2 (List.nil_prefix)
    simp at this
  | a :: p, b :: q, x, y, h1, h2 => by
    rw [List.cons_append, List.cons_append, List.compare_cons_cons, List.compare_cons_cons]
    by_cases hab : a = b
    · subst hab
      rw [compare_code p q x y (fun h => by simpa using h1 (by simpa using h)) (fun h => by simpa using h2 (by simpa using h))]
      simp
    · have : compare a b ≠ .eq := fun h => hab (Std.LawfulEqCmp.eq_of_compare h)
      cases hc : compare a b <;> simp_all

theorem putUvarint_small {n : Nat} (h : n < 128) : putUvarint n = [UInt8.ofNat n] := by
  rw [putUvarint, putUvarintAux, if_neg (by omega)]

theorem putUvarint_two {n : Nat} (h : 128 ≤ n) (h2 : n < 16384) :
    putUvarint n = [UInt8.ofNat (128 + n % 128), UInt8.ofNat (n / 128)] := by
  have h3 : n >>> 7 = n / 128 := Nat.shiftRight_eq_div_pow n 7
  rw [putUvarint, putUvarintAux, if_pos (by omega), putUvarintAux, if_neg (by rw [h3]; omega), h3]
  congr 1
  apply UInt8.toNat_inj.mp
  rw [UInt8.toNat_or, UInt8.toNat_ofNat', UInt8.toNat_ofNat', show (0x80 : UInt8).toNat = 2 ^ 7 from rfl]
  have h4 : n % 2 ^ 8 ||| 2 ^ 7 = 128 + n % 128 := by
    have h5 : n % 2 ^ 8 < 256 := Nat.mod_lt _ (by decide)
    have h6 : n % 128 = (n % 2 ^ 8) % 128 := by omega
    rw [h6]
    generalize n % 2 ^ 8 = m at h5
    revert m
    decide +kernel
  rw [h4]; omega

theorem compare_uint8 (x y : UInt8) : compare x y = compare x.toNat y.toNat := by
  simp only [compare, compareOfLessAndEq, UInt8.lt_iff_toNat_lt, ← UInt8.toNat_inj]

theorem uv_order {m n : Nat} (hm : m < 16384) (hn : n < 16384) : compare (putUvarint m) (putUvarint n) = uvOrder m n := by
  have t : ∀ k, k < 256 → (UInt8.ofNat k).toNat = k := fun k hk => by rw [UInt8.toNat_ofNat']; omega
  unfold uvOrder
  by_cases h1 : m < 128 <;> by_cases h2 : n < 128 <;> simp only [h1, h2, if_true, if_false]
  · rw [putUvarint_small h1, putUvarint_small h2, List.compare_cons_cons, compare_uint8, t _ (by omega), t _ (by omega)]
    simp
  · rw [putUvarint_small h1, putUvarint_two (by omega) hn, List.compare_cons_cons, compare_uint8, t _ (by omega), t _ (by omega),
      Nat.compare_eq_lt.mpr (by omega)]
    rfl
  · rw [putUvarint_small h2, putUvarint_two (by omega) hm, List.compare_cons_cons, compare_uint8, t _ (by omega), t _ (by omega),
      Nat.compare_eq_gt.mpr (by omega)]
    rfl
  · rw [putUvarint_two (by omega) hm, putUvarint_two (by omega) hn, List.compare_cons_cons, List.compare_cons_cons, compare_uint8,
      compare_uint8, t _ (by omega), t _ (by omega), t _ (by omega), t _ (by omega)]
    congr 1
    · rcases Nat.lt_trichotomy (m % 128) (n % 128) with h | h | h
      · rw [Nat.compare_eq_lt.mpr h, Nat.compare_eq_lt]; omega
      · rw [h]; simp
      · rw [Nat.compare_eq_gt.mpr h, Nat.compare_eq_gt]; omega
    · simp

theorem putUvarint_prefix {m n : Nat} (hm : m < 16384) (hn : n < 16384) (h : putUvarint m <+: putUvarint n) : m = n := by
  have t : ∀ k, k < 256 → (UInt8.ofNat k).toNat = k := fun k hk => by rw [UInt8.toNat_ofNat']; omega
  by_cases h1 : m < 128 <;> by_cases h2 : n < 128
  · rw [putUvarint_small h1, putUvarint_small h2] at h
    have := congrArg UInt8.toNat (List.cons_prefix_cons.mp h).1
    rw [t _ (by omega), t _ (by omega)] at this
    exact this
  · rw [putUvarint_small h1, putUvarint_two (by omega) hn] at h
    have := congrArg UInt8.toNat (List.cons_prefix_cons.mp h).1
    rw [t _ (by omega), t _ (by omega)] at this
    omega
  · rw [putUvarint_small h2, putUvarint_two (by omega) hm] at h
    have := h.length_le
    simp at this
  · rw [putUvarint_two (by omega) hm, putUvarint_two (by omega) hn] at h
    obtain ⟨ha, hb⟩ := List.cons_prefix_cons.mp h
    have e1 := congrArg UInt8.toNat ha
    have e2 := congrArg UInt8.toNat (List.cons_prefix_cons.mp hb).1
    rw [t _ (by omega), t _ (by omega)] at e1 e2
    omega

theorem flat_order : ∀ a b : List Slice, a.length = b.length → (∀ s ∈ a, s.bytes.length < 16384) → (∀ s ∈ b, s.bytes.length < 16384) →
    compare (flatKeys a) (flatKeys b) = subKeyOrder (a.map Slice.bytes) (b.map Slice.bytes)
  | [], [], _, _, _ => rfl
  | x :: a, y :: b, hl, ha, hb => by
    have ih := flat_order a b (by simpa using hl) (fun s hs => ha s (by simp [hs])) (fun s hs => hb s (by simp [hs]))
    have hx := ha x (by simp)
    have hy := hb y (by simp)
    simp only [flatKeys, List.map_cons, List.flatten_cons, encodeVarchar, List.append_assoc, subKeyOrder]
    rw [compare_code _ _ _ _ (fun h => by rw [putUvarint_prefix hx hy h]) (fun h => by rw [putUvarint_prefix hy hx h]), uv_order hx hy]
    cases hc : uvOrder x.bytes.length y.bytes.length with
    | lt => rfl
    | gt => rfl
    | eq =>
      have hlen : x.bytes.length = y.bytes.length := by
        rw [← uv_order hx hy, Std.LawfulEqCmp.compare_eq_iff_eq] at hc
        exact putUvarint_prefix hx hy (by rw [hc])
      rw [Ordering.eq_then, Ordering.eq_then, compare_code _ _ _ _ (fun h => h.eq_of_length hlen) (fun h => h.eq_of_length hlen.symm)]
      exact congrArg _ ih

theorem keyBytes_order (a b : List Slice) (ha : (keyBytes a).length ≤ 4096) (hb : (keyBytes b).length ≤ 4096) :
    compare (keyBytes a) (keyBytes b) = wireOrder (a.map Slice.bytes) (b.map Slice.bytes) := by
  have key : ∀ c : List Slice, (keyBytes c).length ≤ 4096 → c.length < 16384 ∧ ∀ s ∈ c, s.bytes.length < 16384 := by
    intro c hc
    simp only [keyBytes, List.length_append, flatKeys, List.length_flatten, List.map_map] at hc
    constructor
    · have : c.length ≤ (c.map (List.length ∘ fun s : Slice => encodeVarchar s.bytes)).sum := by
        clear hc
        induction c with
        | nil => simp
        | cons s c ih =>
          have : 1 ≤ (encodeVarchar s.bytes).length := by
            simp only [encodeVarchar, List.length_append, putUvarint]
            rw [putUvarintAux]; split <;> simp <;> omega
          simp only [List.map_cons, List.sum_cons, List.length_cons, Function.comp_apply] at ih ⊢
          omega
      omega
    · intro s hs
      have : s.bytes.length ≤ (c.map (List.length ∘ fun s : Slice => encodeVarchar s.bytes)).sum := by
        refine Nat.le_trans ?_ (List.le_sum_of_mem (List.mem_map.mpr ⟨s, hs, rfl⟩))
        simp [encodeVarchar]
      omega
  obtain ⟨ha1, ha2⟩ := key a ha
  obtain ⟨hb1, hb2⟩ := key b hb
  rw [wireOrder, List.length_map, List.length_map, keyBytes, keyBytes, encodeUvarint64, encodeUvarint64,
    compare_code _ _ _ _ (fun h => by rw [putUvarint_prefix ha1 hb1 h]) (fun h => by rw [putUvarint_prefix hb1 ha1 h]), uv_order ha1 hb1]
  cases hc : uvOrder a.length b.length with
  | lt => rfl
  | gt => rfl
  | eq =>
    have hlen : a.length = b.length := by
      rw [← uv_order ha1 hb1, Std.LawfulEqCmp.compare_eq_iff_eq] at hc
      exact putUvarint_prefix ha1 hb1 (by rw [hc])
    rw [Ordering.eq_then, Ordering.eq_then, flat_order a b hlen ha2 hb2]

/-- The encoding a caller gets for a key: `Encode` succeeds and `Buf` returns `w`. -/
def EncodesAs (k : Key) (w : Bytes) : Prop := ∃ k', k.encode = (k', true) ∧ k'.getBuf = .ok w

theorem EncodesAs_iff (k : Key) (w : Bytes) : EncodesAs k w ↔ w = keyBytes k.keys ∧ (keyBytes k.keys).length ≤ 4096 := by
  unfold EncodesAs
  rw [key_encode_eq]
  by_cases h : (keyBytes k.keys).length ≤ maxKeyLength
  · rw [if_pos h]
    constructor
    · rintro ⟨k', hk, hw⟩
      simp only [Prod.mk.injEq, and_true] at hk
      subst hk
      simp [Key.getBuf, Slice.bytes] at hw
      exact ⟨hw.symm, h⟩
    · rintro ⟨rfl, -⟩
      exact ⟨_, rfl, by simp [Key.getBuf, Slice.bytes]⟩
  · rw [if_neg h]
    simp only [Prod.mk.injEq, Bool.false_eq_true, and_false, false_and, exists_false, false_iff]
    exact fun h' => h h'.2

theorem encoding_prefix {a b : Key} {wa wb : Bytes} (ha : EncodesAs a wa) (hb : EncodesAs b wb) (h : wa <+: wb) :
    a.keys.map Slice.bytes = b.keys.map Slice.bytes ∧ wa = wb := by
  obtain ⟨a', ha1, ha2⟩ := ha
  obtain ⟨b', hb1, hb2⟩ := hb
  obtain ⟨r, hr⟩ := h
  exact C09_key_encoding_prefix_free a a' b b' ha1 hb1 wa wb r [] ha2 hb2 (by simpa using hr)

/-- The claim C218 (false of the code): the encodings of two keys compare like the keys. -/
def EncodedKeysSort : Prop := ∀ (a b : Key) (wa wb : Bytes), EncodesAs a wa → EncodesAs b wb →
  compareByteSlice (some wa) (some wb) = (KeyObj.key a).compare (.key b)

/-- The key with the sub keys `l`. -/
def keyWith (l : List Bytes) : Key := ⟨false, l.map some, none, 0⟩

/-- C218 is false: key `b` is greater than key `ac`, but its encoding is smaller. -/
theorem C218_refuted : ¬ EncodedKeysSort := by
  intro h
  have := h (keyWith [[98]]) (keyWith [[97, 99]]) [1, 1, 98] [1, 2, 97, 99] ((EncodesAs_iff _ _).mpr (by decide +kernel))
    ((EncodesAs_iff _ _).mpr (by decide +kernel))
  revert this
  decide +kernel

/-- C218, exact: comparing two encodings never panics; the order is by number of sub keys, then at the first different sub key by
length, then by content. -/
theorem C218_order_partial (a b : Key) (wa wb : Bytes) (ha : EncodesAs a wa) (hb : EncodesAs b wb) :
    compareByteSlice (some wa) (some wb) = .ok (ordInt (wireOrder (a.keys.map Slice.bytes) (b.keys.map Slice.bytes))) := by
  rw [C17_compare_lexicographic_partial]
  · obtain ⟨rfl, h1⟩ := (EncodesAs_iff _ _).mp ha
    obtain ⟨rfl, h2⟩ := (EncodesAs_iff _ _).mp hb
    rw [← keyBytes_order _ _ h1 h2]
    rfl
  · rintro ⟨x, y, hx, hy, hp, hn⟩
    cases hx; cases hy
    exact hn (encoding_prefix hb ha hp).2

example := C218_order_partial (keyWith [[98], [1]]) (keyWith [[97, 99], []]) [2, 1, 98, 1, 1] [2, 2, 97, 99, 0]
  ((EncodesAs_iff _ _).mpr (by decide +kernel)) ((EncodesAs_iff _ _).mpr (by decide +kernel))

theorem subKeyOrder_same : ∀ a b : List Slice, (∀ s ∈ a, s ≠ none) → (∀ s ∈ b, s ≠ none) →
    a.map (fun s => s.bytes.length) = b.map (fun s => s.bytes.length) →
    subKeyOrder (a.map Slice.bytes) (b.map Slice.bytes) = compare a b
  | [], [], _, _, _ => rfl
  | [], _ :: _, _, _, h => by simp at h
  | _ :: _, [], _, _, h => by simp at h
  | x :: a, y :: b, ha, hb, h => by
    simp only [List.map_cons, List.cons.injEq] at h
    obtain ⟨p, rfl⟩ := Option.ne_none_iff_exists'.mp (ha x (by simp))
    obtain ⟨q, rfl⟩ := Option.ne_none_iff_exists'.mp (hb y (by simp))
    have ih := subKeyOrder_same a b (fun s hs => ha s (by simp [hs])) (fun s hs => hb s (by simp [hs])) h.2
    have hu : ∀ n, uvOrder n n = .eq := by intro n; unfold uvOrder; split <;> simp
    simp only [List.map_cons, subKeyOrder]
    rw [h.1, hu, Ordering.eq_then, ih, List.compare_cons_cons]
    rfl

theorem keyCmpRec_same : ∀ a b : List Slice, (∀ s ∈ a, s ≠ none) → (∀ s ∈ b, s ≠ none) →
    a.map (fun s => s.bytes.length) = b.map (fun s => s.bytes.length) → keyCmpRec a b ≠ .panic
  | [], [], _, _, _ => by simp [keyCmpRec]
  | [], _ :: _, _, _, h => by simp at h
  | _ :: _, [], _, _, h => by simp at h
  | x :: a, y :: b, ha, hb, h => by
    simp only [List.map_cons, List.cons.injEq] at h
    obtain ⟨p, rfl⟩ := Option.ne_none_iff_exists'.mp (ha x (by simp))
    obtain ⟨q, rfl⟩ := Option.ne_none_iff_exists'.mp (hb y (by simp))
    have ih := keyCmpRec_same a b (fun s hs => ha s (by simp [hs])) (fun s hs => hb s (by simp [hs])) h.2
    rw [keyCmpRec, compareByteSlice_same_length p q h.1]
    dsimp only
    split
    · simp
    · exact ih

/-- C218 for keys of one shape: if two keys have the same number of sub keys, of pairwise equal lengths and none of them nil, their
encodings compare like the keys. -/
theorem C218_same_shape_partial (a b : Key) (wa wb : Bytes) (ha : EncodesAs a wa) (hb : EncodesAs b wb)
    (hna : ∀ s ∈ a.keys, s ≠ none) (hnb : ∀ s ∈ b.keys, s ≠ none)
    (hl : a.keys.map (fun s => s.bytes.length) = b.keys.map (fun s => s.bytes.length)) :
    compareByteSlice (some wa) (some wb) = (KeyObj.key a).compare (.key b) := by
  rw [C218_order_partial a b wa wb ha hb, C13_key_compare_lexicographic_partial]
  · have hlen : a.keys.length = b.keys.length := by simpa using congrArg List.length hl
    have hu : ∀ n, uvOrder n n = .eq := by intro n; unfold uvOrder; split <;> simp
    rw [wireOrder, List.length_map, List.length_map, hlen, hu, Ordering.eq_then, subKeyOrder_same _ _ hna hnb hl]
    rfl
  · rw [KeyObj.compare_eq]
    exact keyCmpRec_same _ _ hna hnb hl

example : compareByteSlice (some [2, 1, 98, 2, 1, 2]) (some [2, 1, 98, 2, 1, 3]) = .ok (-1) :=
  C218_same_shape_partial (keyWith [[98], [1, 2]]) (keyWith [[98], [1, 3]]) _ _ ((EncodesAs_iff _ _).mpr (by decide +kernel))
    ((EncodesAs_iff _ _).mpr (by decide +kernel)) (by decide +kernel) (by decide +kernel) (by decide +kernel)

/-! Sorted maps indexed by encodings. -/

section
variable {α : Type} [Ord α] [Std.LawfulEqOrd α]

/-- A call on a map with keys from `α`, as a call with their encodings. -/
def onCode (enc : α → Bytes) : MapOp α V → MapOp Bytes V
  | .put t v => .put (enc t) v
  | .remove t => .remove (enc t)

theorem run_code (enc : α → Bytes) (P : α → Prop) (hpf : ∀ a b, P a → P b → enc a <+: enc b → a = b)
    (os : List (MapOp α V)) (hos : ∀ o ∈ os, P (opKey o)) (f : FMap α V) (g : FMap Bytes V)
    (h : ∀ t, P t → g (enc t) = f t) :
    (FMap.run compare g (os.map (onCode enc))).2 = (FMap.run compare f os).2 ∧
      ∀ t, P t → (FMap.run compare g (os.map (onCode enc))).1 (enc t) = (FMap.run compare f os).1 t := by
  induction os generalizing f g with
  | nil => exact ⟨rfl, h⟩
  | cons o os ih =>
    have ho := hos o (by simp)
    have hos' := fun o' ho' => hos o' (List.mem_cons_of_mem _ ho')
    have hk : ∀ t k, P t → P k → (compare (enc t) (enc k) = .eq ↔ compare t k = .eq) := by
      intro t k ht hk
      rw [Std.LawfulEqCmp.compare_eq_iff_eq, Std.LawfulEqCmp.compare_eq_iff_eq]
      exact ⟨fun h => hpf t k ht hk (by rw [h]), fun h => by rw [h]⟩
    cases o with
    | put k v =>
      obtain ⟨h1, h2⟩ := ih hos' (f.put compare k v) (g.put compare (enc k) v) (fun t ht => by
        simp only [FMap.put, hk t k ht ho, h t ht])
      simp only [List.map_cons, onCode, FMap.run]
      exact ⟨by rw [h1, h k ho], h2⟩
    | remove k =>
      obtain ⟨h1, h2⟩ := ih hos' (f.remove compare k) (g.remove compare (enc k)) (fun t ht => by
        simp only [FMap.remove, hk t k ht ho, h t ht])
      simp only [List.map_cons, onCode, FMap.run]
      exact ⟨by rw [h1, h k ho], h2⟩

/-- A sorted map indexed by a prefix free code is a map indexed by what is encoded; its iterator follows the order of the code words. -/
theorem map_of_code (enc : α → Bytes) (P : α → Prop) (hpf : ∀ a b, P a → P b → enc a <+: enc b → a = b)
    (os : List (MapOp α V)) (hos : ∀ o ∈ os, P (opKey o)) :
    let m := (runMap bytesOps SortedMap.new (os.map (onCode enc))).1
    let f := (FMap.run compare FMap.empty os).1
    (runMap bytesOps SortedMap.new (os.map (onCode enc))).2 = (FMap.run compare FMap.empty os).2.map some ∧
      (∀ t, P t → m.get bytesOps (enc t) = some (f t)) ∧
      ∃ (it : AvlIter Bytes V) (l : List (α × V)), m.iterator bytesOps = some it ∧
        l.Pairwise (fun a b => compare (enc a.1) (enc b.1) = .lt) ∧ (∀ t v, (t, v) ∈ l ↔ P t ∧ f t = some v) ∧
        ∀ cs, runIter bytesOps it cs = runCalls (listCall .crash) (l.map fun e => (enc e.1, e.2)) cs := by
  intro m f
  have htr := bytesOps_lawful.1.trans
  let Q : Bytes → Prop := fun b => ∃ t, P t ∧ b = enc t
  have hQ : ∀ a b, Q a → Q b → bytesOps.compare a b ≠ none := by
    rintro _ _ ⟨t, ht, rfl⟩ ⟨u, hu, rfl⟩
    rw [bytesOps_compare, if_neg (fun h => h.2 (by rw [hpf _ _ hu ht h.1]))]
    simp
  have hos' : ∀ o ∈ os.map (onCode enc), Q (opKey o) := by
    intro o ho
    obtain ⟨o, hm, rfl⟩ := List.mem_map.mp ho
    have := hos o hm
    cases o <;> exact ⟨_, this, rfl⟩
  obtain ⟨h1, h2, h3, h4⟩ := runs_keys (cmp := compare) bytesOps_lawful.1 Q _ hos' hQ (SortedMap.new : SortedMap Bytes V) new_good
    (by simp [SortedMap.new, entries])
  rw [contents_new] at h1 h2
  obtain ⟨r1, r2⟩ := run_code enc P hpf os hos FMap.empty FMap.empty (fun _ _ => rfl)
  rw [r1] at h1
  have hf : ∀ t, P t → contents compare m (enc t) = f t := fun t ht => by
    rw [show contents compare m = _ from h2]; exact r2 t ht
  refine ⟨h1, fun t ht => ?_, ?_⟩
  · rcases get_step bytesOps_lawful.1 _ h3 (enc t) with ⟨⟨e, he, h⟩, -⟩ | h
    · exact absurd h (hQ _ _ (h4 e he) ⟨t, ht, rfl⟩)
    · rw [h]; exact congrArg some (hf t ht)
  · have hl : ∃ l : List (α × V), entries m.root = (l.map fun e => (enc e.1, e.2)) ∧ ∀ e ∈ l, P e.1 := by
      have h4' : ∀ e ∈ entries m.root, Q e.1 := h4
      generalize entries m.root = es at h4'
      induction es with
      | nil => exact ⟨[], rfl, by simp⟩
      | cons e es ih =>
        obtain ⟨l, hl, hr⟩ := ih (fun e' he' => h4' e' (List.mem_cons_of_mem _ he'))
        obtain ⟨t, ht, het⟩ := h4' e (by simp)
        refine ⟨(t, e.2) :: l, by rw [List.map_cons, ← hl, ← het], ?_⟩
        intro e' he'
        rcases List.mem_cons.mp he' with rfl | he'
        · exact ht
        · exact hr e' he'
    obtain ⟨l, hl, hr⟩ := hl
    obtain ⟨hi, hv⟩ := lists_entries m h3
    obtain ⟨it, hit⟩ := (rangeIterator_ok (ops := bytesOps) m none none).mpr (by simp)
    obtain ⟨hw, ho⟩ := new_spec (ops := bytesOps) (cmp := compare) _ none none h3.increasing it hit
    have hn : it.start = none ∧ it.stop = none := by
      simp only [SortedMap.rangeIterator, AvlIter.new, Option.some.injEq] at hit
      subst hit
      exact ⟨rfl, rfl⟩
    refine ⟨it, l, hit, ?_, fun t v => ?_, fun cs => ?_⟩
    · rw [hl] at hi
      rw [Increasing, List.pairwise_map] at hi
      exact hi
    · constructor
      · intro h
        refine ⟨hr _ h, ?_⟩
        rw [← hf t (hr _ h)]
        refine (hv _ _).mpr ⟨enc t, ?_, Std.ReflCmp.compare_self⟩
        rw [hl]
        exact List.mem_map.mpr ⟨_, h, rfl⟩
      · rintro ⟨ht, h⟩
        rw [← hf t ht] at h
        obtain ⟨k', hk', hc⟩ := (hv _ _).mp h
        rw [hl] at hk'
        obtain ⟨e, he, hek⟩ := List.mem_map.mp hk'
        rw [Std.LawfulEqCmp.compare_eq_iff_eq] at hc
        cases hek
        have := hpf t e.1 ht (hr e he) (by rw [hc])
        rw [this]
        exact he
    · rw [runIter_unbounded bytesOps totalBytesOps cs it hn.1 hn.2]
      have := runCalls_sortedCall totalBytesOps_lawful.1 totalBytesOps_lawful.2 cs it hw
      rw [ho] at this
      rw [← hl]
      exact this

end

/-- The encoding of the key with the sub keys `l` (empty if `Encode` fails). -/
def wire (l : List Bytes) : Bytes := match (keyWith l).encode with
  | (k, true) => k.buf.bytes
  | (_, false) => []

/-- `Encode` succeeds on the key with the sub keys `l`. -/
def Encodable (l : List Bytes) : Prop := (keyWith l).encode.2 = true

theorem wire_encodes {l : List Bytes} (h : Encodable l) : EncodesAs (keyWith l) (wire l) := by
  unfold Encodable at h
  unfold wire
  refine ⟨(keyWith l).encode.1, by rw [← h], ?_⟩
  rw [key_encode_eq] at h ⊢
  split at h
  · rename_i hc
    rw [if_pos hc]
    simp [Key.getBuf]
  · simp at h

theorem keyWith_bytes (l : List Bytes) : (keyWith l).keys.map Slice.bytes = l := by
  simp [keyWith, Slice.bytes, Function.comp_def]

/-- C218, maps: a sorted map indexed by encoded keys is a map indexed by the lists of sub keys: no call panics, and the iterator yields
the entries by number of sub keys, then by length and content of the sub keys. -/
theorem C218_map (os : List (MapOp (List Bytes) V)) (hos : ∀ o ∈ os, Encodable (opKey o)) :
    let m := (runMap bytesOps SortedMap.new (os.map (onCode wire))).1
    let f := (FMap.run compare FMap.empty os).1
    (runMap bytesOps SortedMap.new (os.map (onCode wire))).2 = (FMap.run compare FMap.empty os).2.map some ∧
      (∀ t, Encodable t → m.get bytesOps (wire t) = some (f t)) ∧
      ∃ (it : AvlIter Bytes V) (l : List (List Bytes × V)), m.iterator bytesOps = some it ∧
        l.Pairwise (fun a b => wireOrder a.1 b.1 = .lt) ∧ (∀ t v, (t, v) ∈ l ↔ Encodable t ∧ f t = some v) ∧
        ∀ cs, runIter bytesOps it cs = runCalls (listCall .crash) (l.map fun e => (wire e.1, e.2)) cs := by
  obtain ⟨h1, h2, it, l, h3, h4, h5, h6⟩ := map_of_code (V := V) wire Encodable (fun a b ha hb h => by
    have := (encoding_prefix (wire_encodes ha) (wire_encodes hb) h).1
    rwa [keyWith_bytes, keyWith_bytes] at this) os hos
  refine ⟨h1, h2, it, l, h3, ?_, h5, h6⟩
  refine List.Pairwise.imp_of_mem (fun {a b} ha hb h => ?_) h4
  obtain ⟨ea, la⟩ := (EncodesAs_iff _ _).mp (wire_encodes ((h5 a.1 a.2).mp ha).1)
  obtain ⟨eb, lb⟩ := (EncodesAs_iff _ _).mp (wire_encodes ((h5 b.1 b.2).mp hb).1)
  rw [ea, eb, keyBytes_order _ _ la lb, keyWith_bytes, keyWith_bytes] at h
  exact h

example := C218_map [.put [[98]] "x", .put [[97, 99]] "y", .put [[97], []] "z", .remove []] (by simp [opKey, Encodable]; decide +kernel)

/-- The iterator yields key `b` before key `ac`. -/
example : let m := (runMap bytesOps SortedMap.new ([.put [[97, 99]] (), .put [[98]] ()].map (onCode wire))).1
    (m.iterator bytesOps).map (fun it => runIter bytesOps it [.next, .next]) =
      some [.yield (wire [[98]], ()), .yield (wire [[97, 99]], ())] := by decide +kernel

end Poodle.Props
