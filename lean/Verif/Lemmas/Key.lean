import Verif.Model.Key
import Verif.Spec.Key
import Verif.Lemmas.Codec
import Verif.Lemmas.Slice

namespace Poodle
open Spec

theorem putUvarint_length {x : Nat} (h : x < 2 ^ 64) : (putUvarint x).length = uvLen x := by
  obtain ⟨h1, h2, h3⟩ := putUvarint_spec h
  have hlt := h1.lt_pow
  have hpos := h1.length_pos
  unfold uvLen
  generalize (putUvarint x).length = L at *
  rcases Nat.lt_or_ge 1 L with hL | hL
  · have := (Nat.log_eq_iff (b := 128) (m := L - 1) (n := x) (Or.inl (by omega))).mpr
      ⟨h3 hL, by rwa [show L - 1 + 1 = L by omega]⟩
    omega
  · have : L = 1 := by omega
    subst this
    have := Nat.log_of_lt (b := 128) (n := x) (by simpa using hlt)
    omega

theorem uvLen_pos (n : Nat) : 0 < uvLen n := by unfold uvLen; omega

theorem uvLen_mono {a b : Nat} (h : a ≤ b) : uvLen a ≤ uvLen b := by
  unfold uvLen
  have := Nat.log_mono_right (b := 128) h
  omega

theorem uvLen_small {a : Nat} (h : a < 128) : uvLen a = 1 := by
  unfold uvLen; rw [Nat.log_of_lt h]

theorem encodeVarchar_length {d : Bytes} (h : d.length < 2 ^ 64) :
    (encodeVarchar d).length = uvLen d.length + d.length := by
  simp [encodeVarchar, putUvarint_length h]

/-- Concatenated varchars of the sub keys. -/
def flatKeys (ks : List Slice) : Bytes := (ks.map fun s => encodeVarchar s.bytes).flatten

/-- Full wire form. -/
def keyBytes (ks : List Slice) : Bytes := encodeUvarint64 ks.length ++ flatKeys ks

theorem encodeSubKeys_eq : ∀ (ks : List Slice) (buf : Bytes), buf.length ≤ maxKeyLength →
    encodeSubKeys ks buf = if (buf ++ flatKeys ks).length ≤ maxKeyLength then some (buf ++ flatKeys ks) else none
  | [], buf, h => by simp [encodeSubKeys, flatKeys, h]
  | s :: ss, buf, h => by
    rw [encodeSubKeys]
    have e : buf ++ flatKeys (s :: ss) = (buf ++ encodeVarchar s.bytes) ++ flatKeys ss := by simp [flatKeys]
    split
    · rename_i h2
      rw [if_neg]
      rw [e, List.length_append]; omega
    · rename_i h2
      rw [encodeSubKeys_eq ss _ (by omega), e]

theorem key_encode_eq (k : Key) : k.encode =
    if (keyBytes k.keys).length ≤ maxKeyLength then
      ({ k with buf := some (keyBytes k.keys), estBufSize := (keyBytes k.keys).length, encoded := true }, true)
    else (k, false) := by
  unfold Key.encode
  have hl : (encodeUvarint64 k.keys.length).length ≤ (keyBytes k.keys).length := by
    simp only [keyBytes, List.length_append]; omega
  dsimp only
  split
  · rename_i h
    rw [if_neg (by omega)]
  · rename_i h
    rw [encodeSubKeys_eq _ _ (by omega)]
    by_cases h2 : (keyBytes k.keys).length ≤ maxKeyLength
    · rw [if_pos h2]
      rw [if_pos (by exact h2)]; rfl
    · rw [if_neg h2]
      rw [if_neg (by exact h2)]

theorem flatKeys_isVarchars : ∀ (ks : List Slice), (∀ s ∈ ks, s.bytes.length < 2 ^ 64) →
    IsVarchars (ks.map Slice.bytes) (flatKeys ks)
  | [], _ => .nil
  | s :: ss, h => by
    have hs := h s (by simp)
    have := IsVarchars.cons (putUvarint s.bytes.length) s.bytes (flatKeys ss) (ss.map Slice.bytes)
      (putUvarint_spec hs).1 (putUvarint_length hs) (flatKeys_isVarchars ss fun t ht => h t (by simp [ht]))
    simpa [flatKeys, encodeVarchar] using this

theorem flatKeys_length : ∀ (ks : List Slice), (∀ s ∈ ks, s.bytes.length < 2 ^ 64) →
    (flatKeys ks).length = ((ks.map Slice.bytes).map fun k => uvLen k.length + k.length).sum
  | [], _ => rfl
  | s :: ss, h => by
    have hs := h s (by simp)
    have ih := flatKeys_length ss fun t ht => h t (by simp [ht])
    simp only [flatKeys, List.map_cons, List.flatten_cons, List.length_append, List.sum_cons] at *
    rw [encodeVarchar_length hs, ih]

theorem keyBytes_length (ks : List Slice) (hn : ks.length < 2 ^ 64) (h : ∀ s ∈ ks, s.bytes.length < 2 ^ 64) :
    (keyBytes ks).length = keySize (ks.map Slice.bytes) := by
  simp only [keyBytes, encodeUvarint64, List.length_append, keySize, List.length_map]
  rw [putUvarint_length hn, flatKeys_length ks h]

theorem mem_length_le_flat {ks : List Slice} {s : Slice} (h : s ∈ ks) : s.bytes.length ≤ (flatKeys ks).length := by
  induction ks with
  | nil => simp at h
  | cons t ts ih =>
    simp only [flatKeys, List.map_cons, List.flatten_cons, List.length_append, encodeVarchar] at *
    rcases List.mem_cons.mp h with rfl | h
    · omega
    · have := ih h; omega

theorem length_le_flat (ks : List Slice) (h : ∀ s ∈ ks, s.bytes.length < 2 ^ 64) : ks.length ≤ (flatKeys ks).length := by
  induction ks with
  | nil => simp
  | cons t ts ih =>
    have := ih fun s hs => h s (by simp [hs])
    have h1 := putUvarint_length_pos (h t (by simp))
    simp only [flatKeys, List.map_cons, List.flatten_cons, List.length_append, encodeVarchar, List.length_cons] at *
    omega

theorem flat_bound {ks : List Slice} {B : Nat} (h : (flatKeys ks).length ≤ B) (s : Slice) (hs : s ∈ ks) :
    s.bytes.length ≤ B := Nat.le_trans (mem_length_le_flat hs) h

theorem decodeVarchar_roundtrip (d rest : Bytes) (hgo : (encodeVarchar d ++ rest).length < 2 ^ 63) :
    decodeVarchar (encodeVarchar d ++ rest) = .ok (d, (encodeVarchar d).length) := by
  have hd : d.length < 2 ^ 63 := by
    simp only [encodeVarchar, List.length_append] at hgo; omega
  obtain ⟨h1, h2, -⟩ := putUvarint_spec (x := d.length) (by omega)
  simp only [encodeVarchar, List.append_assoc] at hgo ⊢
  rw [decodeVarchar_prefix h1 h2 (by omega) hgo]
  simp only [List.length_append] at hgo ⊢
  rw [if_neg (by omega), if_neg (by omega)]
  simp

theorem decodeSubKeys_flat : ∀ (ks : List Slice) (rest : Bytes), (flatKeys ks ++ rest).length < 2 ^ 63 →
    decodeSubKeys ks.length (flatKeys ks ++ rest) = .ok (ks.map fun s => some s.bytes, (flatKeys ks).length)
  | [], rest, _ => by simp [decodeSubKeys, flatKeys]
  | s :: ss, rest, h => by
    have e : flatKeys (s :: ss) ++ rest = encodeVarchar s.bytes ++ (flatKeys ss ++ rest) := by simp [flatKeys]
    rw [e] at h ⊢
    have h' : (flatKeys ss ++ rest).length < 2 ^ 63 := by
      rw [List.length_append] at h; omega
    rw [List.length_cons, decodeSubKeys, decodeVarchar_roundtrip _ _ h, Res.bind_ok]
    simp only [List.drop_left]
    rw [decodeSubKeys_flat ss rest h', Res.bind_ok]
    simp [flatKeys]

/-- Round trip at the level of sub key lists. -/
theorem newMappedKey_keyBytes (ks : List Slice) (rest : Bytes) (h : (keyBytes ks ++ rest).length ≤ maxMake24) :
    newMappedKey (keyBytes ks ++ rest) =
      .ok ({ keys := ks.map fun s => some s.bytes, buf := keyBytes ks ++ rest }, (keyBytes ks).length) := by
  have hm : maxMake24 < 2 ^ 63 := by decide
  have hflat : (flatKeys ks).length ≤ maxMake24 := by
    simp only [keyBytes, List.length_append] at h; omega
  have hks := length_le_flat ks fun s hs => Nat.lt_of_le_of_lt (flat_bound hflat s hs) (by omega)
  obtain ⟨h1, h2, -⟩ := putUvarint_spec (x := ks.length) (by omega)
  unfold newMappedKey
  have e : keyBytes ks ++ rest = putUvarint ks.length ++ (flatKeys ks ++ rest) := by
    simp [keyBytes, encodeUvarint64]
  rw [e] at h ⊢
  rw [decodeUvarint64_prefix h1 h2 (by omega) (by omega), if_neg (by simp only [List.length_append]; omega), Res.bind_ok]
  simp only
  rw [if_neg (by omega), List.drop_left, decodeSubKeys_flat ks rest (by
    rw [List.length_append] at h; omega), Res.bind_ok]
  simp [keyBytes, encodeUvarint64]

/-! ### Equality and comparison -/

theorem subKeyAt_eq (o : KeyObj) (i : Nat) : o.subKeyAt i = o.subKeys[i]? := by
  cases o <;> simp [KeyObj.subKeyAt, KeyObj.subKeys]

theorem keyEqualLoop_eq (o : KeyObj) : ∀ (rest : List Slice) (i : Nat), i + rest.length = o.subKeys.length →
    keyEqualLoop o rest i = some (decide (rest = o.subKeys.drop i))
  | [], i, h => by
    have : o.subKeys.drop i = [] := by simp at h ⊢; omega
    simp [keyEqualLoop, this]
  | s :: rest, i, h => by
    simp at h
    have hi : i < o.subKeys.length := by omega
    rw [keyEqualLoop, subKeyAt_eq, List.getElem?_eq_getElem hi]
    simp only
    rw [List.drop_eq_getElem_cons hi]
    by_cases he : equalByteSlice s o.subKeys[i] = true
    · rw [if_pos he, keyEqualLoop_eq o rest (i + 1) (by omega)]
      rw [equalByteSlice_iff] at he
      simp only [List.cons.injEq, he, true_and]
    · rw [if_neg he]
      rw [equalByteSlice_iff] at he
      simp only [List.cons.injEq, he, false_and, decide_false]

theorem KeyObj.equal?_eq (k o : KeyObj) : k.equal? o = some (decide (k.subKeys = o.subKeys)) := by
  have aux : ∀ ks : List Slice, (if ks.length ≠ o.subKeys.length then some false else keyEqualLoop o ks 0)
      = some (decide (ks = o.subKeys)) := by
    intro ks
    split
    · rename_i h
      have : ks ≠ o.subKeys := by rintro rfl; exact h rfl
      simp [this]
    · rename_i h
      rw [keyEqualLoop_eq o ks 0 (by omega)]; simp
  cases k with
  | empty =>
    show some (o.subKeys.length == 0) = some (decide ([] = o.subKeys))
    rcases o.subKeys with - | ⟨x, xs⟩ <;> simp
  | mapped m => exact aux m.keys
  | key k => exact aux k.keys

/-- Recursive characterisation of key comparison on sub key lists. -/
def keyCmpRec : List Slice → List Slice → Res Int
  | [], [] => .ok 0
  | [], _ :: _ => .ok (-1)
  | _ :: _, [] => .panic
  | s :: ss, t :: ts =>
    match compareByteSlice s t with
    | .ok r => if r ≠ 0 then .ok r else keyCmpRec ss ts
    | .err => .err
    | .panic => .panic

theorem keyCompareLoop_eq (len : Nat) (t : KeyObj) : ∀ (rest : List Slice) (i : Nat),
    i + rest.length = len → i ≤ t.subKeys.length → keyCompareLoop len t rest i = keyCmpRec rest (t.subKeys.drop i)
  | [], i, h, hi => by
    simp at h
    simp only [keyCompareLoop]
    rcases hd : t.subKeys.drop i with - | ⟨b, bs⟩
    · have := List.drop_eq_nil_iff.mp hd
      simp [keyCmpRec]; omega
    · have : (t.subKeys.drop i).length = (b :: bs).length := by rw [hd]
      simp at this
      simp [keyCmpRec]; omega
  | s :: rest, i, h, hi => by
    simp at h
    rw [keyCompareLoop, if_neg (by omega), subKeyAt_eq]
    rcases hd : t.subKeys.drop i with - | ⟨b, bs⟩
    · have := List.drop_eq_nil_iff.mp hd
      have : t.subKeys[i]? = none := by simp; omega
      simp [this, keyCmpRec]
    · have h1 : t.subKeys[i]? = some b := by rw [← List.head?_drop, hd]; rfl
      have hb : t.subKeys.drop (i + 1) = bs := by rw [← List.drop_drop, hd]; rfl
      have hlen : (t.subKeys.drop i).length = (b :: bs).length := by rw [hd]
      simp at hlen
      simp only [h1, keyCmpRec]
      rw [keyCompareLoop_eq len t rest (i + 1) (by omega) (by omega), hb]
      all_goals (cases compareByteSlice s b <;> rfl)

theorem KeyObj.compare_eq (k t : KeyObj) : k.compare t = keyCmpRec k.subKeys t.subKeys := by
  cases k with
  | empty =>
    show (if t.subKeys.length = 0 then Res.ok 0 else Res.ok (-1)) = keyCmpRec [] t.subKeys
    rcases t.subKeys with - | ⟨x, xs⟩ <;> simp [keyCmpRec]
  | mapped m =>
    show keyCompareLoop m.keys.length t m.keys 0 = keyCmpRec m.keys t.subKeys
    rw [keyCompareLoop_eq _ _ _ _ (by simp) (by omega)]; simp
  | key k =>
    show keyCompareLoop k.keys.length t k.keys 0 = keyCmpRec k.keys t.subKeys
    rw [keyCompareLoop_eq _ _ _ _ (by simp) (by omega)]; simp

theorem compareByteSlice_ok {s t : Slice} {r : Int} (h : compareByteSlice s t = .ok r) :
    r = ordInt (compare s t) := by
  rcases s with - | a <;> rcases t with - | b
  · simp [compareByteSlice] at h; subst h; rfl
  · simp [compareByteSlice] at h; subst h; rfl
  · simp [compareByteSlice] at h; subst h; rfl
  · rw [compareByteSlice_some] at h; rw [cmpRec_ok a b r h]; rfl

theorem compareByteSlice_not_err (s t : Slice) : compareByteSlice s t ≠ .err := by
  rcases s with - | a <;> rcases t with - | b
  · simp [compareByteSlice]
  · simp [compareByteSlice]
  · simp [compareByteSlice]
  · rw [compareByteSlice_some]; exact cmpRec_not_err a b

theorem compareByteSlice_self (s : Slice) : compareByteSlice s s = .ok 0 := by
  rcases h : compareByteSlice s s with r | - | -
  · rw [compareByteSlice_ok h, Std.ReflOrd.compare_self]; rfl
  · exact absurd h (compareByteSlice_not_err s s)
  · rcases s with - | a
    · simp [compareByteSlice] at h
    · rw [compareByteSlice_some, cmpRec_panic_iff] at h; exact absurd rfl h.2

theorem keyCmpRec_ok : ∀ (a b : List Slice) (r : Int), keyCmpRec a b = .ok r → r = ordInt (compare a b)
  | [], [], r => by simp only [keyCmpRec, Res.ok.injEq]; rintro rfl; rfl
  | [], _ :: _, r => by simp only [keyCmpRec, Res.ok.injEq]; rintro rfl; rfl
  | _ :: _, [], r => by simp [keyCmpRec]
  | x :: a, y :: b, r => by
    have hc : compare (x :: a) (y :: b) = (compare x y).then (compare a b) := by
      simp [compare, List.compareLex_cons_cons]
    simp only [keyCmpRec]
    rcases h : compareByteSlice x y with q | - | -
    · have hq := compareByteSlice_ok h
      simp only
      split
      · rename_i h0
        simp only [Res.ok.injEq]; rintro rfl
        rw [hc]
        cases hxy : compare x y
        · rw [hq, hxy]; rfl
        · rw [hxy] at hq; exact absurd hq h0
        · rw [hq, hxy]; rfl
      · rename_i h0
        intro h2
        have : compare x y = .eq := by
          simp at h0; rw [h0] at hq; cases hxy : compare x y <;> rw [hxy] at hq <;> simp [ordInt] at hq ⊢
        rw [hc, this]
        exact keyCmpRec_ok a b r h2
    · simp
    · simp

theorem keyCmpRec_not_err : ∀ (a b : List Slice), keyCmpRec a b ≠ .err
  | [], [] => by simp [keyCmpRec]
  | [], _ :: _ => by simp [keyCmpRec]
  | _ :: _, [] => by simp [keyCmpRec]
  | x :: a, y :: b => by
    simp only [keyCmpRec]
    rcases h : compareByteSlice x y with q | - | -
    · simp only; split
      · simp
      · exact keyCmpRec_not_err a b
    · exact absurd h (compareByteSlice_not_err x y)
    · simp

/-- Where the code panics when comparing two sub key lists. -/
theorem keyCmpRec_panic_iff : ∀ (a b : List Slice), keyCmpRec a b = .panic ↔
    (∃ x a', a = b ++ x :: a') ∨
    (∃ c u w a' b', a = c ++ some u :: a' ∧ b = c ++ some w :: b' ∧ w <+: u ∧ w ≠ u)
  | [], [] => by simp [keyCmpRec]
  | [], y :: b => by simp [keyCmpRec]
  | x :: a, [] => by simp [keyCmpRec]
  | x :: a, y :: b => by
    simp only [keyCmpRec]
    rcases h : compareByteSlice x y with q | - | -
    · have hq := compareByteSlice_ok h
      simp only
      by_cases h0 : q = 0
      · have hxy : x = y := by
          rw [h0] at hq
          have : compare x y = .eq := by cases hxy : compare x y <;> rw [hxy] at hq <;> simp [ordInt] at hq ⊢
          exact Std.LawfulEqCmp.compare_eq_iff_eq.mp this
        subst hxy
        simp only [h0, ne_eq, not_true, if_false, keyCmpRec_panic_iff a b]
        constructor
        · rintro (⟨z, a', rfl⟩ | ⟨c, u, w, a', b', rfl, rfl, h1, h2⟩)
          · exact Or.inl ⟨z, a', rfl⟩
          · exact Or.inr ⟨x :: c, u, w, a', b', rfl, rfl, h1, h2⟩
        · rintro (⟨z, a', h1⟩ | ⟨c, u, w, a', b', h1, h2, h3, h4⟩)
          · simp at h1; exact Or.inl ⟨z, a', h1⟩
          · rcases c with - | ⟨c0, c⟩
            · simp at h1 h2
              exact absurd (Option.some.inj (h2.1.symm.trans h1.1)) h4
            · simp at h1 h2
              exact Or.inr ⟨c, u, w, a', b', h1.2, h2.2, h3, h4⟩
      · have hne : x ≠ y := by
          rintro rfl; rw [compareByteSlice_self] at h; simp at h; exact h0 h.symm
        simp only [ne_eq, h0, not_false_iff, if_true, reduceCtorEq, false_iff]
        rintro (⟨z, a', h1⟩ | ⟨c, u, w, a', b', h1, h2, h3, h4⟩)
        · simp at h1; exact hne h1.1
        · rcases c with - | ⟨c0, c⟩
          · simp at h1 h2
            rw [h1.1, h2.1, compareByteSlice_some] at h
            have := (cmpRec_panic_iff u w).mpr ⟨h3, h4⟩
            rw [this] at h; simp at h
          · simp at h1 h2
            exact hne (h1.1.trans h2.1.symm)
    · exact absurd h (compareByteSlice_not_err x y)
    · simp only [true_iff]
      right
      rcases x with - | u <;> rcases y with - | w
      · simp [compareByteSlice] at h
      · simp [compareByteSlice] at h
      · simp [compareByteSlice] at h
      · rw [compareByteSlice_some, cmpRec_panic_iff] at h
        exact ⟨[], u, w, a, b, rfl, rfl, h.1, h.2⟩

/-! ### Hash -/

theorem KeyObj.hash_eq (f : Slice → UInt32) (k : KeyObj) :
    k.hash f = k.subKeys.foldl (fun h s => h ^^^ f s) 0 := by
  cases k <;> rfl

/-- Right-fold form of the hash. -/
def xorAll (f : Slice → UInt32) (l : List Slice) : UInt32 := l.foldr (fun s h => f s ^^^ h) 0

theorem foldl_xor (f : Slice → UInt32) (l : List Slice) (a : UInt32) :
    l.foldl (fun h s => h ^^^ f s) a = a ^^^ xorAll f l := by
  induction l generalizing a with
  | nil => simp [xorAll]
  | cons s l ih => simp only [List.foldl_cons, ih, xorAll, List.foldr_cons, UInt32.xor_assoc]

theorem xorAll_perm {f : Slice → UInt32} {l l' : List Slice} (h : l.Perm l') : xorAll f l = xorAll f l' := by
  induction h with
  | nil => rfl
  | cons x _ ih =>
    simp only [xorAll, List.foldr_cons] at *
    rw [ih]
  | swap x y l =>
    simp only [xorAll, List.foldr_cons]
    rw [← UInt32.xor_assoc, ← UInt32.xor_assoc, UInt32.xor_comm (f y)]
  | trans _ _ ih1 ih2 => exact ih1.trans ih2

theorem xorAll_append (f : Slice → UInt32) (l l' : List Slice) : xorAll f (l ++ l') = xorAll f l ^^^ xorAll f l' := by
  induction l with
  | nil => simp [xorAll]
  | cons s l ih => simp only [List.cons_append, xorAll, List.foldr_cons] at *; rw [ih, UInt32.xor_assoc]

theorem xorAll_even (f : Slice → UInt32) : ∀ (n : Nat) (l : List Slice), l.length ≤ n →
    (∀ s, l.count s % 2 = 0) → xorAll f l = 0
  | n, [], _, _ => rfl
  | 0, _ :: _, h, _ => by simp at h
  | n + 1, s :: t, h, he => by
    have hs : s ∈ t := by
      have := he s
      rw [List.count_cons_self] at this
      exact List.count_pos_iff.mp (by omega)
    have hperm := List.perm_cons_erase hs
    have : xorAll f (s :: t) = f s ^^^ (f s ^^^ xorAll f (t.erase s)) := by
      have := xorAll_perm (f := f) (hperm.cons s)
      simpa [xorAll] using this
    rw [this, ← UInt32.xor_assoc, UInt32.xor_self, UInt32.zero_xor]
    refine xorAll_even f n (t.erase s) ?_ ?_
    · have := List.length_erase_of_mem hs
      simp at h; omega
    · intro u
      have h1 := he u
      have h2 : (s :: t).count u = (s :: s :: t.erase s).count u := (hperm.cons s).count_eq u
      rw [h2] at h1
      by_cases hu : s = u
      · subst hu; simp only [List.count_cons_self] at h1; omega
      · simpa [List.count_cons, hu] using h1

theorem xorAll_indicator (s : Slice) (l : List Slice) :
    xorAll (fun t => if t = s then 1 else 0) l = if l.count s % 2 = 1 then 1 else 0 := by
  induction l with
  | nil => simp [xorAll]
  | cons t l ih =>
    simp only [xorAll, List.foldr_cons] at *
    rw [ih]
    by_cases h : t = s
    · subst h
      rw [List.count_cons_self]
      by_cases h2 : List.count t l % 2 = 1
      · have h3 : ¬ (List.count t l + 1) % 2 = 1 := by omega
        simp [h2, h3]
      · have h3 : (List.count t l + 1) % 2 = 1 := by omega
        simp [h2, h3]
    · rw [List.count_cons_of_ne h]; simp [h]

end Poodle
