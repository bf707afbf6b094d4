import Verif.Props.Log

/-
Properties C217 and C210 for tables verified by key: encoded tables of which the end is missing (/repo/src/util/mph_util.go:57-188).
-/

namespace Poodle.Props
open Poodle Poodle.Spec

/-- A prefix of a concatenation is a strict prefix of the first part or contains it. -/
theorem prefix_append_cases {α : Type} {q a b : List α} (h : q <+: a ++ b) : (q <+: a ∧ q ≠ a) ∨ ∃ q', q = a ++ q' ∧ q' <+: b := by
  obtain ⟨r, hr⟩ := h
  by_cases hl : a.length ≤ q.length
  · right
    refine ⟨q.drop a.length, ?_, ?_⟩
    · have : a = q.take a.length := by
        have := congrArg (List.take a.length) hr
        rw [List.take_append_of_le_length hl, List.take_left] at this
        exact this.symm
      conv_lhs => rw [← List.take_append_drop a.length q, ← this]
    · refine ⟨r, ?_⟩
      have := congrArg (List.drop a.length) hr
      rwa [List.drop_append_of_le_length hl, List.drop_left] at this
  · left
    refine ⟨⟨a.drop q.length, ?_⟩, ?_⟩
    · have := congrArg (List.take q.length) hr
      rw [List.take_left, List.take_append_of_le_length (by omega)] at this
      conv_lhs => lhs; rw [this]
      exact List.take_append_drop _ _
    · rintro rfl; simp at hl

theorem readU32_short {q : Bytes} (h : q.length < 4) : readU32 q = .err := by
  match q, h with
  | [], _ => rfl
  | [_], _ => rfl
  | [_, _], _ => rfl
  | [_, _, _], _ => rfl
  | _ :: _ :: _ :: _ :: _, h => simp at h; omega

theorem strict_length {α : Type} {q a : List α} (h : q <+: a) (hne : q ≠ a) : q.length < a.length := by
  obtain ⟨r, rfl⟩ := h
  rcases r with - | ⟨x, r⟩
  · simp at hne
  · simp

/-- A cut head is refused. -/
theorem load_cut_head {K : Type} (t : MphTable K) (h : MphFits32 t) (n : Nat) {q rest : Bytes}
    (hq : q <+: 1 :: mphHead t ++ (be32 n ++ rest)) : newMphTable q = .err ∨ ∃ q', q = 1 :: mphHead t ++ (be32 n ++ q') ∧ q' <+: rest := by
  rcases q with - | ⟨m, q⟩
  · exact .inl rfl
  rw [List.cons_append, List.cons_prefix_cons] at hq
  obtain ⟨rfl, hq⟩ := hq
  have hm' : ¬ ((1 : UInt8) ≠ 0 ∧ (1 : UInt8) ≠ 1) := by decide
  have e : ∀ r : Bytes, mphHead t ++ r = be32 t.level0.length ++ (be32Elems t.level0 ++ (be32 t.level0Mask ++ (be32 t.level1.length ++
      (be32Elems t.level1 ++ (be32 t.level1Mask ++ r))))) := by
    intro r
    simp [mphHead, be32s, be32Elems]
  rw [e] at hq
  have short : ∀ {p : Bytes} {n : Nat}, p <+: be32 n ∧ p ≠ be32 n → readU32 p = .err := fun h => readU32_short (strict_length h.1 h.2)
  have shorts : ∀ {p : Bytes} {l : List UInt32}, p <+: be32Elems l ∧ p ≠ be32Elems l → readU32s l.length p = .err := fun h => by
    rw [readU32s, if_pos]
    rw [← be32Elems_length]
    exact strict_length h.1 h.2
  rw [newMphTable, if_neg hm']
  rcases prefix_append_cases hq with hc | ⟨q1, rfl, hq1⟩
  · left; rw [short hc]; rfl
  rw [readU32_be32, Res.bind_ok]
  simp only
  rw [Nat.mod_eq_of_lt h.l0]
  rcases prefix_append_cases hq1 with hc | ⟨q2, rfl, hq2⟩
  · left; rw [shorts hc]; rfl
  rw [readU32s_elems, Res.bind_ok]
  simp only
  rcases prefix_append_cases hq2 with hc | ⟨q3, rfl, hq3⟩
  · left; rw [short hc]; rfl
  rw [readU32_be32, Res.bind_ok]
  simp only
  rcases prefix_append_cases hq3 with hc | ⟨q4, rfl, hq4⟩
  · left; rw [short hc]; rfl
  rw [readU32_be32, Res.bind_ok]
  simp only
  rw [Nat.mod_eq_of_lt h.l1]
  rcases prefix_append_cases hq4 with hc | ⟨q5, rfl, hq5⟩
  · left; rw [shorts hc]; rfl
  rw [readU32s_elems, Res.bind_ok]
  simp only
  rcases prefix_append_cases hq5 with hc | ⟨q6, rfl, hq6⟩
  · left; rw [short hc]; rfl
  rw [readU32_be32, Res.bind_ok]
  simp only [if_true]
  rcases prefix_append_cases hq6 with hc | ⟨q7, rfl, hq7⟩
  · left; rw [short hc]; rfl
  right
  refine ⟨q7, ?_, hq7⟩
  rw [List.cons_append, e]

/-- The sub keys of a key of which only the first `i` are left. -/
def tornKey (k : List Slice) (i : Nat) : List Slice := k.take i ++ List.replicate (k.length - i) (some [])

/-- Nothing is read as the empty key. -/
theorem newMappedKey_nil : newMappedKey [] = .ok (⟨[], []⟩, 0) := by rfl

theorem loadKeys_nil (n : Nat) : loadKeys n [] = .ok (List.replicate n (.mapped ⟨[], []⟩), []) := by
  induction n with
  | zero => rfl
  | succ n ih =>
    rw [loadKeys, newMappedKey_nil, Res.bind_ok]
    simp only [List.length_nil, Nat.lt_irrefl, if_false, List.drop_nil]
    rw [ih]
    rfl

/-- What may be left of a key: nothing, or its first sub keys followed by empty ones. -/
def CutKey (k c : List Slice) : Prop := c = [] ∨ ∃ i < k.length, c = tornKey k i

theorem subKeys_some {k : KeyObj} (hnil : none ∉ k.subKeys) : k.subKeys.map (fun s => some s.bytes) = k.subKeys := by
  conv_rhs => rw [← List.map_id k.subKeys]
  apply List.map_congr_left
  intro s hs
  rcases s with - | b
  · exact absurd hs hnil
  · rfl

/-- Cut keys. -/
theorem loadKeys_cut : ∀ (ks : List KeyObj) (q : Bytes), (∀ k ∈ ks, (keyBytes k.subKeys).length ≤ maxKeyLength) →
    (∀ k ∈ ks, none ∉ k.subKeys) →
    (ks.flatMap fun k => keyBytes k.subKeys).length ≤ maxMake24 → q <+: (ks.flatMap fun k => keyBytes k.subKeys) →
    q ≠ (ks.flatMap fun k => keyBytes k.subKeys) →
    loadKeys ks.length q = .err ∨ ∃ l pre k c post, ks = pre ++ k :: post ∧ CutKey k.subKeys c ∧ loadKeys ks.length q = .ok (l, []) ∧
      l.map KeyObj.subKeys = pre.map KeyObj.subKeys ++ c :: List.replicate post.length []
  | [], q, _, _, _, h, hne => by
    simp only [List.flatMap_nil, List.prefix_nil] at h hne
    exact absurd h hne
  | k :: ks, q, hb, hnil, hl, h, hne => by
    rw [List.flatMap_cons] at h hne hl
    have hsome := subKeys_some (hnil k (by simp))
    rcases prefix_append_cases h with ⟨hp, hn⟩ | ⟨q', rfl, hp⟩
    · by_cases h0 : q = []
      · subst h0
        right
        refine ⟨_, [], k, [], ks, rfl, .inl rfl, loadKeys_nil _, ?_⟩
        simp only [List.length_cons, List.replicate_succ, List.map_cons, List.map_replicate, List.map_nil, List.nil_append]
        rfl
      · have henc := key_encode_eq ⟨false, k.subKeys, none, 0⟩
        rw [if_pos (hb k (by simp))] at henc
        rcases C84_truncated_key_partial ⟨false, k.subKeys, none, 0⟩ _ (keyBytes k.subKeys) q henc (by simp [Key.getBuf, Slice.bytes]) hp hn h0 with
          he | ⟨i, hi, c, body, -, -, -, -, he⟩
        · left
          rw [List.length_cons, loadKeys, he]; rfl
        · rw [List.length_cons, loadKeys, he, Res.bind_ok]
          simp only [Nat.lt_irrefl, if_false, List.drop_length]
          right
          refine ⟨_, [], k, tornKey k.subKeys i, ks, rfl, .inr ⟨i, hi, rfl⟩, by rw [loadKeys_nil]; rfl, ?_⟩
          rw [List.map_cons, List.map_replicate, List.map_nil, List.nil_append]
          refine congrArg₂ _ ?_ rfl
          change (k.subKeys.take i).map (fun s => some s.bytes) ++ _ = _
          rw [List.map_take, hsome]
          rfl
    · rw [List.length_append] at hl
      have hq' := hp.length_le
      rw [List.length_cons, loadKeys, newMappedKey_keyBytes _ _ (by rw [List.length_append]; omega), Res.bind_ok]
      simp only
      rw [if_neg (by rw [List.length_append]; omega), List.drop_left]
      rcases loadKeys_cut ks q' (fun k' h' => hb k' (by simp [h'])) (fun k' h' => hnil k' (by simp [h'])) (by omega) hp
        (fun e => hne (by rw [e])) with he | ⟨l, pre, k', c, post, e1, hc, e2, e3⟩
      · left; rw [he]; rfl
      · right
        refine ⟨_, k :: pre, k', c, post, by rw [e1, List.cons_append], hc, by rw [e2]; rfl, ?_⟩
        rw [List.map_cons, e3, List.map_cons, List.cons_append]
        refine congrArg₂ _ ?_ rfl
        exact hsome

/-- Keys cut between two of them. -/
theorem loadKeys_between : ∀ (ks : List KeyObj) (n : Nat), (∀ k ∈ ks, none ∉ k.subKeys) →
    (ks.flatMap fun k => keyBytes k.subKeys).length ≤ maxMake24 →
    ∃ l, loadKeys (ks.length + n) (ks.flatMap fun k => keyBytes k.subKeys) = .ok (l, []) ∧
      l.map KeyObj.subKeys = ks.map KeyObj.subKeys ++ List.replicate n []
  | [], n, _, _ => ⟨_, by rw [List.length_nil, Nat.zero_add]; exact loadKeys_nil n, by rw [List.map_replicate]; rfl⟩
  | k :: ks, n, hnil, hl => by
    rw [List.flatMap_cons] at hl ⊢
    have hsome := subKeys_some (hnil k (by simp))
    rw [List.length_cons, show ks.length + 1 + n = ks.length + n + 1 by omega, loadKeys, newMappedKey_keyBytes _ _ hl, Res.bind_ok]
    simp only
    rw [if_neg (by rw [List.length_append]; omega), List.drop_left]
    obtain ⟨l, e1, e2⟩ := loadKeys_between ks n (fun k' h' => hnil k' (by simp [h'])) (by rw [List.length_append] at hl; omega)
    refine ⟨_, by rw [e1]; rfl, ?_⟩
    rw [List.map_cons, e2, List.map_cons, List.cons_append]
    exact congrArg₂ _ hsome rfl

/-- Encoded keys are short. -/
theorem soundKey_short {k : KeyObj} (h : SoundKey k) {w : Bytes} (hw : mphKeyBuf k = .ok w) : (keyBytes k.subKeys).length ≤ maxKeyLength := by
  cases h with
  | empty => decide +kernel
  | fresh k he hnil =>
    simp only [mphKeyBuf, KeyObj.isEncoded, he, Bool.false_eq_true, if_false, KeyObj.encode, key_encode_eq] at hw
    split at hw
    · rename_i o' e
      split at e
      · assumption
      · simp at e
    · simp at hw
  | encoded k k' hnil he =>
    rw [key_encode_eq] at he
    split at he
    · simp only [Prod.mk.injEq, and_true] at he
      subst he
      assumption
    · simp at he
  | decoded k k' w' m n he hw' hd =>
    rw [key_encode_eq] at he
    split at he
    · rename_i hl
      simp only [Prod.mk.injEq, and_true] at he
      subst he
      simp only [Key.getBuf, if_true, Slice.bytes, Option.getD_some, Res.ok.injEq] at hw'
      have e := newMappedKey_keyBytes k.keys [] (by rw [List.append_nil]; simp only [maxKeyLength] at hl; simp only [maxMake24]; omega)
      rw [List.append_nil, hw', hd] at e
      simp only [Res.ok.injEq, Prod.mk.injEq] at e
      rw [e.1]
      have hk : keyBytes (k.keys.map fun s => some s.bytes) = keyBytes k.keys := by
        simp only [keyBytes, flatKeys, List.length_map, List.map_map]; rfl
      simp only [KeyObj.subKeys, hk]
      exact hl
    · simp at he

theorem soundKeys_short : ∀ {ks : List KeyObj} (_ : ∀ k ∈ ks, SoundKey k) {w : Bytes}, mphKeyBufs ks = .ok w →
    ∀ k ∈ ks, (keyBytes k.subKeys).length ≤ maxKeyLength
  | [], _, w, _ => by simp
  | k :: ks, h, w, hw => by
    rw [mphKeyBufs, Res.bind_eq_ok] at hw
    obtain ⟨b, hb, hw⟩ := hw
    rw [Res.bind_eq_ok] at hw
    obtain ⟨bs, hbs, hw⟩ := hw
    intro k' hk'
    rcases List.mem_cons.mp hk' with rfl | hk'
    · exact soundKey_short (h _ (by simp)) hb
    · exact soundKeys_short (fun k' hk' => h k' (by simp [hk'])) hbs k' hk'

/-- Lookups depend on the contents of the keys only. -/
theorem lookup_contents (f : UInt32 → Slice → UInt32) (l0 l1 : List UInt32) (m0 m1 : Nat) (ks ks' : List KeyObj)
    (h : ks.map KeyObj.subKeys = ks'.map KeyObj.subKeys) (s : KeyObj) :
    (⟨l0, m0, l1, m1, .keys ks⟩ : MphTable KeyObj).lookup (keyMphOps f) s = (⟨l0, m0, l1, m1, .keys ks'⟩ : MphTable KeyObj).lookup (keyMphOps f) s := by
  unfold MphTable.lookup
  simp only
  split
  · rfl
  · split
    · rfl
    · rename_i n _
      have := congrArg (fun l => l[n.toNat]?) h
      simp only [List.getElem?_map] at this
      generalize ks[n.toNat]? = o1 at this ⊢
      generalize ks'[n.toNat]? = o2 at this ⊢
      rcases o1 with - | k1
      · rcases o2 with - | k2
        · rfl
        · simp at this
      · rcases o2 with - | k2
        · simp at this
        · simp only [Option.map_some, Option.some.injEq] at this
          simp only [keyMphOps, KeyObj.equal?_eq, this]

/-- Building and encoding, for tables verified by key. -/
theorem built_encoded (f : UInt32 → Slice → UInt32) (order : List (Nat × List Nat) → List (Nat × List Nat))
    (hord : ∀ l, (order l).Perm l) (fuel : Nat) (vs : UInt32) (keys : List KeyObj) (hlen : keys.length ≤ 2 ^ 31)
    (hs : ∀ k ∈ keys, SoundKey k) (t : MphTable KeyObj) (h : mphBuild (keyMphOps f) order fuel vs keys true = .ok t)
    (enc : Bytes) (he : t.encode = .ok enc) : MphFits32 t ∧ (∀ k ∈ keys, (keyBytes k.subKeys).length ≤ maxKeyLength) ∧
      enc = 1 :: mphHead t ++ (be32 keys.length ++ keys.flatMap fun k => keyBytes k.subKeys) := by
  have hB := built_of_ok hord h
  have hf := hB.fits32 hlen
  have hv := hB.verify
  simp only [if_true] at hv
  rw [encode_eq, hv] at he
  simp only at he
  rw [Res.bind_eq_ok] at he
  obtain ⟨bs, hbs, he⟩ := he
  simp only [Res.ok.injEq] at he
  refine ⟨hf, soundKeys_short hs hbs, ?_⟩
  rw [← soundKeys_bufs hs hbs, ← he, List.append_assoc]

/-- A table that has the given keys instead of its own. -/
def withKeys (t : MphTable KeyObj) (ks : List (List Slice)) : MphTable KeyObj :=
  { t with verify := .keys (ks.map fun k => .key ⟨false, k, none, 0⟩) }

/-- The claim of C217. -/
def KeyTablesRejectCuts : Prop := ∀ (order : List (Nat × List Nat) → List (Nat × List Nat)), (∀ l, (order l).Perm l) →
  ∀ (fuel : Nat) (vs : UInt32) (keys : List KeyObj), keys.length ≤ 2 ^ 31 → (∀ k ∈ keys, SoundKey k) →
  ∀ (t : MphTable KeyObj), mphBuild murmurMphOps order fuel vs keys true = .ok t → ∀ enc, t.encode = .ok enc →
  ∀ q, q <+: enc → q ≠ enc → newMphTable q = .err

/-- Two keys, `[1]` and `[2]/[3]`, their table and its encoding. -/
def cutPair : List KeyObj := [.key ⟨false, [some [1]], none, 0⟩, .key ⟨false, [some [2], some [3]], none, 0⟩]

def cutPairTable : MphTable KeyObj := ⟨[4], 0, [0, 1], 1, .keys cutPair⟩

def cutPairBytes : Bytes :=
  [1, 0, 0, 0, 1, 0, 0, 0, 4, 0, 0, 0, 0, 0, 0, 0, 2, 0, 0, 0, 0, 0, 0, 0, 1, 0, 0, 0, 1, 0, 0, 0, 2, 1, 1, 1, 2, 1, 2, 1, 3]

theorem cutPair_sound : ∀ k ∈ cutPair, SoundKey k := by
  simp only [cutPair, List.mem_cons, List.not_mem_nil, or_false, forall_eq_or_imp, forall_eq]
  exact ⟨.fresh _ rfl (by simp), .fresh _ rfl (by simp)⟩

theorem cutPair_built : mphBuild murmurMphOps id 100 20 cutPair true = .ok cutPairTable := by decide +kernel

theorem cutPair_encoded : cutPairTable.encode = .ok cutPairBytes := by decide +kernel

/-- C217 is refuted: without its last two bytes the table of `[1]` and `[2]/[3]` is read as a table of `[1]` and `[2]/[]`. -/
theorem C217_refuted : ¬ KeyTablesRejectCuts := by
  intro h
  have := h id (fun l => List.Perm.refl l) 100 20 cutPair (by decide) cutPair_sound cutPairTable cutPair_built cutPairBytes cutPair_encoded
    (cutPairBytes.take 39) (List.take_prefix _ _) (by decide +kernel)
  revert this
  decide +kernel

/-- C217, exactly: an encoding of which the end is missing is refused, or it is read as a table that answers as the table written except that the
last keys are lost: they are read as empty keys, or the first one of them as one whose sub keys are empty from some position on. -/
theorem C217_cut_partial (f : UInt32 → Slice → UInt32) (order : List (Nat × List Nat) → List (Nat × List Nat))
    (hord : ∀ l, (order l).Perm l) (fuel : Nat) (vs : UInt32) (keys : List KeyObj) (hlen : keys.length ≤ 2 ^ 31)
    (hs : ∀ k ∈ keys, SoundKey k) (t : MphTable KeyObj) (h : mphBuild (keyMphOps f) order fuel vs keys true = .ok t)
    (enc : Bytes) (he : t.encode = .ok enc) (hb : enc.length ≤ 2 ^ 43) (q : Bytes) (hq : q <+: enc) (hne : q ≠ enc) :
    newMphTable q = .err ∨ ∃ t' pre k c post, keys = pre ++ k :: post ∧ CutKey k.subKeys c ∧ newMphTable q = .ok (t', q.length) ∧
      ∀ s, t'.lookup (keyMphOps f) s =
        (withKeys t (pre.map KeyObj.subKeys ++ c :: List.replicate post.length [])).lookup (keyMphOps f) s := by
  obtain ⟨hf, hshort, rfl⟩ := built_encoded f order hord fuel vs keys hlen hs t h enc he
  rcases load_cut_head t hf keys.length hq with he | ⟨q', rfl, hq'⟩
  · exact .inl he
  · rw [load_head t hf 1 (Or.inr rfl), loadTail, if_pos rfl, readU32_be32, Res.bind_ok]
    simp only
    rw [Nat.mod_eq_of_lt (show keys.length < 2 ^ 32 by omega)]
    rcases loadKeys_cut keys q' hshort (fun k hk => soundKey_nil (hs k hk)) (by
      simp only [List.length_append, maxMake24] at hb ⊢; omega) hq' (fun e => hne (by rw [e])) with he | ⟨l, pre, k, c, post, e1, hc, e2, e3⟩
    · left; rw [he]; rfl
    · right
      refine ⟨_, pre, k, c, post, e1, hc, by rw [e2]; rfl, fun s => ?_⟩
      apply lookup_contents
      rw [e3, List.map_map]
      exact (List.map_id _).symm

example := C217_cut_partial (fun seed s => murmurHash seed s.bytes) id (fun l => List.Perm.refl l) 100 20 cutPair (by decide) cutPair_sound cutPairTable
  cutPair_built cutPairBytes cutPair_encoded (by decide +kernel) (cutPairBytes.take 39) (List.take_prefix _ _) (by decide +kernel)

/-- C217, cuts between keys: if the encoding ends after some of the keys, or directly before the first one, it is read without an error, and
the table answers as if the other keys were empty. -/
theorem C217_between_partial (f : UInt32 → Slice → UInt32) (order : List (Nat × List Nat) → List (Nat × List Nat))
    (hord : ∀ l, (order l).Perm l) (fuel : Nat) (vs : UInt32) (pre post : List KeyObj) (hlen : (pre ++ post).length ≤ 2 ^ 31)
    (hs : ∀ k ∈ pre ++ post, SoundKey k) (t : MphTable KeyObj) (h : mphBuild (keyMphOps f) order fuel vs (pre ++ post) true = .ok t)
    (enc : Bytes) (he : t.encode = .ok enc) (hb : enc.length ≤ 2 ^ 43) (tails : List Bytes)
    (ht : List.Forall₂ (fun (k : KeyObj) w => (⟨false, k.subKeys, none, 0⟩ : Key).encode.1.getBuf = .ok w) post tails) :
    ∃ q t', enc = q ++ tails.flatten ∧ newMphTable q = .ok (t', q.length) ∧
      ∀ s, t'.lookup (keyMphOps f) s = (withKeys t (pre.map KeyObj.subKeys ++ List.replicate post.length [])).lookup (keyMphOps f) s := by
  obtain ⟨hf, hshort, rfl⟩ := built_encoded f order hord fuel vs _ hlen hs t h enc he
  obtain ⟨l, e1, e2⟩ := loadKeys_between pre post.length (fun k hk => soundKey_nil (hs k (by simp [hk]))) (by
    simp only [List.length_append, List.flatMap_append, maxMake24] at hb ⊢; omega)
  refine ⟨1 :: mphHead t ++ (be32 (pre ++ post).length ++ pre.flatMap fun k => keyBytes k.subKeys),
    ⟨t.level0, t.level0Mask, t.level1, t.level1Mask, .keys l⟩, ?_, ?_, fun s => ?_⟩
  rotate_left
  · rw [load_head t hf 1 (Or.inr rfl), loadTail, if_pos rfl, readU32_be32, Res.bind_ok]
    simp only
    rw [Nat.mod_eq_of_lt (show (pre ++ post).length < 2 ^ 32 by omega), List.length_append, e1]
    rfl
  · apply lookup_contents
    rw [e2, List.map_map]
    exact (List.map_id _).symm
  · have e : tails.flatten = post.flatMap fun k => keyBytes k.subKeys := by
      replace hshort : ∀ k ∈ post, (keyBytes k.subKeys).length ≤ maxKeyLength := fun k hk => hshort k (by simp [hk])
      clear h hs hlen he hb e1 e2
      induction ht with
      | nil => rfl
      | @cons k w post tails hk _ ih =>
        rw [key_encode_eq, if_pos (hshort k (by simp))] at hk
        simp only [Key.getBuf, if_true, Slice.bytes, Option.getD_some, Res.ok.injEq] at hk
        rw [List.flatten_cons, List.flatMap_cons, ih (fun k hk => hshort k (by simp [hk])), hk]
    rw [e, List.flatMap_append]
    simp only [List.append_assoc, List.cons_append]

example := C217_between_partial (fun seed s => murmurHash seed s.bytes) id (fun l => List.Perm.refl l) 100 20
  [.key ⟨false, [some [1]], none, 0⟩] [.key ⟨false, [some [2], some [3]], none, 0⟩] (by decide) cutPair_sound cutPairTable
  cutPair_built cutPairBytes cutPair_encoded (by decide +kernel) [[2, 1, 2, 1, 3]] (.cons (by decide +kernel) .nil)

/-- What Lookup finds after each cut that is not refused: neither key, but the empty key; only `[1]`; only `[1]`; both keys. -/
example : ([33, 36, 39, 41].map fun n => match newMphTable (cutPairBytes.take n) with
    | .ok (t, _) => (cutPair ++ [KeyObj.empty]).map fun k => match t.lookup murmurMphOps k with
      | .ok (_, b) => b
      | _ => false
    | _ => []) = [[false, false, true], [true, false, false], [true, false, false], [true, true, false]] := by
  decide +kernel

/-- C210, tables verified by key: the tables written completely are read with the same answers, wherever the log is cut off.  What is left of the
next one is an error, or is read as one more table in which the last keys are lost; then reading ends as if the log were complete. -/
theorem C210_key_tables_partial (f : UInt32 → Slice → UInt32) (ts : List (MphTable KeyObj)) (ws : List Bytes)
    (h : List.Forall₂ (fun t w => t.encode = .ok w ∧ ∃ (order : List (Nat × List Nat) → List (Nat × List Nat)) (fuel : Nat) (vs : UInt32)
      (keys : List KeyObj), (∀ l, (order l).Perm l) ∧ keys.length ≤ 2 ^ 31 ∧ (∀ k ∈ keys, SoundKey k) ∧
        mphBuild (keyMphOps f) order fuel vs keys true = .ok t) ts ws) (n : Nat) (hL : ws.flatten.length ≤ 2 ^ 43) :
    ∃ xs e, ReadsLog newMphTable (ws.flatten.take n) xs e ∧ e ≠ .crashed ∧
      (xs.map (fun t s => t.lookup (keyMphOps f) s) = (ts.take (wholeItems n ws)).map (fun t s => t.lookup (keyMphOps f) s) ∧
          (e = .complete ↔ CutBetween n ws) ∨
        ¬ CutBetween n ws ∧ e = .complete ∧ ∃ t pre k c post, ts[wholeItems n ws]? = some t ∧ t.verify = .keys (pre ++ k :: post) ∧
          CutKey k.subKeys c ∧ xs.map (fun t s => t.lookup (keyMphOps f) s) =
            (ts.take (wholeItems n ws) ++ [withKeys t (pre.map KeyObj.subKeys ++ c :: List.replicate post.length [])]).map
              (fun t s => t.lookup (keyMphOps f) s)) := by
  have hk : List.Forall₂ (ReadAs newMphTable (fun t s => t.lookup (keyMphOps f) s) (2 ^ 43)) ws (ts.map fun t s => t.lookup (keyMphOps f) s) := by
    rw [List.forall₂_map_right_iff]
    refine h.flip.imp ?_
    rintro w t ⟨he, order, fuel, vs, keys, hord, hlen, hs, hb⟩
    refine ⟨?_, fun rest hl => ?_⟩
    · obtain ⟨-, -, e⟩ := built_encoded f order hord fuel vs keys hlen hs t hb w he
      rw [e]; simp
    · obtain ⟨t', h1, h2⟩ := C38_key_mode_partial f order hord fuel vs keys hlen hs t hb w he rest hl
      exact ⟨t', h1, funext h2⟩
  obtain ⟨q, h1, h2, h3⟩ := reads_cut hk n hL
  by_cases hq : q = []
  · subst hq
    obtain ⟨xs, h4, h5⟩ := h3 [] _ .complete
    exact ⟨xs, _, by simpa using h4, by simp, .inl ⟨by rw [h5, List.map_take], by simp [h2]⟩⟩
  · obtain ⟨w, hw, hp, hn⟩ := h1 hq
    obtain ⟨hwi, rfl⟩ := List.getElem?_eq_some_iff.mp hw
    have hki : wholeItems n ws < ts.length := by rw [h.length_eq]; exact hwi
    obtain ⟨he, order, fuel, vs, keys, hord, hlen, hs, hb⟩ := h.get hki hwi
    have hwl : ws[wholeItems n ws].length ≤ 2 ^ 43 := le_trans (List.sublist_flatten_of_mem (List.getElem_mem hwi)).length_le hL
    rcases C217_cut_partial f order hord fuel vs keys hlen hs _ hb _ he hwl q hp hn with he | ⟨t', pre, k, c, post, e1, hc, e2, e3⟩
    · obtain ⟨xs, h4, h5⟩ := h3 [] _ (.failed hq he)
      exact ⟨xs, _, by simpa using h4, by simp, .inl ⟨by rw [h5, List.map_take], by simp [h2, hq]⟩⟩
    · obtain ⟨xs, h4, h5⟩ := h3 _ _ (.item hq e2 (by rw [List.drop_length]; exact .complete))
      have hv := (built_of_ok hord hb).verify
      rw [if_pos rfl, e1] at hv
      refine ⟨_, _, h4, by simp, .inr ⟨by rw [h2]; exact hq, rfl, ts[wholeItems n ws], pre, k, c, post, List.getElem?_eq_getElem hki, hv, hc, ?_⟩⟩
      rw [List.map_append, h5, List.map_append, List.map_take]
      refine congrArg₂ _ rfl ?_
      rw [List.map_cons, List.map_cons, List.map_nil]
      exact congrArg₂ _ (funext e3) rfl

example := C210_key_tables_partial (fun seed s => murmurHash seed s.bytes) [cutPairTable, cutPairTable] [cutPairBytes, cutPairBytes]
    (.cons ⟨cutPair_encoded, id, 100, 20, cutPair, fun l => List.Perm.refl l, by decide, cutPair_sound, cutPair_built⟩
      (.cons ⟨cutPair_encoded, id, 100, 20, cutPair, fun l => List.Perm.refl l, by decide, cutPair_sound, cutPair_built⟩ .nil)) 77 (by decide +kernel)

end Poodle.Props
