import Verif.Props.Mph
import Verif.Lemmas.MphCodec

/-
Properties C38-C40: serialization of minimal perfect hash tables (/repo/src/util/mph_util.go).
-/

namespace Poodle.Props
open Poodle Poodle.Spec

/-! ### C38 Perfect hash serialization -/

/-- Keys in the states the API leads to without mutating an encoded key: the empty key, a key not yet encoded, a key after a
successful Encode, and a key decoded from exactly the bytes of an encoded key; in all cases without nil sub keys. -/
inductive SoundKey : KeyObj → Prop
  | empty : SoundKey .empty
  | fresh (k : Key) (he : k.encoded = false) (hnil : none ∉ k.keys) : SoundKey (.key k)
  | encoded (k k' : Key) (hnil : none ∉ k.keys) (he : k.encode = (k', true)) : SoundKey (.key k')
  | decoded (k k' : Key) (w : Bytes) (m : MappedKey) (n : Nat) (he : k.encode = (k', true)) (hw : k'.getBuf = .ok w)
      (hd : newMappedKey w = .ok (m, n)) : SoundKey (.mapped m)

theorem soundKey_nil {k : KeyObj} (h : SoundKey k) : none ∉ k.subKeys := by
  cases h with
  | empty => simp [KeyObj.subKeys]
  | fresh k he hnil => exact hnil
  | encoded k k' hnil he =>
    rw [key_encode_eq] at he
    split at he
    · simp only [Prod.mk.injEq, and_true] at he
      subst he; exact hnil
    · simp at he
  | decoded k k' w m n he hw hd =>
    rw [key_encode_eq] at he
    split at he
    · rename_i hl
      simp only [Prod.mk.injEq, and_true] at he
      subst he
      simp only [Key.getBuf, if_true, Slice.bytes, Option.getD_some, Res.ok.injEq] at hw
      have := newMappedKey_keyBytes k.keys [] (by rw [List.append_nil]; simp only [maxKeyLength] at hl; simp only [maxMake24]; omega)
      rw [List.append_nil, hw, hd] at this
      simp only [Res.ok.injEq, Prod.mk.injEq] at this
      rw [this.1]
      simp [KeyObj.subKeys]
    · simp at he

theorem soundKey_buf {k : KeyObj} (h : SoundKey k) {w : Bytes} (hw : mphKeyBuf k = .ok w) : w = keyBytes k.subKeys := by
  cases h with
  | empty =>
    simp only [mphKeyBuf, KeyObj.isEncoded, KeyObj.getBuf, if_true, Res.ok.injEq] at hw
    subst hw; rfl
  | fresh k he hnil =>
    simp only [mphKeyBuf, KeyObj.isEncoded, he, Bool.false_eq_true, if_false, KeyObj.encode, key_encode_eq] at hw
    split at hw
    · rename_i o' e
      split at e
      · simp only [Prod.mk.injEq, and_true] at e
        subst e
        simp only [KeyObj.getBuf, Key.getBuf, if_true, Slice.bytes, Option.getD_some, Res.ok.injEq] at hw
        exact hw.symm
      · simp at e
    · simp at hw
  | encoded k k' hnil he =>
    rw [key_encode_eq] at he
    split at he
    · simp only [Prod.mk.injEq, and_true] at he
      subst he
      simp only [mphKeyBuf, KeyObj.isEncoded, KeyObj.getBuf, Key.getBuf, if_true, Slice.bytes, Option.getD_some, Res.ok.injEq] at hw
      exact hw.symm
    · simp at he
  | decoded k k' w' m n he hw' hd =>
    rw [key_encode_eq] at he
    split at he
    · rename_i hl
      simp only [Prod.mk.injEq, and_true] at he
      subst he
      simp only [Key.getBuf, if_true, Slice.bytes, Option.getD_some, Res.ok.injEq] at hw'
      have e := newMappedKey_keyBytes k.keys [] (by rw [List.append_nil]; simp only [maxKeyLength] at hl; simp only [maxMake24]; omega)
      rw [List.append_nil, hw', hd] at e
      simp only [Res.ok.injEq, Prod.mk.injEq] at e
      rw [e.1]
      simp only [mphKeyBuf, KeyObj.isEncoded, if_true, KeyObj.getBuf, e.1, Res.ok.injEq, MappedKey.getBuf, MappedKey.isEmpty] at hw
      have hk : keyBytes (k.keys.map fun s => some s.bytes) = keyBytes k.keys := by
        simp only [keyBytes, flatKeys, List.length_map, List.map_map]; rfl
      simp only [KeyObj.subKeys, hk, hw']
      rw [← hw]
      split
      · rename_i hc
        rw [← hw'] at hc ⊢
        rcases hkk : k.keys with - | ⟨s, ss⟩
        · rfl
        · rw [hkk] at hc
          have : keyBytes (s :: ss) ≠ [] := by
            intro h0
            have h1 : (encodeUvarint64 (s :: ss).length).length = 0 := by
              have := congrArg List.length h0
              simp only [keyBytes, List.length_append, List.length_nil] at this; omega
            rw [encodeUvarint64, putUvarint_length] at h1
            · exact absurd h1 (by have := uvLen_pos (s :: ss).length; omega)
            · have := length_le_flat k.keys fun t ht => by
                have := mem_length_le_flat ht
                simp only [keyBytes, List.length_append, maxKeyLength] at hl
                omega
              rw [← hkk]
              simp only [keyBytes, List.length_append, maxKeyLength] at hl
              omega
          simp at hc
          exact absurd hc this
      · rfl
    · simp at he

theorem soundKeys_bufs : ∀ {ks : List KeyObj} (_ : ∀ k ∈ ks, SoundKey k) {w : Bytes}, mphKeyBufs ks = .ok w →
    w = ks.flatMap fun k => keyBytes k.subKeys
  | [], _, w, hw => by
    simp only [mphKeyBufs, Res.ok.injEq] at hw
    subst hw; rfl
  | k :: ks, h, w, hw => by
    rw [mphKeyBufs, Res.bind_eq_ok] at hw
    obtain ⟨b, hb, hw⟩ := hw
    rw [Res.bind_eq_ok] at hw
    obtain ⟨bs, hbs, hw⟩ := hw
    simp only [Res.ok.injEq] at hw
    rw [← hw, soundKey_buf (h k (by simp)) hb, soundKeys_bufs (fun k' hk' => h k' (by simp [hk'])) hbs, List.flatMap_cons]

/-- The claim of C38 for tables of composite keys. -/
def MphRoundTrips : Prop :=
  ∀ (order : List (Nat × List Nat) → List (Nat × List Nat)) (fuel : Nat) (vs : UInt32) (keys : List KeyObj) (byKey : Bool)
    (t : MphTable KeyObj) (enc rest : Bytes), (∀ l, (order l).Perm l) → keys.length ≤ 2 ^ 31 →
    mphBuild murmurMphOps order fuel vs keys byKey = .ok t → t.encode = .ok enc → (enc ++ rest).length ≤ 2 ^ 43 →
    ∃ t', newMphTable (enc ++ rest) = .ok (t', enc.length) ∧ ∀ s, t'.lookup murmurMphOps s = t.lookup murmurMphOps s

/-- C38 is false: a table built by key from a key that was itself decoded from a longer buffer (here one byte longer)
serializes that whole buffer, and loading it consumes less than it wrote. -/
theorem C38_refuted : ¬ MphRoundTrips := by
  intro h
  obtain ⟨t', h1, -⟩ := h id 1 20 [.mapped ⟨[some [5]], [1, 1, 5, 9]⟩] true
    ⟨[0], 0, [0], 0, .keys [.mapped ⟨[some [5]], [1, 1, 5, 9]⟩]⟩
    [1, 0, 0, 0, 1, 0, 0, 0, 0, 0, 0, 0, 0, 0, 0, 0, 1, 0, 0, 0, 0, 0, 0, 0, 0, 0, 0, 0, 1, 1, 1, 5, 9] []
    (fun l => List.Perm.refl l) (by decide) (by decide +kernel) (by decide +kernel) (by decide)
  have h2 : newMphTable ([1, 0, 0, 0, 1, 0, 0, 0, 0, 0, 0, 0, 0, 0, 0, 0, 1, 0, 0, 0, 0, 0, 0, 0, 0, 0, 0, 0, 1, 1, 1, 5, 9] ++ [])
      = .ok (⟨[0], 0, [0], 0, .keys [.mapped ⟨[some [5]], [1, 1, 5, 9]⟩]⟩, 32) := by decide +kernel
  rw [h2] at h1
  simp at h1

/-- The key of `C38_refuted` comes from the API. -/
example : newMappedKey [1, 1, 5, 9] = .ok (⟨[some [5]], [1, 1, 5, 9]⟩, 3) := by decide +kernel

/-- C38 is false also because of nil sub keys: the key with the nil sub key is found before and not found after loading. -/
theorem C38_nil_key_refuted : ¬ MphRoundTrips := by
  intro h
  obtain ⟨t', h1, h3⟩ := h id 1 20 [.key (newSimpleKey none)] true
    ⟨[0], 0, [0], 0, .keys [.key (newSimpleKey none)]⟩
    [1, 0, 0, 0, 1, 0, 0, 0, 0, 0, 0, 0, 0, 0, 0, 0, 1, 0, 0, 0, 0, 0, 0, 0, 0, 0, 0, 0, 1, 1, 0] []
    (fun l => List.Perm.refl l) (by decide) (by decide +kernel) (by decide +kernel) (by decide)
  have h2 : newMphTable ([1, 0, 0, 0, 1, 0, 0, 0, 0, 0, 0, 0, 0, 0, 0, 0, 1, 0, 0, 0, 0, 0, 0, 0, 0, 0, 0, 0, 1, 1, 0] ++ [])
      = .ok (⟨[0], 0, [0], 0, .keys [.mapped ⟨[some []], [1, 0]⟩]⟩, 31) := by decide +kernel
  rw [h2] at h1
  simp only [Res.ok.injEq, Prod.mk.injEq] at h1
  have := h3 (.key (newSimpleKey none))
  rw [← h1.1] at this
  revert this
  decide +kernel

/-- C38 for tables verified by hash: loading the encoded table followed by anything consumes exactly the encoding and yields
the same table, for every hash family. -/
theorem C38_hash_mode_partial (ops : MphOps KeyObj) (order : List (Nat × List Nat) → List (Nat × List Nat))
    (hord : ∀ l, (order l).Perm l) (fuel : Nat) (vs : UInt32) (keys : List KeyObj) (hlen : keys.length ≤ 2 ^ 31)
    (t : MphTable KeyObj) (h : mphBuild ops order fuel vs keys false = .ok t) :
    ∃ enc, t.encode = .ok enc ∧ ∀ rest, newMphTable (enc ++ rest) = .ok (t, enc.length) := by
  have hB := built_of_ok hord h
  have hf := hB.fits32 hlen
  have hv := hB.verify
  simp only [Bool.false_eq_true, if_false] at hv
  refine ⟨0 :: mphHead t ++ be32 vs.toNat ++ be32s (keys.map (ops.hash vs)), ?_, fun rest => ?_⟩
  · rw [encode_eq, hv]
  · exact load_hash_mode t hf vs _ hv (by rw [List.length_map]; omega) rest

example := C38_hash_mode_partial murmurMphOps id (fun l => List.Perm.refl l) 100 20
  [.key (newSimpleKey (some [1])), .key (newSimpleKey (some [2]))] (by decide)
  ⟨[1], 0, [1, 0], 1, .hashes 20 [murmurHash 20 [1], murmurHash 20 [2]]⟩ (by decide +kernel)

/-- C38 for tables verified by key, for keys in sound states: same consumed length and the same result of every Lookup, for
every hash family of byte slices. -/
theorem C38_key_mode_partial (f : UInt32 → Slice → UInt32) (order : List (Nat × List Nat) → List (Nat × List Nat))
    (hord : ∀ l, (order l).Perm l) (fuel : Nat) (vs : UInt32) (keys : List KeyObj) (hlen : keys.length ≤ 2 ^ 31)
    (hs : ∀ k ∈ keys, SoundKey k) (t : MphTable KeyObj) (h : mphBuild (keyMphOps f) order fuel vs keys true = .ok t)
    (enc : Bytes) (he : t.encode = .ok enc) (rest : Bytes) (hb : (enc ++ rest).length ≤ 2 ^ 43) :
    ∃ t', newMphTable (enc ++ rest) = .ok (t', enc.length) ∧
      ∀ s, t'.lookup (keyMphOps f) s = t.lookup (keyMphOps f) s := by
  have hB := built_of_ok hord h
  have hf := hB.fits32 hlen
  have hv := hB.verify
  simp only [if_true] at hv
  rw [encode_eq, hv] at he
  simp only at he
  rw [Res.bind_eq_ok] at he
  obtain ⟨bs, hbs, he⟩ := he
  simp only [Res.ok.injEq] at he
  have := soundKeys_bufs hs hbs
  subst this
  subst he
  refine ⟨_, load_key_mode t hf keys (by omega) rest ?_, fun s => ?_⟩
  · simp only [List.length_append, maxMake24] at hb ⊢; omega
  · unfold MphTable.lookup
    rw [hv]
    simp only
    have hg := loadedKeys_getElem? keys rest (fun k hk => soundKey_nil (hs k hk))
    split
    · rfl
    · split
      · rfl
      · rename_i n _
        have := hg n.toNat
        generalize (loadedKeys keys rest)[n.toNat]? = o1 at this ⊢
        generalize keys[n.toNat]? = o2 at this ⊢
        rcases o1 with - | k1
        · rcases o2 with - | k2
          · rfl
          · simp at this
        · rcases o2 with - | k2
          · simp at this
          · simp only [Option.map_some, Option.some.injEq] at this
            simp only [keyMphOps, KeyObj.equal?_eq, this]

/-- Nine fresh keys are sound, build, encode, and load with trailing bytes. -/
example : (∀ k ∈ nineKeys, SoundKey k) ∧
    (match mphBuild murmurMphOps List.reverse 100 77 nineKeys true with
      | .ok t => match t.encode with
        | .ok enc => match newMphTable (enc ++ [7, 7]) with
          | .ok (_, n) => n == enc.length && enc.length > 100
          | _ => false
        | _ => false
      | _ => false) = true := by
  refine ⟨?_, by decide +kernel⟩
  intro k hk
  simp only [nineKeys, List.mem_map] at hk
  obtain ⟨b, -, rfl⟩ := hk
  exact .fresh _ rfl (by simp [newSimpleKey])

/-- The other states of `SoundKey`. -/
example : SoundKey (.key (newSimpleKey (some [3])).encode.1) ∧ SoundKey (.mapped ⟨[some [3]], [1, 1, 3]⟩) :=
  ⟨.encoded (newSimpleKey (some [3])) _ (by simp [newSimpleKey]) (by decide +kernel),
   .decoded (newSimpleKey (some [3])) (newSimpleKey (some [3])).encode.1 [1, 1, 3] _ 3 (by decide +kernel) (by decide +kernel)
    (by decide +kernel)⟩

/-! ### C39 Perfect hash re-serialization -/

/-- The claim of C39. -/
def MphReencodes : Prop :=
  ∀ (order : List (Nat × List Nat) → List (Nat × List Nat)) (fuel : Nat) (vs : UInt32) (keys : List KeyObj) (byKey : Bool)
    (t t' : MphTable KeyObj) (enc : Bytes) (n : Nat), (∀ l, (order l).Perm l) →
    mphBuild murmurMphOps order fuel vs keys byKey = .ok t → t.encode = .ok enc → newMphTable enc = .ok (t', n) →
    t'.encode = .ok enc

/-- C39 is false: with two simple keys verified by key, the loaded table encodes to more bytes than it was loaded from. -/
theorem C39_refuted : ¬ MphReencodes := by
  intro h
  have hb : ∃ t, mphBuild murmurMphOps id 100 20 [.key (newSimpleKey (some [1])), .key (newSimpleKey (some [2]))] true = .ok t ∧
      ∃ enc, t.encode = .ok enc ∧ ∃ t' n, newMphTable enc = .ok (t', n) ∧ t'.encode ≠ .ok enc := by
    refine ⟨⟨[1], 0, [1, 0], 1, .keys [.key (newSimpleKey (some [1])), .key (newSimpleKey (some [2]))]⟩, by decide +kernel,
      [1, 0, 0, 0, 1, 0, 0, 0, 1, 0, 0, 0, 0, 0, 0, 0, 2, 0, 0, 0, 1, 0, 0, 0, 0, 0, 0, 0, 1, 0, 0, 0, 2, 1, 1, 1, 1, 1, 2],
      by decide +kernel,
      ⟨[1], 0, [1, 0], 1, .keys [.mapped ⟨[some [1]], [1, 1, 1, 1, 1, 2]⟩, .mapped ⟨[some [2]], [1, 1, 2]⟩]⟩, 39,
      by decide +kernel, by decide +kernel⟩
  obtain ⟨t, h1, enc, h2, t', n, h3, h4⟩ := hb
  exact h4 (h id 100 20 _ true t t' enc n (fun l => List.Perm.refl l) h1 h2 h3)

/-- C39 for tables verified by hash, and for every byte string that loads in hash mode (not only encodings of built
tables): the loaded table encodes to exactly the consumed bytes. -/
theorem C39_hash_mode_partial (r : Bytes) (t : MphTable KeyObj) (n : Nat) (h : newMphTable (0 :: r) = .ok (t, n)) :
    t.encode = .ok ((0 :: r).take n) := by
  obtain ⟨seed, hs, rest, hf, hv, hl, e, rfl⟩ := load_hash_mode_inv h
  rw [encode_eq, hv, e, List.take_left]

example : newMphTable (0 :: [0, 0, 0, 1, 0, 0, 0, 9, 0, 0, 0, 0, 0, 0, 0, 1, 0, 0, 0, 0, 0, 0, 0, 0, 0, 0, 0, 20, 0, 0, 0, 1, 1, 2, 3, 4,
    99]) = .ok (⟨[9], 0, [0], 0, .hashes 20 [0x01020304]⟩, 37) := by decide +kernel

theorem keyBytes_ne_nil (ks : List Slice) : keyBytes ks ≠ [] := by
  intro h0
  have : putUvarint ks.length = [] := by
    have := congrArg List.length h0
    simp only [keyBytes, encodeUvarint64, List.length_append, List.length_nil] at this
    exact List.length_eq_zero_iff.mp (by omega)
  simp only [putUvarint] at this
  unfold putUvarintAux at this
  split at this <;> simp at this

theorem loadedKeys_bufs : ∀ (ks : List KeyObj) (rest : Bytes), ∃ w, mphKeyBufs (loadedKeys ks rest) = .ok w ∧
    (ks.flatMap fun k => keyBytes k.subKeys).length ≤ w.length ∧
    (rest = [] → (w = (ks.flatMap fun k => keyBytes k.subKeys) ↔ ∀ k ∈ ks.dropLast, k.subKeys = []))
  | [], rest => ⟨[], rfl, by simp, by simp⟩
  | k :: ks, rest => by
    obtain ⟨w, h1, h2, h3⟩ := loadedKeys_bufs ks rest
    have hne := keyBytes_ne_nil k.subKeys
    have hb : mphKeyBuf (.mapped ⟨k.subKeys.map fun s => some s.bytes,
        keyBytes k.subKeys ++ ((ks.flatMap fun k => keyBytes k.subKeys) ++ rest)⟩) = .ok (if k.subKeys = [] then keyBytes k.subKeys
        else keyBytes k.subKeys ++ ((ks.flatMap fun k => keyBytes k.subKeys) ++ rest)) := by
      simp only [mphKeyBuf, KeyObj.isEncoded, if_true, KeyObj.getBuf, MappedKey.getBuf, Res.ok.injEq]
      by_cases hk : k.subKeys = []
      · rw [if_pos hk, if_pos (by simp [MappedKey.isEmpty, hk]), hk]; rfl
      · have h1 : (keyBytes k.subKeys ++ ((ks.flatMap fun k => keyBytes k.subKeys) ++ rest)).isEmpty = false := by
          rw [List.isEmpty_eq_false_iff]; simp [hne]
        have h2 : (k.subKeys.map fun s => some s.bytes).isEmpty = false := by
          rw [List.isEmpty_eq_false_iff]; simpa using hk
        rw [if_neg hk, if_neg]
        simp only [MappedKey.isEmpty, h1, h2]; decide
    refine ⟨_, by rw [loadedKeys, mphKeyBufs, hb, Res.bind_ok, h1, Res.bind_ok], ?_, ?_⟩
    · rw [List.flatMap_cons, List.length_append]
      split <;> simp only [List.length_append] <;> omega
    · rintro rfl
      rw [List.flatMap_cons]
      by_cases hk : k.subKeys = []
      · rw [if_pos hk, List.append_right_inj, h3 rfl]
        rcases ks with - | ⟨k2, ks⟩
        · simp
        · simp [hk]
      · rw [if_neg hk, List.append_nil]
        rcases ks with - | ⟨k2, ks⟩
        · simp only [loadedKeys, mphKeyBufs, Res.ok.injEq] at h1
          subst h1
          simp
        · constructor
          · intro e
            have := congrArg List.length e
            rw [List.flatMap_cons, List.length_append] at h2
            simp only [List.flatMap_cons, List.length_append] at this
            have hp := List.length_pos_iff.mpr (keyBytes_ne_nil k2.subKeys)
            omega
          · intro h
            exact absurd (h k (by simp)) hk

/-- C39 for tables verified by key, exactly: for keys in sound states the loaded table always encodes, and it encodes to the
same bytes if and only if every key except the last one is the empty key (so with at most one key, but in general not with
two or more). -/
theorem C39_key_mode_partial (f : UInt32 → Slice → UInt32) (order : List (Nat × List Nat) → List (Nat × List Nat))
    (hord : ∀ l, (order l).Perm l) (fuel : Nat) (vs : UInt32) (keys : List KeyObj) (hlen : keys.length ≤ 2 ^ 31)
    (hs : ∀ k ∈ keys, SoundKey k) (t : MphTable KeyObj) (h : mphBuild (keyMphOps f) order fuel vs keys true = .ok t)
    (enc : Bytes) (he : t.encode = .ok enc) (hb : enc.length ≤ 2 ^ 43) :
    ∃ t' enc', newMphTable enc = .ok (t', enc.length) ∧ t'.encode = .ok enc' ∧
      (enc' = enc ↔ ∀ k ∈ keys.dropLast, k.subKeys = []) := by
  have hB := built_of_ok hord h
  have hf := hB.fits32 hlen
  have hv := hB.verify
  simp only [if_true] at hv
  rw [encode_eq, hv] at he
  simp only at he
  rw [Res.bind_eq_ok] at he
  obtain ⟨bs, hbs, he⟩ := he
  simp only [Res.ok.injEq] at he
  have := soundKeys_bufs hs hbs
  subst this
  subst he
  obtain ⟨w, h1, -, h3⟩ := loadedKeys_bufs keys []
  have hload := load_key_mode t hf keys (by omega) [] (by
    simp only [List.length_append, maxMake24, List.length_nil] at hb ⊢; omega)
  rw [List.append_nil] at hload
  refine ⟨_, 1 :: mphHead t ++ be32 keys.length ++ w, hload, ?_, ?_⟩
  · rw [encode_eq]
    simp only [h1, Res.bind_ok]
    have hll : ∀ (l : List KeyObj) (r : Bytes), (loadedKeys l r).length = l.length := by
      intro l r
      induction l with
      | nil => rfl
      | cons a l ih => simp [loadedKeys, ih]
    rw [hll]
    rfl
  · rw [List.append_right_inj, h3 rfl]

example := C39_key_mode_partial (fun seed s => murmurHash seed s.bytes) id (fun l => List.Perm.refl l) 100 20
  [.key (newSimpleKey (some [1])), .key (newSimpleKey (some [2]))] (by decide)
  (by simp only [List.mem_cons, List.not_mem_nil, or_false, forall_eq_or_imp, forall_eq]
      exact ⟨.fresh _ rfl (by simp [newSimpleKey]), .fresh _ rfl (by simp [newSimpleKey])⟩)
  ⟨[1], 0, [1, 0], 1, .keys [.key (newSimpleKey (some [1])), .key (newSimpleKey (some [2]))]⟩ (by decide +kernel)
  [1, 0, 0, 0, 1, 0, 0, 0, 1, 0, 0, 0, 0, 0, 0, 0, 2, 0, 0, 0, 1, 0, 0, 0, 0, 0, 0, 0, 1, 0, 0, 0, 2, 1, 1, 1, 1, 1, 2]
  (by decide +kernel) (by decide)

/-! ### C40 Perfect hash loader rejects truncation without crashing -/

/-- C40: on every byte string that does not announce key mode, NewMPHTable does not panic. -/
theorem C40_no_panic (buf : Bytes) (h : buf.head? ≠ some 1) : newMphTable buf ≠ .panic := by
  rcases buf with - | ⟨magic, r⟩
  · simp [newMphTable]
  · exact load_hash_mode_ne_panic r magic (by simpa using h)

example := C40_no_panic [0, 0, 0, 0, 1, 7] (by decide)

/-- C40: NewMPHTable consumes no more than the buffer, and the result depends only on the consumed bytes. -/
theorem C40_in_bounds (r : Bytes) (t : MphTable KeyObj) (n : Nat) (h : newMphTable (0 :: r) = .ok (t, n)) :
    n ≤ (0 :: r).length ∧ ∀ rest, newMphTable ((0 :: r).take n ++ rest) = .ok (t, n) := by
  obtain ⟨seed, hs, rest, hf, hv, hl, e, rfl⟩ := load_hash_mode_inv h
  rw [e, List.take_left]
  refine ⟨by simp only [List.length_append]; omega, fun rest' => load_hash_mode t hf seed hs hv hl rest'⟩

example := C40_in_bounds [0, 0, 0, 1, 0, 0, 0, 9, 0, 0, 0, 0, 0, 0, 0, 1, 0, 0, 0, 0, 0, 0, 0, 0, 0, 0, 0, 20, 0, 0, 0, 1, 1, 2, 3, 4, 99]
  ⟨[9], 0, [0], 0, .hashes 20 [0x01020304]⟩ 37 (by decide +kernel)

/-- C40: every strict prefix of the bytes consumed by a successful hash-mode load is rejected with an error. -/
theorem C40_strict_prefix (r : Bytes) (t : MphTable KeyObj) (n : Nat) (h : newMphTable (0 :: r) = .ok (t, n)) (m : Nat) (hm : m < n) :
    newMphTable ((0 :: r).take m) = .err := by
  obtain ⟨hn, hrest⟩ := C40_in_bounds r t n h
  rcases m with - | m
  · simp [newMphTable]
  · rcases h' : newMphTable ((0 :: r).take (m + 1)) with ⟨t', n'⟩ | - | -
    · rw [List.take_succ_cons] at h'
      obtain ⟨hn', hrest'⟩ := C40_in_bounds _ t' n' h'
      have := hrest' ((0 :: r).drop n')
      rw [← List.take_succ_cons, List.take_take] at this
      rw [← List.take_succ_cons, List.length_take] at hn'
      have hmin : min n' (m + 1) = n' := by omega
      rw [hmin, List.take_append_drop, h, Res.ok.injEq, Prod.mk.injEq] at this
      omega
    · rfl
    · exact absurd h' (C40_no_panic _ (by simp [List.take_succ_cons]))

example := C40_strict_prefix [0, 0, 0, 1, 0, 0, 0, 9, 0, 0, 0, 0, 0, 0, 0, 1, 0, 0, 0, 0, 0, 0, 0, 0, 0, 0, 0, 20, 0, 0, 0, 1, 1, 2, 3, 4, 99]
  ⟨[9], 0, [0], 0, .hashes 20 [0x01020304]⟩ 37 (by decide +kernel) 36 (by decide)

/-- C40: every strict prefix of an encoded hash-mode table is rejected with an error. -/
theorem C40_truncated_rejected (ops : MphOps KeyObj) (order : List (Nat × List Nat) → List (Nat × List Nat))
    (hord : ∀ l, (order l).Perm l) (fuel : Nat) (vs : UInt32) (keys : List KeyObj) (hlen : keys.length ≤ 2 ^ 31)
    (t : MphTable KeyObj) (h : mphBuild ops order fuel vs keys false = .ok t) (enc : Bytes) (he : t.encode = .ok enc)
    (m : Nat) (hm : m < enc.length) : newMphTable (enc.take m) = .err := by
  have hv := (built_of_ok hord h).verify
  simp only [Bool.false_eq_true, if_false] at hv
  obtain ⟨enc', h1, h2⟩ := C38_hash_mode_partial ops order hord fuel vs keys hlen t h
  rw [he, Res.ok.injEq] at h1
  subst h1
  have h3 := h2 []
  rw [List.append_nil] at h3
  rw [encode_eq, hv, Res.ok.injEq] at he
  subst he
  rw [List.cons_append, List.cons_append] at h3 hm ⊢
  exact C40_strict_prefix _ t _ h3 m hm

example : (List.range 37).all (fun m => newMphTable ((0 :: [0, 0, 0, 1, 0, 0, 0, 9, 0, 0, 0, 0, 0, 0, 0, 1, 0, 0, 0, 0, 0, 0, 0, 0, 0, 0,
    0, 20, 0, 0, 0, 1, 1, 2, 3, 4, 99]).take m) == .err) = true := by decide +kernel

end Poodle.Props
