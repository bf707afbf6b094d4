import Verif.Props.MphFit
import Verif.Props.MphCodec
import Verif.Props.Key

/-
Property C220: the size of an encoded perfect hash table (/repo/src/util/mph_util.go:191-266, :270-352).
-/

namespace Poodle.Props
open Poodle Poodle.Spec

/-! ### C220 The size of an encoded perfect hash -/

theorem be32s_length (l : List UInt32) : (be32s l).length = 4 + 4 * l.length := by
  have : (l.flatMap fun x => be32 x.toNat).length = 4 * l.length := by
    induction l with
    | nil => rfl
    | cons x l ih => rw [List.flatMap_cons, List.length_append, ih, be32_length, List.length_cons]; omega
  rw [be32s, List.length_append, this, be32_length]

theorem builtHead_length {K : Type} {ops : MphOps K} {vs : UInt32} {keys : List K} {byKey : Bool} {t : MphTable K}
    (h : Built ops vs keys byKey t) :
    (mphHead t).length = 16 + 4 * (powerAbove (keys.length / 4) + powerAbove keys.length) := by
  simp only [mphHead, List.length_append, be32s_length, be32_length]
  rw [h.len0, h.len1, h.size0, h.size1, nextPow2_eq, nextPow2_eq]
  omega

theorem powerAbove_le (n : Nat) : powerAbove n ≤ 2 * n + 1 ∧ (n ≠ 0 → powerAbove n < 2 * n) ∧ n ≤ powerAbove n := by
  obtain ⟨k, e, h1, h2⟩ := nextPow2_spec n
  rw [nextPow2_eq] at e
  rw [e]
  rcases h2 with rfl | h2
  · simp only [Nat.pow_zero] at h1 ⊢; omega
  · omega

/-- C220, tables verified by hash: `25 + 4 (a + b + n)` bytes for `n` keys, where `a` and `b` are the next powers of two above `n / 4` and
`n`; so fewer than 14 bytes per key and 34 more, and more than 8 bytes per key, whatever the keys are. -/
theorem C220_hash_mode (ops : MphOps KeyObj) (order : List (Nat × List Nat) → List (Nat × List Nat))
    (hord : ∀ l, (order l).Perm l) (fuel : Nat) (vs : UInt32) (keys : List KeyObj)
    (t : MphTable KeyObj) (h : mphBuild ops order fuel vs keys false = .ok t) :
    ∃ enc, t.encode = .ok enc ∧ enc.length = 25 + 4 * (powerAbove (keys.length / 4) + powerAbove keys.length + keys.length) ∧
      enc.length ≤ 14 * keys.length + 33 ∧ 8 * keys.length < enc.length := by
  have hB := built_of_ok hord h
  have hv := hB.verify
  simp only [Bool.false_eq_true, if_false] at hv
  have hlen : (0 :: mphHead t ++ be32 vs.toNat ++ be32s (keys.map (ops.hash vs))).length =
      25 + 4 * (powerAbove (keys.length / 4) + powerAbove keys.length + keys.length) := by
    simp only [List.length_append, List.length_cons, be32s_length, be32_length, builtHead_length hB, List.length_map]
    omega
  refine ⟨_, by rw [encode_eq, hv], hlen, ?_⟩
  rw [hlen]
  have h1 := powerAbove_le (keys.length / 4)
  have h2 := powerAbove_le keys.length
  omega

example := C220_hash_mode murmurMphOps id (fun l => List.Perm.refl l) 100 20
  [.key (newSimpleKey (some [1])), .key (newSimpleKey (some [2]))]
  ⟨[1], 0, [1, 0], 1, .hashes 20 [murmurHash 20 [1], murmurHash 20 [2]]⟩ (by decide +kernel)

theorem mphKeyBufs_fresh (ks : List Key) (hk : ∀ k ∈ ks, k.encoded = false ∧ k.keys.length < 2 ^ 63 ∧ ∀ s ∈ k.keys, s.bytes.length < 2 ^ 63)
    (bs : Bytes) (h : mphKeyBufs (ks.map .key) = .ok bs) : bs.length = (ks.map fun k => keySize (k.keys.map Slice.bytes)).sum := by
  induction ks generalizing bs with
  | nil =>
    simp only [List.map_nil, mphKeyBufs, Res.ok.injEq] at h
    subst h; rfl
  | cons k ks ih =>
    simp only [List.map_cons, mphKeyBufs] at h
    rw [Res.bind_eq_ok] at h
    obtain ⟨b, hb, h⟩ := h
    rw [Res.bind_eq_ok] at h
    obtain ⟨cs, hcs, h⟩ := h
    simp only [Res.ok.injEq] at h
    subst h
    have ih := ih (fun k hk' => hk k (by simp [hk'])) cs hcs
    obtain ⟨he, hn, hs⟩ := hk k (by simp)
    have hb' : b.length = keySize (k.keys.map Slice.bytes) := by
      obtain ⟨-, -, h3⟩ := C08_key_size_limit k hn hs
      simp only [mphKeyBuf, KeyObj.isEncoded, he, Bool.false_eq_true, if_false, KeyObj.encode] at hb
      cases hc : k.encode with
      | mk k' ok =>
        rw [hc] at hb h3
        cases ok with
        | false => simp at hb
        | true =>
          obtain ⟨-, -, w, hw, -, hl, -⟩ := h3 rfl
          simp only [KeyObj.getBuf] at hb
          rw [hw] at hb
          cases hb
          exact hl
    rw [List.length_append, ih, hb', List.map_cons, List.sum_cons]

/-- C220, tables verified by key, built from keys not encoded before: the keys themselves and fewer than 10 bytes per key besides. -/
theorem C220_key_mode (ops : MphOps KeyObj) (order : List (Nat × List Nat) → List (Nat × List Nat))
    (hord : ∀ l, (order l).Perm l) (fuel : Nat) (vs : UInt32) (ks : List Key)
    (hk : ∀ k ∈ ks, k.encoded = false ∧ k.keys.length < 2 ^ 63 ∧ ∀ s ∈ k.keys, s.bytes.length < 2 ^ 63)
    (t : MphTable KeyObj) (h : mphBuild ops order fuel vs (ks.map .key) true = .ok t) (enc : Bytes) (he : t.encode = .ok enc) :
    enc.length = 21 + 4 * (powerAbove (ks.length / 4) + powerAbove ks.length) + (ks.map fun k => keySize (k.keys.map Slice.bytes)).sum ∧
      enc.length ≤ 10 * ks.length + 29 + (ks.map fun k => keySize (k.keys.map Slice.bytes)).sum := by
  have hB := built_of_ok hord h
  have hv := hB.verify
  simp only [if_true] at hv
  rw [encode_eq, hv] at he
  simp only at he
  rw [Res.bind_eq_ok] at he
  obtain ⟨bs, hbs, he⟩ := he
  simp only [Res.ok.injEq] at he
  have hb := mphKeyBufs_fresh ks hk bs hbs
  have hh := builtHead_length hB
  rw [List.length_map] at hh
  have hlen : enc.length = 21 + 4 * (powerAbove (ks.length / 4) + powerAbove ks.length) + (ks.map fun k => keySize (k.keys.map Slice.bytes)).sum := by
    rw [← he, ← hb]
    simp only [List.length_append, List.length_cons, be32_length, hh]
    omega
  refine ⟨hlen, ?_⟩
  have h1 := powerAbove_le (ks.length / 4)
  have h2 := powerAbove_le ks.length
  omega

example := C220_key_mode murmurMphOps id (fun l => List.Perm.refl l) 100 20 [newSimpleKey (some [1]), newSimpleKey (some [2])]
  (by decide +kernel) ⟨[1], 0, [1, 0], 1, .keys [.key (newSimpleKey (some [1])), .key (newSimpleKey (some [2]))]⟩ (by decide +kernel)
  (1 :: be32s [1] ++ be32 0 ++ be32s [1, 0] ++ be32 1 ++ be32 2 ++ [1, 1, 1, 1, 1, 2]) (by decide +kernel)

theorem mphKeyBufs_parts (ks : List KeyObj) (bs : Bytes) (h : mphKeyBufs ks = .ok bs) :
    ∃ bufs : List Bytes, ks.map mphKeyBuf = bufs.map .ok ∧ bs = bufs.flatten := by
  induction ks generalizing bs with
  | nil =>
    simp only [mphKeyBufs, Res.ok.injEq] at h
    subst h
    exact ⟨[], rfl, rfl⟩
  | cons k ks ih =>
    simp only [mphKeyBufs] at h
    rw [Res.bind_eq_ok] at h
    obtain ⟨b, hb, h⟩ := h
    rw [Res.bind_eq_ok] at h
    obtain ⟨cs, hcs, h⟩ := h
    simp only [Res.ok.injEq] at h
    subst h
    obtain ⟨bufs, e1, e2⟩ := ih cs hcs
    exact ⟨b :: bufs, by simp [hb, e1], by simp [e2]⟩

/-- C220, tables verified by key, built from any keys, encoded before, decoded or not: the bytes of the keys, one after the other, and
fewer than 10 bytes per key besides. -/
theorem C220_any_keys (ops : MphOps KeyObj) (order : List (Nat × List Nat) → List (Nat × List Nat))
    (hord : ∀ l, (order l).Perm l) (fuel : Nat) (vs : UInt32) (keys : List KeyObj)
    (t : MphTable KeyObj) (h : mphBuild ops order fuel vs keys true = .ok t) (enc : Bytes) (he : t.encode = .ok enc) :
    ∃ bufs : List Bytes, keys.map mphKeyBuf = bufs.map .ok ∧ bufs.flatten <:+ enc ∧
      enc.length = 21 + 4 * (powerAbove (keys.length / 4) + powerAbove keys.length) + bufs.flatten.length ∧
      enc.length ≤ 10 * keys.length + 29 + bufs.flatten.length := by
  have hB := built_of_ok hord h
  have hv := hB.verify
  simp only [if_true] at hv
  rw [encode_eq, hv] at he
  simp only at he
  rw [Res.bind_eq_ok] at he
  obtain ⟨bs, hbs, he⟩ := he
  simp only [Res.ok.injEq] at he
  obtain ⟨bufs, e1, rfl⟩ := mphKeyBufs_parts keys bs hbs
  have hh := builtHead_length hB
  have hlen : enc.length = 21 + 4 * (powerAbove (keys.length / 4) + powerAbove keys.length) + bufs.flatten.length := by
    rw [← he]
    simp only [List.length_append, List.length_cons, be32_length, hh]
    omega
  refine ⟨bufs, e1, he ▸ List.suffix_append _ _, hlen, ?_⟩
  have h1 := powerAbove_le (keys.length / 4)
  have h2 := powerAbove_le keys.length
  omega

example := C220_any_keys murmurMphOps id (fun l => List.Perm.refl l) 100 20
  [.key (newSimpleKey (some [1])), .key (newSimpleKey (some [2])).encode.1]
  ⟨[1], 0, [1, 0], 1, .keys [.key (newSimpleKey (some [1])), .key (newSimpleKey (some [2])).encode.1]⟩ (by decide +kernel)
  (1 :: be32s [1] ++ be32 0 ++ be32s [1, 0] ++ be32 1 ++ be32 2 ++ [1, 1, 1, 1, 1, 2]) (by decide +kernel)

end Poodle.Props
