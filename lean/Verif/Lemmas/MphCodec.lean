import Verif.Lemmas.Mph
import Verif.Lemmas.Key

/-
Lemmas about the serialization of perfect hash tables.
-/

namespace Poodle
open Spec

set_option linter.unusedSimpArgs false

theorem be32_length (n : Nat) : (be32 n).length = 4 := rfl

theorem readU32_be32 (n : Nat) (rest : Bytes) : readU32 (be32 n ++ rest) = .ok (n % 2 ^ 32, rest) := by
  simp only [be32, List.cons_append, List.nil_append, readU32, UInt8.toNat_ofNat', Res.ok.injEq, Prod.mk.injEq, and_true]
  omega

theorem readU32_ok {buf : Bytes} {n : Nat} {r : Bytes} (h : readU32 buf = .ok (n, r)) : n < 2 ^ 32 ∧ buf = be32 n ++ r := by
  match buf, h with
  | a :: b :: c :: d :: rest, h =>
    simp only [readU32, Res.ok.injEq, Prod.mk.injEq] at h
    obtain ⟨rfl, rfl⟩ := h
    have ha := a.toNat_lt
    have hb := b.toNat_lt
    have hc := c.toNat_lt
    have hd := d.toNat_lt
    refine ⟨by omega, ?_⟩
    simp only [be32, List.cons_append, List.nil_append, List.cons.injEq, and_true]
    refine ⟨?_, ?_, ?_, ?_⟩ <;> apply UInt8.toNat_inj.mp <;> rw [UInt8.toNat_ofNat'] <;> omega
  | [], h => simp [readU32] at h
  | [_], h => simp [readU32] at h
  | [_, _], h => simp [readU32] at h
  | [_, _, _], h => simp [readU32] at h

theorem readU32_ne_panic (buf : Bytes) : readU32 buf ≠ .panic := by
  match buf with
  | a :: b :: c :: d :: rest => simp [readU32]
  | [] => simp [readU32]
  | [_] => simp [readU32]
  | [_, _] => simp [readU32]
  | [_, _, _] => simp [readU32]

/-- The concatenated elements. -/
def be32Elems (l : List UInt32) : Bytes := l.flatMap fun x => be32 x.toNat

theorem be32Elems_length (l : List UInt32) : (be32Elems l).length = 4 * l.length := by
  induction l with
  | nil => rfl
  | cons x l ih =>
    simp only [be32Elems, List.flatMap_cons, List.length_append, List.length_cons] at *
    rw [ih, be32_length]; omega

theorem readU32sLoop_elems (l : List UInt32) (rest : Bytes) : readU32sLoop l.length (be32Elems l ++ rest) = .ok (l, rest) := by
  induction l with
  | nil => rfl
  | cons x l ih =>
    rw [List.length_cons, readU32sLoop, be32Elems, List.flatMap_cons, List.append_assoc, readU32_be32, Res.bind_ok]
    simp only
    rw [← be32Elems, ih, Res.bind_ok]
    have hx : UInt32.ofNat (x.toNat % 2 ^ 32) = x := by
      apply UInt32.toNat_inj.mp
      rw [UInt32.toNat_ofNat', Nat.mod_mod, Nat.mod_eq_of_lt x.toNat_lt]
    rw [hx]

theorem readU32s_elems (l : List UInt32) (rest : Bytes) : readU32s l.length (be32Elems l ++ rest) = .ok (l, rest) := by
  rw [readU32s, if_neg, readU32sLoop_elems]
  rw [List.length_append, be32Elems_length]; omega

theorem readU32sLoop_ok : ∀ {n : Nat} {buf : Bytes} {l : List UInt32} {r : Bytes}, readU32sLoop n buf = .ok (l, r) →
    l.length = n ∧ buf = be32Elems l ++ r
  | 0, buf, l, r, h => by
    simp only [readU32sLoop, Res.ok.injEq, Prod.mk.injEq] at h
    obtain ⟨rfl, rfl⟩ := h
    exact ⟨rfl, rfl⟩
  | n + 1, buf, l, r, h => by
    rw [readU32sLoop, Res.bind_eq_ok] at h
    obtain ⟨⟨x, b⟩, h1, h2⟩ := h
    simp only at h2
    rw [Res.bind_eq_ok] at h2
    obtain ⟨⟨xs, b'⟩, h3, h4⟩ := h2
    simp only [Res.ok.injEq, Prod.mk.injEq] at h4
    obtain ⟨rfl, rfl⟩ := h4
    obtain ⟨hx, e1⟩ := readU32_ok h1
    obtain ⟨hl, e2⟩ := readU32sLoop_ok h3
    subst e1 e2
    refine ⟨by simp [hl], ?_⟩
    simp only [be32Elems, List.flatMap_cons, UInt32.toNat_ofNat', Nat.mod_eq_of_lt hx, List.append_assoc]

theorem readU32s_ok {n : Nat} {buf : Bytes} {l : List UInt32} {r : Bytes} (h : readU32s n buf = .ok (l, r)) :
    l.length = n ∧ buf = be32Elems l ++ r := by
  rw [readU32s] at h
  split at h
  · simp at h
  · exact readU32sLoop_ok h

theorem readU32sLoop_ne_panic (n : Nat) (buf : Bytes) : readU32sLoop n buf ≠ .panic := by
  induction n generalizing buf with
  | zero => simp [readU32sLoop]
  | succ n ih =>
    rw [readU32sLoop]
    rcases h : readU32 buf with ⟨x, b⟩ | - | -
    · simp only [Res.bind_ok]
      rcases h' : readU32sLoop n b with ⟨xs, b'⟩ | - | -
      · simp
      · simp
      · exact absurd h' (ih b)
    · simp
    · exact absurd h (readU32_ne_panic buf)

theorem readU32s_ne_panic (n : Nat) (buf : Bytes) : readU32s n buf ≠ .panic := by
  rw [readU32s]
  split
  · simp
  · exact readU32sLoop_ne_panic n buf

/-- Fields fit into 32 bits. -/
structure MphFits32 {K : Type} (t : MphTable K) : Prop where
  l0 : t.level0.length < 2 ^ 32
  m0 : t.level0Mask < 2 ^ 32
  l1 : t.level1.length < 2 ^ 32
  m1 : t.level1Mask < 2 ^ 32

/-- The common part of the serialized form. -/
def mphHead {K : Type} (t : MphTable K) : Bytes := be32s t.level0 ++ be32 t.level0Mask ++ be32s t.level1 ++ be32 t.level1Mask

theorem encode_eq (t : MphTable KeyObj) : t.encode = match t.verify with
    | .keys ks => (mphKeyBufs ks) >>= fun bs => .ok (1 :: mphHead t ++ be32 ks.length ++ bs)
    | .hashes seed hs => .ok (0 :: mphHead t ++ be32 seed.toNat ++ be32s hs) := rfl

/-- Loading after the head. -/
def loadTail (magic : UInt8) (l0 : List UInt32) (m0 : Nat) (l1 : List UInt32) (m1 : Nat) (len : Nat) (r : Bytes) :
    Res (MphTable KeyObj × Nat) :=
  if magic = 1 then do
    let (nk, r) ← readU32 r
    let (ks, r) ← loadKeys nk r
    .ok (⟨l0, m0, l1, m1, .keys ks⟩, len - r.length)
  else do
    let (vs, r) ← readU32 r
    let (nh, r) ← readU32 r
    let (hs, r) ← readU32s nh r
    .ok (⟨l0, m0, l1, m1, .hashes (UInt32.ofNat vs) hs⟩, len - r.length)

theorem load_head {K : Type} (t : MphTable K) (h : MphFits32 t) (magic : UInt8) (hm : magic = 0 ∨ magic = 1) (r : Bytes) :
    newMphTable (magic :: mphHead t ++ r) =
      loadTail magic t.level0 t.level0Mask t.level1 t.level1Mask (magic :: mphHead t ++ r).length r := by
  have hm' : ¬ (magic ≠ 0 ∧ magic ≠ 1) := by rintro ⟨h1, h2⟩; rcases hm with rfl | rfl <;> contradiction
  have e : mphHead t ++ r = be32 t.level0.length ++ (be32Elems t.level0 ++ (be32 t.level0Mask ++ (be32 t.level1.length ++
      (be32Elems t.level1 ++ (be32 t.level1Mask ++ r))))) := by
    simp [mphHead, be32s, be32Elems]
  rw [List.cons_append, newMphTable, if_neg hm', e, readU32_be32, Res.bind_ok]
  simp only
  rw [Nat.mod_eq_of_lt h.l0, readU32s_elems, Res.bind_ok]
  simp only
  rw [readU32_be32, Res.bind_ok]
  simp only
  rw [readU32_be32, Res.bind_ok]
  simp only
  rw [Nat.mod_eq_of_lt h.l1, readU32s_elems, Res.bind_ok]
  simp only
  rw [readU32_be32, Res.bind_ok]
  simp only [Nat.mod_eq_of_lt h.m0, Nat.mod_eq_of_lt h.m1]
  rfl

/-- Every successful load has this form. -/
theorem load_head_inv {buf : Bytes} {t : MphTable KeyObj} {n : Nat} (h : newMphTable buf = .ok (t, n)) :
    ∃ magic r, (magic = 0 ∨ magic = 1) ∧ buf = magic :: mphHead t ++ r ∧ MphFits32 t ∧
      loadTail magic t.level0 t.level0Mask t.level1 t.level1Mask buf.length r = .ok (t, n) := by
  rcases buf with - | ⟨magic, r⟩
  · simp [newMphTable] at h
  · rw [newMphTable] at h
    split at h
    · simp at h
    · rename_i hm
      have hm : magic = 0 ∨ magic = 1 := by by_contra hc; push Not at hc; exact hm hc
      rw [Res.bind_eq_ok] at h
      obtain ⟨⟨n0, r1⟩, h1, h⟩ := h
      simp only at h
      rw [Res.bind_eq_ok] at h
      obtain ⟨⟨l0, r2⟩, h2, h⟩ := h
      simp only at h
      rw [Res.bind_eq_ok] at h
      obtain ⟨⟨m0, r3⟩, h3, h⟩ := h
      simp only at h
      rw [Res.bind_eq_ok] at h
      obtain ⟨⟨n1, r4⟩, h4, h⟩ := h
      simp only at h
      rw [Res.bind_eq_ok] at h
      obtain ⟨⟨l1, r5⟩, h5, h⟩ := h
      simp only at h
      rw [Res.bind_eq_ok] at h
      obtain ⟨⟨m1, r6⟩, h6, h⟩ := h
      simp only at h
      obtain ⟨b1, e1⟩ := readU32_ok h1
      obtain ⟨b2, e2⟩ := readU32s_ok h2
      obtain ⟨b3, e3⟩ := readU32_ok h3
      obtain ⟨b4, e4⟩ := readU32_ok h4
      obtain ⟨b5, e5⟩ := readU32s_ok h5
      obtain ⟨b6, e6⟩ := readU32_ok h6
      have hf : t.level0 = l0 ∧ t.level0Mask = m0 ∧ t.level1 = l1 ∧ t.level1Mask = m1 := by
        split at h
        · rw [Res.bind_eq_ok] at h
          obtain ⟨⟨nk, r7⟩, h7, h⟩ := h
          simp only at h
          rw [Res.bind_eq_ok] at h
          obtain ⟨⟨ks, r8⟩, h8, h⟩ := h
          simp only [Res.ok.injEq, Prod.mk.injEq] at h
          rw [← h.1]
          exact ⟨rfl, rfl, rfl, rfl⟩
        · rw [Res.bind_eq_ok] at h
          obtain ⟨⟨nk, r7⟩, h7, h⟩ := h
          simp only at h
          rw [Res.bind_eq_ok] at h
          obtain ⟨⟨ks, r8⟩, h8, h⟩ := h
          simp only at h
          rw [Res.bind_eq_ok] at h
          obtain ⟨⟨hs, r9⟩, h9, h⟩ := h
          simp only [Res.ok.injEq, Prod.mk.injEq] at h
          rw [← h.1]
          exact ⟨rfl, rfl, rfl, rfl⟩
      obtain ⟨f1, f2, f3, f4⟩ := hf
      refine ⟨magic, r6, hm, ?_, ⟨by rw [f1]; omega, by rw [f2]; omega, by rw [f3]; omega, by rw [f4]; omega⟩, ?_⟩
      · rw [e1, e2, e3, e4, e5, e6]
        simp only [mphHead, be32s, f1, f2, f3, f4, b2, b5, List.append_assoc, List.cons_append]
        rfl
      · rw [f1, f2, f3, f4]
        exact h

/-! ### Hash mode -/

theorem load_hash_mode (t : MphTable KeyObj) (h : MphFits32 t) (seed : UInt32) (hs : List UInt32) (hv : t.verify = .hashes seed hs)
    (hl : hs.length < 2 ^ 32) (rest : Bytes) :
    newMphTable (0 :: mphHead t ++ be32 seed.toNat ++ be32s hs ++ rest)
      = .ok (t, (0 :: mphHead t ++ be32 seed.toNat ++ be32s hs).length) := by
  have e : 0 :: mphHead t ++ be32 seed.toNat ++ be32s hs ++ rest =
      0 :: mphHead t ++ (be32 seed.toNat ++ (be32 hs.length ++ (be32Elems hs ++ rest))) := by
    simp [be32s, be32Elems]
  rw [e, load_head t h 0 (Or.inl rfl), loadTail, if_neg (by decide), readU32_be32, Res.bind_ok]
  simp only
  rw [readU32_be32, Res.bind_ok]
  simp only
  rw [Nat.mod_eq_of_lt hl, readU32s_elems, Res.bind_ok]
  simp only [Res.ok.injEq, Prod.mk.injEq]
  constructor
  · have hx : UInt32.ofNat (seed.toNat % 2 ^ 32) = seed := by
      apply UInt32.toNat_inj.mp
      rw [UInt32.toNat_ofNat', Nat.mod_mod, Nat.mod_eq_of_lt seed.toNat_lt]
    rw [hx, ← hv]
  · simp only [be32s, List.length_append, List.length_cons, be32Elems]; omega

theorem load_hash_mode_inv {r : Bytes} {t : MphTable KeyObj} {n : Nat} (h : newMphTable (0 :: r) = .ok (t, n)) :
    ∃ seed hs rest, MphFits32 t ∧ t.verify = .hashes seed hs ∧ hs.length < 2 ^ 32 ∧
      0 :: r = 0 :: mphHead t ++ be32 seed.toNat ++ be32s hs ++ rest ∧
      n = (0 :: mphHead t ++ be32 seed.toNat ++ be32s hs).length := by
  obtain ⟨magic, r', hm, e, hf, ht⟩ := load_head_inv h
  rw [List.cons_append, List.cons.injEq] at e
  obtain ⟨rfl, e⟩ := e
  rw [loadTail, if_neg (by decide), Res.bind_eq_ok] at ht
  obtain ⟨⟨vs, r1⟩, h1, ht⟩ := ht
  simp only at ht
  rw [Res.bind_eq_ok] at ht
  obtain ⟨⟨nh, r2⟩, h2, ht⟩ := ht
  simp only at ht
  rw [Res.bind_eq_ok] at ht
  obtain ⟨⟨hs, r3⟩, h3, ht⟩ := ht
  simp only [Res.ok.injEq, Prod.mk.injEq] at ht
  obtain ⟨b1, e1⟩ := readU32_ok h1
  obtain ⟨b2, e2⟩ := readU32_ok h2
  obtain ⟨b3, e3⟩ := readU32s_ok h3
  have hv : (UInt32.ofNat vs).toNat = vs := by rw [UInt32.toNat_ofNat', Nat.mod_eq_of_lt b1]
  have eb : 0 :: r = 0 :: mphHead t ++ be32 (UInt32.ofNat vs).toNat ++ be32s hs ++ r3 := by
    rw [hv, e, e1, e2, e3]
    simp [be32s, be32Elems, b3]
  refine ⟨UInt32.ofNat vs, hs, r3, hf, ?_, by omega, eb, ?_⟩
  · rw [← ht.1]
  · rw [← ht.2, eb, List.length_append]; omega

theorem load_hash_mode_ne_panic (r : Bytes) (magic : UInt8) (hm : magic ≠ 1) : newMphTable (magic :: r) ≠ .panic := by
  rw [newMphTable]
  split
  · simp
  · rcases h1 : readU32 r with ⟨n0, r1⟩ | - | -
    · simp only [Res.bind_ok]
      rcases h2 : readU32s n0 r1 with ⟨l0, r2⟩ | - | -
      · simp only [Res.bind_ok]
        rcases h3 : readU32 r2 with ⟨m0, r3⟩ | - | -
        · simp only [Res.bind_ok]
          rcases h4 : readU32 r3 with ⟨n1, r4⟩ | - | -
          · simp only [Res.bind_ok]
            rcases h5 : readU32s n1 r4 with ⟨l1, r5⟩ | - | -
            · simp only [Res.bind_ok]
              rcases h6 : readU32 r5 with ⟨m1, r6⟩ | - | -
              · simp only [Res.bind_ok, if_neg hm]
                rcases h7 : readU32 r6 with ⟨vs, r7⟩ | - | -
                · simp only [Res.bind_ok]
                  rcases h8 : readU32 r7 with ⟨nh, r8⟩ | - | -
                  · simp only [Res.bind_ok]
                    rcases h9 : readU32s nh r8 with ⟨hs, r9⟩ | - | -
                    · simp
                    · simp
                    · exact absurd h9 (readU32s_ne_panic _ _)
                  · simp
                  · exact absurd h8 (readU32_ne_panic _)
                · simp
                · exact absurd h7 (readU32_ne_panic _)
              · simp
              · exact absurd h6 (readU32_ne_panic _)
            · simp
            · exact absurd h5 (readU32s_ne_panic _ _)
          · simp
          · exact absurd h4 (readU32_ne_panic _)
        · simp
        · exact absurd h3 (readU32_ne_panic _)
      · simp
      · exact absurd h2 (readU32s_ne_panic _ _)
    · simp
    · exact absurd h1 (readU32_ne_panic _)

/-! ### Key mode -/

/-- The keys as loaded: each keeps the rest of the buffer. -/
def loadedKeys : List KeyObj → Bytes → List KeyObj
  | [], _ => []
  | k :: ks, rest => .mapped ⟨k.subKeys.map fun s => some s.bytes,
      keyBytes k.subKeys ++ ((ks.flatMap fun k => keyBytes k.subKeys) ++ rest)⟩ :: loadedKeys ks rest

theorem loadKeys_flat : ∀ (ks : List KeyObj) (rest : Bytes),
    ((ks.flatMap fun k => keyBytes k.subKeys) ++ rest).length ≤ maxMake24 →
    loadKeys ks.length ((ks.flatMap fun k => keyBytes k.subKeys) ++ rest) = .ok (loadedKeys ks rest, rest)
  | [], rest, _ => rfl
  | k :: ks, rest, h => by
    rw [List.flatMap_cons, List.append_assoc] at h ⊢
    rw [List.length_cons, loadKeys, newMappedKey_keyBytes _ _ h, Res.bind_ok]
    simp only
    rw [if_neg (by rw [List.length_append]; omega), List.drop_left, loadKeys_flat ks rest (by
      rw [List.length_append] at h; omega), Res.bind_ok]
    rfl

theorem load_key_mode (t : MphTable KeyObj) (h : MphFits32 t) (ks : List KeyObj) (hl : ks.length < 2 ^ 32) (rest : Bytes)
    (hb : ((ks.flatMap fun k => keyBytes k.subKeys) ++ rest).length ≤ maxMake24) :
    newMphTable (1 :: mphHead t ++ be32 ks.length ++ (ks.flatMap fun k => keyBytes k.subKeys) ++ rest)
      = .ok (⟨t.level0, t.level0Mask, t.level1, t.level1Mask, .keys (loadedKeys ks rest)⟩,
          (1 :: mphHead t ++ be32 ks.length ++ (ks.flatMap fun k => keyBytes k.subKeys)).length) := by
  rw [List.append_assoc, List.append_assoc, load_head t h 1 (Or.inr rfl), loadTail, if_pos rfl, readU32_be32, Res.bind_ok]
  simp only
  rw [Nat.mod_eq_of_lt hl, loadKeys_flat ks rest hb, Res.bind_ok]
  simp only [Res.ok.injEq, Prod.mk.injEq, true_and]
  simp only [List.length_append, List.length_cons]; omega

theorem nextPow2_lt {n : Nat} (h : n ≤ 2 ^ 31) : nextPow2 n < 2 ^ 32 := by
  obtain ⟨k, e, -, h2⟩ := nextPow2_spec n
  rw [e]
  rcases h2 with rfl | h2
  · decide
  · omega

theorem Built.fits32 {K : Type} {ops : MphOps K} {vs : UInt32} {keys : List K} {byKey : Bool} {t : MphTable K}
    (h : Built ops vs keys byKey t) (hl : keys.length ≤ 2 ^ 31) : MphFits32 t := by
  have h0 := nextPow2_lt (n := keys.length / 4) (by omega)
  have h1 := nextPow2_lt hl
  refine ⟨?_, ?_, ?_, ?_⟩
  · rw [h.len0, h.size0]; exact h0
  · have := h.size0; omega
  · rw [h.len1, h.size1]; exact h1
  · have := h.size1; omega

theorem loadedKeys_getElem? (ks : List KeyObj) (rest : Bytes) (hnil : ∀ k ∈ ks, none ∉ k.subKeys) (n : Nat) :
    ((loadedKeys ks rest)[n]?).map KeyObj.subKeys = (ks[n]?).map KeyObj.subKeys := by
  induction ks generalizing n with
  | nil => rfl
  | cons k ks ih =>
    cases n with
    | zero =>
      simp only [loadedKeys, List.getElem?_cons_zero, Option.map_some, Option.some.injEq]
      have e : k.subKeys.map (fun s => some s.bytes) = k.subKeys.map id := ?_
      · rw [List.map_id] at e; exact e
      apply List.map_congr_left
      intro s hs
      rcases s with - | b
      · exact absurd hs (hnil k (by simp))
      · rfl
    | succ n =>
      simp only [loadedKeys, List.getElem?_cons_succ]
      exact ih (fun k' hk' => hnil k' (by simp [hk'])) n

end Poodle
