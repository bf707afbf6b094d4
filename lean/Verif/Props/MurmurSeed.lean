import Verif.Lemmas.Murmur
import Verif.Model.HashCost
import Verif.Props.Hashable
import Verif.Props.Mph
import Mathlib.Data.Nat.Count
import Mathlib.Data.Int.CardIntervalMod
import Mathlib.Data.Set.Card

/-
Properties C152-C154: what the random seed of the hash functions does (/repo/src/collection/hash.go:97, :308-351).
-/

namespace Poodle.Props
open Poodle Poodle.Spec

/-! ### C152 Under a random seed every hash is equally likely -/

theorem u32_finite : Finite UInt32 := Finite.of_injective (fun x : UInt32 => x.toFin) fun _ _ h => UInt32.toFin_inj.mp h

/-- C152: for every byte string and every value exactly one seed gives the byte string that value as its hash. -/
theorem C152_uniform (b : Bytes) (v : UInt32) : ∃! seed, murmurHash seed b = v := by
  have := u32_finite
  obtain ⟨s, hs⟩ := (Finite.injective_iff_surjective.mp (fun s t h => murmurHash_inj_seed b h : Function.Injective (murmurHash · b))) v
  exact ⟨s, hs, fun t ht => murmurHash_inj_seed b (ht.trans hs.symm)⟩

/-- C152: the same for keys with one sub key. -/
theorem C152_single_key (k : KeyObj) (s : Slice) (hk : k.subKeys = [s]) (v : UInt32) : ∃! seed, murmurMphOps.hash seed k = v := by
  have e : ∀ seed, murmurMphOps.hash seed k = murmurHash seed s.bytes := by
    intro seed
    cases k with
    | empty => simp [KeyObj.subKeys] at hk
    | mapped m =>
      simp only [KeyObj.subKeys] at hk
      simp [murmurMphOps, keyMphOps, KeyObj.hash, hk]
    | key k =>
      simp only [KeyObj.subKeys] at hk
      simp [murmurMphOps, keyMphOps, KeyObj.hash, hk]
  simp only [e]
  exact C152_uniform _ v

example : (KeyObj.key { newKey with keys := [some [1, 2]] }).subKeys = [some [1, 2]] := rfl

/-- The seeds under which a byte slice is in bucket `i` of a hash table with `n` buckets. -/
def seedsFor (k : Slice) (n i : Nat) : Set UInt32 := {seed | HashTab.index (byteSliceHashOps seed) n k = some i}

/-- C152: over all seeds, a byte slice is in each bucket of a table equally often, up to one. -/
theorem C152_bucket (k : Slice) (n i : Nat) (hn : n < 2 ^ 32) (hi : i < n) :
    (seedsFor k n i).ncard = 2 ^ 32 / n ∨ (seedsFor k n i).ncard = 2 ^ 32 / n + 1 := by
  have hb : ∀ seed, hashableByteSliceHash (murmurHash seed) k = murmurHash seed k.bytes := by
    intro seed; cases k <;> rfl
  have e : (fun seed => (murmurHash seed k.bytes).toNat) '' seedsFor k n i = ((Finset.range (2 ^ 32)).filter (· ≡ i [MOD n]) : Finset Nat) := by
    ext v
    simp only [Set.mem_image, seedsFor, Set.mem_setOf_eq, Finset.coe_filter, Finset.mem_range, HashTab.index, Nat.mod_eq_of_lt hn,
      if_neg (show n ≠ 0 by omega), byteSliceHashOps, hb, Option.some.injEq]
    constructor
    · rintro ⟨s, h1, rfl⟩
      exact ⟨UInt32.toNat_lt _, by rw [Nat.ModEq, h1, Nat.mod_eq_of_lt hi]⟩
    · rintro ⟨h1, h2⟩
      obtain ⟨s, hs, -⟩ := C152_uniform k.bytes (UInt32.ofNat v)
      refine ⟨s, ?_, ?_⟩
      · rw [hs, UInt32.toNat_ofNat', Nat.mod_eq_of_lt h1, show v % n = i % n from h2, Nat.mod_eq_of_lt hi]
      · rw [hs, UInt32.toNat_ofNat', Nat.mod_eq_of_lt h1]
  have inj : Function.Injective fun seed => (murmurHash seed k.bytes).toNat := fun s t h => murmurHash_inj_seed _ (UInt32.toNat_inj.mp h)
  rw [← Set.ncard_image_of_injective _ inj, e, Set.ncard_coe_finset, ← Nat.count_eq_card_filter_range, Nat.count_modEq_card _ (by omega)]
  split <;> simp

example : (3 : Nat) < 10 ∧ (10 : Nat) < 2 ^ 32 := by decide

/-! ### C153 Keys that differ in one word have different hashes -/

/-- The two byte strings have the same length and agree outside the four bytes from `4 * i` on. -/
def SameButWord (i : Nat) (a b : Bytes) : Prop :=
  a.length = b.length ∧ ∀ j, j < 4 * i ∨ 4 * i + 4 ≤ j → a[j]? = b[j]?

theorem sameButWord_tail {i : Nat} {a b c d a' b' c' d' : UInt8} {r r' : Bytes}
    (h : SameButWord (i + 1) (a :: b :: c :: d :: r) (a' :: b' :: c' :: d' :: r')) :
    a = a' ∧ b = b' ∧ c = c' ∧ d = d' ∧ SameButWord i r r' := by
  obtain ⟨h1, h2⟩ := h
  have e0 := h2 0 (by omega); have e1 := h2 1 (by omega); have e2 := h2 2 (by omega); have e3 := h2 3 (by omega)
  simp only [List.getElem?_cons_zero, Option.some.injEq] at e0
  simp only [List.getElem?_cons_succ, List.getElem?_cons_zero, Option.some.injEq] at e1 e2 e3
  refine ⟨e0, e1, e2, e3, by simpa using h1, fun j hj => ?_⟩
  have := h2 (j + 4) (by omega)
  simpa using this

theorem sameButWord_head {a b c d a' b' c' d' : UInt8} {r r' : Bytes}
    (h : SameButWord 0 (a :: b :: c :: d :: r) (a' :: b' :: c' :: d' :: r')) : r = r' := by
  obtain ⟨h1, h2⟩ := h
  apply List.ext_getElem?
  intro j
  have := h2 (j + 4) (by omega)
  simpa using this

theorem body_word : ∀ (a b : Bytes) (i : Nat) (s : BitVec 32), SameButWord i a b → body s a = body s b → a = b
  | a :: b :: c :: d :: r, a' :: b' :: c' :: d' :: r', 0, s, h, he => by
    obtain rfl := sameButWord_head h
    simp only [body] at he
    obtain ⟨rfl, rfl, rfl, rfl⟩ := word_inj (mix_inj_word (body_inj r he))
    rfl
  | a :: b :: c :: d :: r, a' :: b' :: c' :: d' :: r', i + 1, s, h, he => by
    obtain ⟨rfl, rfl, rfl, rfl, h1⟩ := sameButWord_tail h
    simp only [body] at he
    rw [body_word r r' i _ h1 he]
  | [a, b, c], [a', b', c'], i, s, h, he => by
    simp only [body] at he
    obtain ⟨rfl, rfl, rfl, -⟩ := word_inj (scramble_inj (xor_left_inj he))
    rfl
  | [a, b], [a', b'], i, s, h, he => by
    simp only [body] at he
    obtain ⟨rfl, rfl, -, -⟩ := word_inj (scramble_inj (xor_left_inj he))
    rfl
  | [a], [a'], i, s, h, he => by
    simp only [body] at he
    obtain ⟨rfl, -, -, -⟩ := word_inj (scramble_inj (xor_left_inj he))
    rfl
  | [], [], i, s, h, he => rfl
  | [], _ :: _, i, s, h, he => by simp [SameButWord] at h
  | _ :: _, [], i, s, h, he => by simp [SameButWord] at h
  | [_], _ :: _ :: _, i, s, h, he => by simp [SameButWord] at h
  | _ :: _ :: _, [_], i, s, h, he => by simp [SameButWord] at h
  | [_, _], _ :: _ :: _ :: _, i, s, h, he => by simp [SameButWord] at h
  | _ :: _ :: _ :: _, [_, _], i, s, h, he => by simp [SameButWord] at h
  | [_, _, _], _ :: _ :: _ :: _ :: _, i, s, h, he => by simp [SameButWord] at h
  | _ :: _ :: _ :: _ :: _, [_, _, _], i, s, h, he => by simp [SameButWord] at h

/-- C153: byte strings of the same length that differ within one aligned word of four bytes only have different hashes, under
every seed. -/
theorem C153_one_word (seed : UInt32) (a b : Bytes) (i : Nat) (h : SameButWord i a b) (hab : a ≠ b) :
    murmurHash seed a ≠ murmurHash seed b := by
  intro he
  exact hab (body_word a b i _ h ((murmurHash_eq_iff h.1).mp he))

example : SameButWord 1 [1, 2, 3, 4, 5, 6, 7] [1, 2, 3, 4, 9, 6, 8] ∧ ([1, 2, 3, 4, 5, 6, 7] : Bytes) ≠ [1, 2, 3, 4, 9, 6, 8] := by
  refine ⟨⟨rfl, fun j hj => ?_⟩, by decide⟩
  rcases hj with h | h
  · obtain rfl | rfl | rfl | rfl : j = 0 ∨ j = 1 ∨ j = 2 ∨ j = 3 := by omega
    all_goals rfl
  · rw [List.getElem?_eq_none (by simp; omega), List.getElem?_eq_none (by simp; omega)]

/-- C153: changing one byte changes the hash. -/
theorem C153_one_byte (seed : UInt32) (a : Bytes) (i : Nat) (x y : UInt8) (hx : a[i]? = some x) (hxy : y ≠ x) :
    murmurHash seed (a.set i y) ≠ murmurHash seed a := by
  apply C153_one_word seed _ _ (i / 4)
  · refine ⟨by simp, fun j hj => ?_⟩
    rw [List.getElem?_set_ne (by omega)]
  · intro h
    have h2 : (a.set i y)[i]? = some x := by rw [h, hx]
    have hi : i < a.length := (List.getElem?_eq_some_iff.mp hx).1
    rw [List.getElem?_set_self hi] at h2
    exact hxy (Option.some.inj h2)

example : ([7, 8] : Bytes)[1]? = some 8 ∧ (9 : UInt8) ≠ 8 := by decide

/-- C153: byte strings of the same length of at most four bytes have different hashes. -/
theorem C153_short (seed : UInt32) (a b : Bytes) (hl : a.length = b.length) (h4 : a.length ≤ 4) (hab : a ≠ b) :
    murmurHash seed a ≠ murmurHash seed b := by
  apply C153_one_word seed a b 0 _ hab
  refine ⟨hl, fun j hj => ?_⟩
  rw [List.getElem?_eq_none (by omega), List.getElem?_eq_none (by omega)]

example : ([1, 2, 3, 4] : Bytes).length = ([4, 3, 2, 1] : Bytes).length ∧ ([1, 2, 3, 4] : Bytes) ≠ [4, 3, 2, 1] := by decide

/-! ### C154 Keys that collide whatever the seed is -/

/-- The claim of C154 (false of the code): different byte strings are told apart under some seed. -/
def SeedSeparates : Prop := ∀ a b : Bytes, a ≠ b → ∃ seed, murmurHash seed a ≠ murmurHash seed b

/-- `2 ^ n` byte strings of `8 * n + r` bytes for every start. -/
theorem many_twins (b : Bytes) (n : Nat) (hn : 8 * n ≤ b.length) : ∃ l : List Bytes, l.length = 2 ^ n ∧ l.Nodup ∧
    ∀ x ∈ l, x.length = b.length ∧ ∀ s, body s x = body s b := by
  induction n generalizing b with
  | zero => exact ⟨[b], rfl, by simp, by simp⟩
  | succ n ih =>
    match b, hn with
    | a :: b :: c :: d :: e :: f :: g :: i :: rest, hn =>
      obtain ⟨l, h1, h2, h3⟩ := ih rest (by simp at hn; omega)
      obtain ⟨a', b', c', d', e', f', g', i', t1, t2⟩ := twin_block a b c d e f g i
      refine ⟨l.map ([a, b, c, d, e, f, g, i] ++ ·) ++ l.map ([a', b', c', d', e', f', g', i'] ++ ·), ?_, ?_, ?_⟩
      · simp [h1, pow_succ]; omega
      · rw [List.nodup_append']
        refine ⟨h2.map fun x y h => List.append_cancel_left h, h2.map fun x y h => List.append_cancel_left h, ?_⟩
        intro x hx hy
        obtain ⟨u, -, rfl⟩ := List.mem_map.mp hx
        obtain ⟨v, -, hv⟩ := List.mem_map.mp hy
        exact t1 (List.append_inj hv (by simp)).1
      · intro x hx
        rcases List.mem_append.mp hx with hx | hx <;> obtain ⟨u, hu, rfl⟩ := List.mem_map.mp hx <;> obtain ⟨q1, q2⟩ := h3 u hu
        · refine ⟨by simp [q1], fun s => ?_⟩
          simp only [List.cons_append, List.nil_append, body]
          exact q2 _
        · refine ⟨by simp [q1], fun s => ?_⟩
          simp only [List.cons_append, List.nil_append]
          rw [t2]
          simp only [body]
          exact q2 _

/-- C154: for every byte string of at least `8 * n` bytes there are `2 ^ n` different ones of its length that have its hash under
every seed. -/
theorem C154_many_partial (b : Bytes) (n : Nat) (hn : 8 * n ≤ b.length) : ∃ l : List Bytes, l.length = 2 ^ n ∧ l.Nodup ∧
    ∀ x ∈ l, x.length = b.length ∧ ∀ seed, murmurHash seed x = murmurHash seed b := by
  obtain ⟨l, h1, h2, h3⟩ := many_twins b n hn
  exact ⟨l, h1, h2, fun x hx => ⟨(h3 x hx).1, fun seed => (murmurHash_eq_iff (h3 x hx).1).mpr ((h3 x hx).2 _)⟩⟩

example : 8 * 2 ≤ (List.replicate 17 0 : Bytes).length := by decide

/-- C154 is refuted. -/
theorem C154_refuted : ¬ SeedSeparates := by
  intro h
  obtain ⟨l, h1, h2, h3⟩ := C154_many_partial (List.replicate 8 0) 1 (by decide)
  match l, h1 with
  | [x, y], _ =>
    have hxy : x ≠ y := by simpa using h2
    obtain ⟨seed, hs⟩ := h x y hxy
    exact hs (((h3 x (by simp)).2 seed).trans ((h3 y (by simp)).2 seed).symm)

/-- Two such byte strings, and their hashes under three seeds. -/
example : ([0, 1, 0x9747b28c].map fun seed => murmurHash seed [0, 0, 0, 0, 0, 0, 0, 0]) =
    [0, 1, 0x9747b28c].map fun seed => murmurHash seed [88, 161, 130, 108, 0, 0, 177, 59] := by decide +kernel

/-- C154, composite keys: keys of two equal sub keys have hash 0 under every seed. -/
theorem C154_keys_partial (k : KeyObj) (s : Slice) (hk : k.subKeys = [s, s]) (seed : UInt32) : murmurMphOps.hash seed k = 0 := by
  cases k with
  | empty => simp [KeyObj.subKeys] at hk
  | mapped m =>
    simp only [KeyObj.subKeys] at hk
    simp [murmurMphOps, keyMphOps, KeyObj.hash, hk]
  | key k =>
    simp only [KeyObj.subKeys] at hk
    simp [murmurMphOps, keyMphOps, KeyObj.hash, hk]

example := C154_keys_partial (.mapped ⟨[some [1, 2], some [1, 2]], [2, 2, 1, 2, 2, 1, 2]⟩) (some [1, 2]) rfl

variable {K V : Type} {ops : HashOps K} {pol : ResizePolicy}

theorem chainCalls_absent (k : K) (c : List (K × V)) (h : ∀ e ∈ c, ops.equal e.1 k = false) : HashTab.chainCalls ops k c = c.length := by
  induction c with
  | nil => rfl
  | cons e c ih =>
    simp only [HashTab.chainCalls, h e (by simp), Bool.false_eq_true, if_false, List.length_cons]
    rw [ih fun e he => h e (by simp [he])]

theorem flood (hl : LawfulHash ops) {h : HashTab K V} (hg : GoodTab ops h) (k : K) (hk : lookE ops k h.all = none) (ks : List K)
    (hd : ks.Pairwise fun a b => ops.equal a b = false) (hks : ∀ x ∈ ks, lookE ops x h.all ≠ none ∧ ops.hash x = ops.hash k) :
    ∃ c, h.getCalls ops k = some c ∧ ks.length ≤ c ∧ c ≤ h.all.length := by
  obtain ⟨i, c, h1, h2⟩ := index_ok ops h.array (by have := hg.floor; omega) hg.mod k
  have hsub : ∀ e ∈ c, e ∈ h.all := fun e he => List.mem_flatten.mpr ⟨c, List.mem_of_getElem? h2, he⟩
  have habs : ∀ e ∈ c, ops.equal e.1 k = false := by
    intro e he
    have := List.find?_eq_none.mp hk e (hsub e he)
    simpa using this
  refine ⟨c.length, ?_, ?_, ?_⟩
  · simp only [HashTab.getCalls, h1, h2, chainCalls_absent k c habs]
  · have hex : ∀ x : {x // x ∈ ks}, ∃ e, e ∈ c ∧ ops.equal e.1 x.1 = true := by
      rintro ⟨x, hx⟩
      obtain ⟨q1, q2⟩ := hks x hx
      obtain ⟨e, he⟩ := Option.ne_none_iff_exists'.mp q1
      have e1 := List.mem_of_find?_eq_some he
      have e2 := List.find?_some he
      refine ⟨e, ?_, e2⟩
      obtain ⟨d, d1, d2⟩ := List.mem_flatten.mp e1
      obtain ⟨j, hj, rfl⟩ := List.mem_iff_getElem.mp d1
      have p := hg.placed j _ (List.getElem?_eq_getElem hj) e d2
      rw [index_congr hl e2] at p
      have : HashTab.index ops h.array.length x = some i := by rw [← h1]; unfold HashTab.index; rw [q2]
      rw [this] at p
      obtain rfl := Option.some.inj p
      rw [List.getElem?_eq_getElem hj] at h2
      obtain rfl := Option.some.inj h2
      exact d2
    choose f hf1 hf2 using hex
    have hn : (ks.attach.map f).Nodup := by
      rw [List.Nodup, List.pairwise_map]
      have ha : ks.attach.Pairwise fun a b => ops.equal a.1 b.1 = false := by
        rw [← List.attach_map_subtype_val ks, List.pairwise_map] at hd
        exact hd
      refine ha.imp ?_
      intro a b hab he
      have q := hl.trans _ _ _ (hl.symm _ _ (hf2 a)) (he ▸ hf2 b)
      rw [hab] at q
      simp at q
    have hss : ks.attach.map f ⊆ c := by
      intro e he
      obtain ⟨a, -, rfl⟩ := List.mem_map.mp he
      exact hf1 a
    have := (hn.subperm hss).length_le
    simpa using this
  · have : c.Sublist h.all := List.sublist_flatten_of_mem (List.mem_of_getElem? h2)
    exact this.length_le

/-- The finite map after a list of puts. -/
theorem runE_puts (eqv : K → K → Bool) (l : List K) (v : V) (m : K → Option V) (x : K) :
    (runE eqv m (l.map fun k => .put k v)).1 x = if l.any (fun k => eqv x k) then some v else m x := by
  induction l generalizing m with
  | nil => rfl
  | cons a l ih =>
    simp only [List.map_cons, runE, ih, List.any_cons, Bool.or_eq_true]
    by_cases h1 : l.any (fun k => eqv x k) = true
    · simp [h1]
    · by_cases h2 : eqv x a = true <;> simp [h1, h2]

/-- C154, what follows for a hash map: there are `2 ^ n` keys, chosen without the seed, such that whatever the seed, the load factor and the
multiplier are, a lookup of one of them in a map with all others compares it with every key in the map. -/
theorem C154_flood_partial (n : Nat) : ∃ ks : List Slice, ks.length = 2 ^ n ∧ ks.Nodup ∧
    ∀ (seed : UInt32) (pol : ResizePolicy) (cap : Int) (k : Slice) (v : V), Modest pol (2 ^ n) → cap < 2 ^ 32 → k ∈ ks →
      ∃ h rs, runHash (byteSliceHashOps seed) pol (HashTab.new cap) ((ks.erase k).map fun k => .put k v) = some (h, rs) ∧
        h.getCalls (byteSliceHashOps seed) k = some (2 ^ n - 1) := by
  obtain ⟨l, h1, h2, h3⟩ := C154_many_partial (List.replicate (8 * n) 0) n (by simp)
  refine ⟨l.map some, by simpa using h1, h2.map fun _ _ h => Option.some.inj h, ?_⟩
  intro seed pol cap k v hpol hc hk
  have hl : LawfulHash (byteSliceHashOps seed) := C33_byteSlice _
  have heq : ∀ a b, (byteSliceHashOps seed).equal a b = true ↔ a = b := by
    intro a b
    simp only [byteSliceHashOps, hashableByteSliceEqual]
    split
    · rename_i h
      simp only [Bool.false_eq_true, false_iff]
      rintro rfl
      exact h rfl
    · exact equalByteSlice_iff a b
  have hhash : ∀ x ∈ l.map some, (byteSliceHashOps seed).hash x = murmurHash seed (List.replicate (8 * n) 0) := by
    intro x hx
    obtain ⟨y, hy, rfl⟩ := List.mem_map.mp hx
    exact (h3 y hy).2 seed
  have hnd : (l.map some).Nodup := h2.map fun _ _ h => Option.some.inj h
  have hlen : (l.map (some : Bytes → Slice)).length = 2 ^ n := by simpa using h1
  generalize l.map (some : Bytes → Slice) = ks at hk hhash hnd hlen
  have hel : (ks.erase k).length = 2 ^ n - 1 := by rw [List.length_erase_of_mem hk, hlen]
  have hpow : 0 < 2 ^ n := Nat.two_pow_pos n
  obtain ⟨h, rs, r1, r2, r3, r4⟩ := runHash_spec hl ((ks.erase k).map fun k => .put k v) (HashTab.new cap) (new_hash_good cap hc)
    (2 ^ n - 1) (by simp [HashTab.new, hel]) (fun s len c a b => hpol s len c a (by omega))
  have hval := congrArg Prod.fst r4
  simp only at hval
  rw [all_new] at hval
  have hlook : ∀ x, lookE (byteSliceHashOps seed) x h.all = none ↔ x ∉ ks.erase k := by
    intro x
    have q := congrFun hval x
    rw [runE_puts] at q
    have q2 : (valE (byteSliceHashOps seed) h.all x = none) ↔ lookE (byteSliceHashOps seed) x h.all = none := by simp [valE]
    rw [← q2, q]
    have q3 : (ks.erase k).any (fun k => (byteSliceHashOps seed).equal x k) = true ↔ x ∈ ks.erase k := by
      rw [List.any_eq_true]
      constructor
      · rintro ⟨y, hy, e⟩
        rw [(heq x y).mp e]
        exact hy
      · intro hx
        exact ⟨x, hx, (heq x x).mpr rfl⟩
    by_cases hx : x ∈ ks.erase k
    · rw [if_pos (q3.mpr hx)]; simp [hx]
    · rw [if_neg (fun e => hx (q3.mp e))]; simp [hx, valE, lookE]
  obtain ⟨c, c1, c2, c3⟩ := flood hl r2 k ((hlook k).mpr (by rw [hnd.mem_erase_iff]; simp)) (ks.erase k)
    ((hnd.erase k).imp fun {a b} hab => by
      cases e : (byteSliceHashOps seed).equal a b
      · rfl
      · exact absurd ((heq a b).mp e) hab)
    (fun x hx => ⟨fun e => (hlook x).mp e hx, by rw [hhash x (List.mem_of_mem_erase hx), hhash k hk]⟩)
  refine ⟨h, rs, r1, ?_⟩
  have hs := r2.size
  rw [c1, show c = 2 ^ n - 1 by omega]

/-- Four colliding keys in a table that grows like the real one. -/
example : Modest defaultPolicy (2 ^ 2) ∧ (10 : Int) < 2 ^ 32 := by
  refine ⟨?_, by decide⟩
  rintro s len c h0 hs hlen (h | h) <;> simp only [defaultPolicy] at h <;> split at h <;>
    simp only [Option.some.injEq, reduceCtorEq] at h <;> omega

/-- C37, also for keys that consist of one sub key: there are two different ones for which MPHBuild never returns. -/
theorem C37_single_refuted : ¬ ∀ (order : List (Nat × List Nat) → List (Nat × List Nat)) (vs : UInt32) (keys : List KeyObj) (byKey : Bool),
    (∀ l, (order l).Perm l) → keys.Pairwise (fun a b => a.equal? b = some false) → (∀ k ∈ keys, ∃ s, k.subKeys = [s]) →
    MphTerminates murmurMphOps order vs keys byKey := by
  intro H
  obtain ⟨l, h1, h2, h3⟩ := C154_many_partial (List.replicate 8 0) 1 (by decide)
  match l, h1 with
  | [x, y], _ =>
    have hxy : x ≠ y := by simpa using h2
    obtain ⟨seed, hs⟩ := C37_necessary_partial _ id (fun l => List.Perm.refl l) 0 _ true
      (H id 0 [.key { newKey with keys := [some x] }, .key { newKey with keys := [some y] }] true
        (fun l => List.Perm.refl l) (by simp [KeyObj.equal?_eq, KeyObj.subKeys, hxy]) (by simp [KeyObj.subKeys]))
      0 1 _ _ rfl rfl (by decide)
    apply hs
    have := ((h3 x (by simp)).2 seed).trans ((h3 y (by simp)).2 seed).symm
    simpa [murmurMphOps, keyMphOps, KeyObj.hash, Slice.bytes] using this

end Poodle.Props
