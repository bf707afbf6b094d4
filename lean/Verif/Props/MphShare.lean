import Verif.Spec.MphShare
import Verif.Props.KeyShare
import Verif.Props.MphCodec

/-
C193: perfect hash tables that refer to keys which the program keeps and changes.
-/

namespace Poodle.Props
open Poodle Spec

/-! ### Single calls -/

/-- The sub keys that a call adds to a key object. -/
def addedTo (i : Nat) : TabCall → List Slice
  | .on c => addedBy c i
  | _ => []

theorem grown_keep (keys : List KeyObj) (j : Nat) (k' : KeyObj) (hj : ∀ k, keys[j]? = some k → GrownTo k k' []) (i : Nat) (k : KeyObj)
    (hk : keys[i]? = some k) : ∃ k'', (keys.set j k')[i]? = some k'' ∧ GrownTo k k'' [] := by
  by_cases e : j = i
  · subst e
    exact ⟨k', List.getElem?_set_self (List.getElem?_eq_some_iff.mp hk).1, hj k hk⟩
  · exact ⟨k, by rw [List.getElem?_set_ne e, hk], .refl k⟩

theorem grown_ensure (k : KeyObj) : GrownTo k (ensureEncoded k).1 [] := by
  rw [ensureEncoded]
  split
  · exact .refl k
  · exact grown_encode k

theorem encodeRefs_step : ∀ (refs : List Nat) (keys : List KeyObj) (i : Nat) (k : KeyObj), keys[i]? = some k →
    ∃ k', (encodeRefs keys refs).1[i]? = some k' ∧ GrownTo k k' []
  | [], keys, i, k, hk => ⟨k, hk, .refl k⟩
  | j :: js, keys, i, k, hk => by
    rw [encodeRefs]
    rcases hj : keys[j]? with - | kj
    · exact ⟨k, hk, .refl k⟩
    · obtain ⟨k1, h1, g1⟩ := grown_keep keys j (ensureEncoded kj).1
        (fun k0 h0 => by rw [hj] at h0; cases h0; exact grown_ensure kj) i k hk
      simp only
      split
      · split
        · obtain ⟨k2, h2, g2⟩ := encodeRefs_step js _ i k1 h1
          exact ⟨k2, h2, by simpa using g1.trans g2⟩
        · exact ⟨k1, h1, g1⟩
        · exact ⟨k1, h1, g1⟩
      · exact ⟨k1, h1, g1⟩

theorem encodeTable_step (w : MWorld) (t i : Nat) (k : KeyObj) (hk : w.base.keys[i]? = some k) :
    ∃ k', (w.encode t).1.base.keys[i]? = some k' ∧ GrownTo k k' [] := by
  rw [MWorld.encode]
  split
  · exact ⟨k, hk, .refl k⟩
  · simp only
    split
    · exact encodeRefs_step _ _ i k hk
    · exact ⟨k, hk, .refl k⟩

theorem build_base (f : UInt32 → Slice → UInt32) (w : MWorld) (order : List (Nat × List Nat) → List (Nat × List Nat)) (fuel : Nat)
    (vs : UInt32) (refs : List Nat) (byKey : Bool) : (w.build f order fuel vs refs byKey).1.base = w.base := by
  rw [MWorld.build]
  split
  · split <;> rfl
  · rfl

theorem mcall_step (f : UInt32 → Slice → UInt32) (w : MWorld) (c : TabCall) (i : Nat) (k : KeyObj) (hk : w.base.keys[i]? = some k) :
    ∃ k', (c.run f w).base.keys[i]? = some k' ∧ GrownTo k k' (addedTo i c) := by
  cases c with
  | on c => exact keys_step w.base c i k hk
  | build order fuel vs refs byKey => exact ⟨k, by rw [TabCall.run, build_base, hk], .refl k⟩
  | encodeTable t => exact encodeTable_step w t i k hk

theorem mcall_steps (f : UInt32 → Slice → UInt32) : ∀ (q : List TabCall) (w : MWorld) (i : Nat) (k : KeyObj), w.base.keys[i]? = some k →
    ∃ k', (continueWith f w q).base.keys[i]? = some k' ∧ GrownTo k k' (q.flatMap (addedTo i))
  | [], w, i, k, hk => ⟨k, hk, .refl k⟩
  | c :: q, w, i, k, hk => by
    obtain ⟨k1, h1, g1⟩ := mcall_step f w c i k hk
    obtain ⟨k2, h2, g2⟩ := mcall_steps f q (c.run f w) i k1 h1
    exact ⟨k2, h2, by simpa using g1.trans g2⟩

theorem addedTo_nil (q : List TabCall) (i : Nat) : q.flatMap (addedTo i) = [] ↔ ∀ c ∈ q, c.adds i = false := by
  rw [List.flatMap_eq_nil_iff]
  refine forall_congr' fun c => forall_congr' fun _ => ?_
  cases c with
  | on c => simpa [addedByAll, addedTo, TabCall.adds] using addedByAll_nil [c] i
  | _ => simp [addedTo, TabCall.adds]

theorem tables_step (f : UInt32 → Slice → UInt32) (w : MWorld) (c : TabCall) (t : Nat) (T : MphTable Nat) (ht : w.tables[t]? = some T) :
    (c.run f w).tables[t]? = some T := by
  cases c with
  | on c => exact ht
  | build order fuel vs refs byKey =>
    rw [TabCall.run, MWorld.build]
    split
    · split
      · exact get_append_left ht
      · exact ht
      · exact ht
    · exact ht
  | encodeTable t' =>
    rw [TabCall.run, MWorld.encode]
    split
    · exact ht
    · simp only
      split <;> exact ht

theorem tables_steps (f : UInt32 → Slice → UInt32) : ∀ (q : List TabCall) (w : MWorld) (t : Nat) (T : MphTable Nat), w.tables[t]? = some T →
    (continueWith f w q).tables[t]? = some T
  | [], _, _, _, ht => ht
  | c :: q, w, t, T, ht => tables_steps f q (c.run f w) t T (tables_step f w c t T ht)

/-! ### Lookups -/

theorem refHash_eq (f : UInt32 → Slice → UInt32) {ks ks' : List KeyObj} {i j : Nat} {a b : KeyObj} (ha : ks[i]? = some a)
    (hb : ks'[j]? = some b) (e : a.subKeys = b.subKeys) (seed : UInt32) : (refMphOps f ks).hash seed i = (refMphOps f ks').hash seed j := by
  simp only [refMphOps, ha, hb, KeyObj.hash_eq, e]

/-- What a successful build leaves. -/
theorem build_ok {f : UInt32 → Slice → UInt32} {w w' : MWorld} {order : List (Nat × List Nat) → List (Nat × List Nat)}
    (hord : ∀ l, (order l).Perm l) {fuel : Nat} {vs : UInt32} {refs : List Nat} {byKey : Bool}
    (h : w.build f order fuel vs refs byKey = (w', .ok ())) :
    ∃ T, w' = { w with tables := w.tables ++ [T] } ∧ Built (refMphOps f w.base.keys) vs refs byKey T ∧
      (∀ r ∈ refs, ∃ k, w.base.keys[r]? = some k) ∧ (∃ fuel', mphBuild (refMphOps f w.base.keys) order fuel' vs refs byKey = .ok T) := by
  rw [MWorld.build] at h
  split at h
  · rename_i hr
    split at h
    · rename_i T e
      refine ⟨T, ?_, built_of_ok hord e, fun r hm => ?_, fuel, e⟩
      · simp only [Prod.mk.injEq, and_true] at h; exact h.symm
      · simp only [List.all_eq_true, decide_eq_true_eq] at hr
        exact ⟨_, List.getElem?_eq_getElem (hr r hm)⟩
    · simp at h
    · simp at h
  · simp at h

theorem content_some {w : MWorld} {i : Nat} {c : List Slice} (h : keyContent w i = some c) : ∃ k, w.base.keys[i]? = some k ∧ k.subKeys = c := by
  rw [keyContent, Option.map_eq_some_iff] at h
  exact h

/-- C193 for tables that verify by key: a key is looked up with the sub keys it had when the table was built, whatever happened since: the
index is found, and the answer is yes exactly if the key object still has these sub keys. -/
theorem C193_lookup_partial (f : UInt32 → Slice → UInt32) (before after : List TabCall)
    (order : List (Nat × List Nat) → List (Nat × List Nat)) (hord : ∀ l, (order l).Perm l) (fuel : Nat) (vs : UInt32) (refs : List Nat)
    (w : MWorld) (hb : (indexing f before).build f order fuel vs refs true = (w, .ok ())) (i r s : Nat) (hr : refs[i]? = some r)
    (hs : keyContent (continueWith f w after) s = keyContent (indexing f before) r) :
    ∃ n, n.toNat = i ∧ (continueWith f w after).lookup f (indexing f before).tables.length s =
      .ok (n, decide (keyContent (continueWith f w after) r = keyContent (indexing f before) r)) := by
  obtain ⟨T, rfl, hB, hrefs, -⟩ := build_ok hord hb
  obtain ⟨k0, hk0⟩ := hrefs r (List.mem_of_getElem? hr)
  obtain ⟨hi, seed, h0, h1⟩ := built_index hB hr
  have hn : (UInt32.ofNat i).toNat = i := by rw [UInt32.toNat_ofNat', Nat.mod_eq_of_lt hi]
  obtain ⟨k2, hk2, -⟩ := mcall_steps f after { indexing f before with tables := (indexing f before).tables ++ [T] } r k0 hk0
  have hT := tables_steps f after { indexing f before with tables := (indexing f before).tables ++ [T] }
    (indexing f before).tables.length T (by simp)
  generalize hw2 : continueWith f { indexing f before with tables := (indexing f before).tables ++ [T] } after = w2 at *
  rw [show keyContent (indexing f before) r = some k0.subKeys by simp [keyContent, hk0]] at hs ⊢
  obtain ⟨ks, hks, es⟩ := content_some hs
  have hh := refHash_eq f hks hk0 es
  refine ⟨UInt32.ofNat i, hn, ?_⟩
  simp only [MWorld.lookup, hT, hks, MphTable.lookup, hh, h0, h1, hB.verify, if_true, hn, hr]
  simp only [refMphOps, hks, hk2, KeyObj.equal?_eq, keyContent, Option.map_some, Option.some.injEq, es]
  congr 2
  exact decide_eq_decide.mpr ⟨Eq.symm, Eq.symm⟩

/-- Two keys; the second one gets another sub key after the table was built. -/
def twoKeys : List TabCall := [.on .newKey, .on (.add 0 (some [1])), .on .newKey, .on (.add 1 (some [2])), .on .newKey, .on (.add 2 (some [2]))]

/-- The calls after the build: `Encode` of the table, then a sub key for its second key. -/
def twoKeysAfter : List TabCall := [.encodeTable 0, .on (.add 1 (some [3]))]

/-- The hash of a sub key, /repo/src/collection/murmur.go. -/
def murmurOf : UInt32 → Slice → UInt32 := fun seed s => murmurHash seed s.bytes

/-- What `Lookup` answers for the given objects after the build and more calls. -/
def probeAfter (before after : List TabCall) (refs : List Nat) (byKey : Bool) (s : List Nat) : List (Res (UInt32 × Bool)) :=
  s.map ((continueWith murmurOf ((indexing murmurOf before).build murmurOf id 100 77 refs byKey).1 after).lookup murmurOf 0)

/-- Before the change the second key is found by itself and by an equal key (number 2); afterwards by neither. -/
example : probeAfter twoKeys [.encodeTable 0] [0, 1] true [0, 1, 2] = [.ok (0, true), .ok (1, true), .ok (1, true)] ∧
    (probeAfter twoKeys twoKeysAfter [0, 1] true [0, 1, 2]).map (fun r => match r with | .ok (_, b) => some b | _ => none) =
      [some true, some false, some false] ∧
    (probeAfter twoKeys twoKeysAfter [0, 1] false [0, 2]) = [.ok (0, true), .ok (1, true)] := by decide +kernel

/-- When the sub keys of a key are still those from before: always for keys that cannot be changed, and otherwise exactly if none was
added to it. -/
theorem C193_unchanged_iff (f : UInt32 → Slice → UInt32) (w : MWorld) (after : List TabCall) (r : Nat) (c : List Slice)
    (hc : keyContent w r = some c) : keyContent (continueWith f w after) r = some c ↔
      (growing w.base r → ∀ d ∈ after, d.adds r = false) := by
  obtain ⟨k0, hk0, rfl⟩ := content_some hc
  obtain ⟨k2, hk2, g⟩ := mcall_steps f after w r k0 hk0
  simp only [keyContent, hk2, Option.map_some, Option.some.injEq]
  cases k0 with
  | key x =>
    obtain ⟨x', rfl, e⟩ := g
    rw [← addedTo_nil]
    simp only [KeyObj.subKeys, e]
    constructor
    · intro h _
      exact List.append_right_eq_self.mp h
    · intro h
      rw [h ⟨x, hk0⟩, List.append_nil]
  | empty => cases g; simp [growing, hk0]
  | mapped _ => cases g; simp [growing, hk0]

example := C193_unchanged_iff murmurOf (indexing murmurOf twoKeys) twoKeysAfter 1 [some [2]] (by decide +kernel)

/-- A table that verifies by key says yes only if the key with this number has the sub keys of the probe now; it answers for every key. -/
theorem C193_yes (f : UInt32 → Slice → UInt32) (before after : List TabCall)
    (order : List (Nat × List Nat) → List (Nat × List Nat)) (hord : ∀ l, (order l).Perm l) (fuel : Nat) (vs : UInt32) (refs : List Nat)
    (hne : refs ≠ []) (w : MWorld) (hb : (indexing f before).build f order fuel vs refs true = (w, .ok ())) (s : Nat) (c : List Slice)
    (hs : keyContent (continueWith f w after) s = some c) :
    ∃ n b r, (continueWith f w after).lookup f (indexing f before).tables.length s = .ok (n, b) ∧ refs[n.toNat]? = some r ∧
      (b = true ↔ keyContent (continueWith f w after) r = some c) := by
  obtain ⟨T, rfl, hB, hrefs, -⟩ := build_ok hord hb
  have hT := tables_steps f after { indexing f before with tables := (indexing f before).tables ++ [T] }
    (indexing f before).tables.length T (by simp)
  have hks : ∀ r ∈ refs, ∃ k2, (continueWith f { indexing f before with tables := (indexing f before).tables ++ [T] } after).base.keys[r]?
      = some k2 := by
    intro r hr
    obtain ⟨k0, hk0⟩ := hrefs r hr
    obtain ⟨k2, hk2, -⟩ := mcall_steps f after { indexing f before with tables := (indexing f before).tables ++ [T] } r k0 hk0
    exact ⟨k2, hk2⟩
  generalize hw2 : continueWith f { indexing f before with tables := (indexing f before).tables ++ [T] } after = w2 at *
  obtain ⟨k, hk, rfl⟩ := content_some hs
  obtain ⟨seed, n, h0, h1, hn⟩ : ∃ seed n, T.level0[((refMphOps f w2.base.keys).hash 0 s).toNat &&& T.level0Mask]? = some seed ∧
      T.level1[((refMphOps f w2.base.keys).hash seed s).toNat &&& T.level1Mask]? = some n ∧ n.toNat < refs.length := by
    have h0 : ((refMphOps f w2.base.keys).hash 0 s).toNat &&& T.level0Mask < T.level0.length := by
      rw [hB.len0]
      have := Nat.and_le_right (n := ((refMphOps f w2.base.keys).hash 0 s).toNat) (m := T.level0Mask)
      omega
    refine ⟨T.level0[((refMphOps f w2.base.keys).hash 0 s).toNat &&& T.level0Mask], ?_⟩
    have h1 : ((refMphOps f w2.base.keys).hash T.level0[((refMphOps f w2.base.keys).hash 0 s).toNat &&& T.level0Mask] s).toNat &&&
        T.level1Mask < T.level1.length := by
      rw [hB.len1]
      have := Nat.and_le_right (n := ((refMphOps f w2.base.keys).hash
        T.level0[((refMphOps f w2.base.keys).hash 0 s).toNat &&& T.level0Mask] s).toNat) (m := T.level1Mask)
      omega
    refine ⟨_, List.getElem?_eq_getElem h0, List.getElem?_eq_getElem h1, ?_⟩
    rcases hB.rng _ (List.getElem_mem h1) with hr | hr
    · exact hr
    · rw [hr]; exact List.length_pos_iff.mpr hne
  obtain ⟨k2, hk2⟩ := hks _ (List.getElem_mem hn)
  refine ⟨n, decide (k.subKeys = k2.subKeys), refs[n.toNat], ?_, List.getElem?_eq_getElem hn, ?_⟩
  · simp only [MWorld.lookup, hT, hk, MphTable.lookup, h0, h1, hB.verify, if_true, List.getElem?_eq_getElem hn]
    simp only [refMphOps, hk, hk2, KeyObj.equal?_eq]
  · simp only [decide_eq_true_eq, keyContent, hk2, Option.map_some, Option.some.injEq]
    exact ⟨Eq.symm, Eq.symm⟩

example := C193_yes murmurOf twoKeys twoKeysAfter id (fun _ => List.Perm.refl _) 100 77 [0, 1] (by decide)
  ((indexing murmurOf twoKeys).build murmurOf id 100 77 [0, 1] true).1 (Prod.ext rfl (by decide +kernel)) 1 [some [2], some [3]] (by decide +kernel)

/-- A table that verifies by hash does not refer to the keys: what it answers depends only on the sub keys of the probe, and it finds the keys
it was built from, by the sub keys they had then. -/
theorem C193_hash_mode (f : UInt32 → Slice → UInt32) (before after : List TabCall)
    (order : List (Nat × List Nat) → List (Nat × List Nat)) (hord : ∀ l, (order l).Perm l) (fuel : Nat) (vs : UInt32) (refs : List Nat)
    (w : MWorld) (hb : (indexing f before).build f order fuel vs refs false = (w, .ok ())) (s s' : Nat) (c : List Slice)
    (hs : keyContent (continueWith f w after) s = some c) (hs' : keyContent w s' = some c) :
    (continueWith f w after).lookup f (indexing f before).tables.length s = w.lookup f (indexing f before).tables.length s' ∧
      ∀ i, refs[i]? = some s' → ∃ n, n.toNat = i ∧ w.lookup f (indexing f before).tables.length s' = .ok (n, true) := by
  obtain ⟨T, rfl, hB, hrefs, -⟩ := build_ok hord hb
  have hT := tables_steps f after { indexing f before with tables := (indexing f before).tables ++ [T] }
    (indexing f before).tables.length T (by simp)
  generalize hw2 : continueWith f { indexing f before with tables := (indexing f before).tables ++ [T] } after = w2 at *
  obtain ⟨k, hk, e⟩ := content_some hs
  obtain ⟨k', hk', e'⟩ := content_some hs'
  have hh := refHash_eq f hk hk' (e.trans e'.symm)
  have hv := hB.verify
  simp only [Bool.false_eq_true, if_false] at hv
  constructor
  · simp only [MWorld.lookup, hT, hk, hk', List.getElem?_concat_length, MphTable.lookup, hv, hh]
  · intro i hi
    obtain ⟨hlt, seed, h0, h1⟩ := built_index hB hi
    have hn : (UInt32.ofNat i).toNat = i := by rw [UInt32.toNat_ofNat', Nat.mod_eq_of_lt hlt]
    refine ⟨UInt32.ofNat i, hn, ?_⟩
    simp only [MWorld.lookup, hk', List.getElem?_concat_length, MphTable.lookup, hv, h0, h1, hn, List.getElem?_map, hi, Option.map_some,
      decide_true]

example := C193_hash_mode murmurOf twoKeys twoKeysAfter id (fun _ => List.Perm.refl _) 100 77 [0, 1]
  ((indexing murmurOf twoKeys).build murmurOf id 100 77 [0, 1] false).1 (Prod.ext rfl (by decide +kernel)) 2 1 [some [2]] (by decide +kernel)
  (by decide +kernel)

/-- The claim that a table answers the same, whatever happens to the keys it was built from. -/
def TablesAreFixed : Prop :=
  ∀ (before after : List TabCall) (order : List (Nat × List Nat) → List (Nat × List Nat)) (fuel : Nat) (vs : UInt32) (refs : List Nat)
    (byKey : Bool) (w : MWorld) (s s' : Nat), (∀ l, (order l).Perm l) →
    (indexing murmurOf before).build murmurOf order fuel vs refs byKey = (w, .ok ()) → (keyContent w s').isSome →
    keyContent (continueWith murmurOf w after) s = keyContent w s' →
    (continueWith murmurOf w after).lookup murmurOf (indexing murmurOf before).tables.length s =
      w.lookup murmurOf (indexing murmurOf before).tables.length s'

/-- It is false for tables that verify by key. -/
theorem C193_refuted : ¬ TablesAreFixed := by
  intro h
  have hb : ((indexing murmurOf twoKeys).build murmurOf id 100 77 [0, 1] true).2 = .ok () := by decide +kernel
  have := h twoKeys twoKeysAfter id 100 77 [0, 1] true ((indexing murmurOf twoKeys).build murmurOf id 100 77 [0, 1] true).1 2 2
    (fun l => List.Perm.refl l) (by rw [← hb]) (by decide +kernel) (by decide +kernel)
  revert this
  decide +kernel

/-! ### Encoding a table -/

theorem keyBuf_ensure (k : KeyObj) : mphKeyBuf (ensureEncoded k).1 = mphKeyBuf k := by
  rw [ensureEncoded]
  split
  · rfl
  · cases k with
    | empty => rfl
    | mapped _ => rfl
    | key x =>
      rename_i hx
      simp only [KeyObj.encode]
      rw [key_encode_eq]
      split
      · rename_i hl
        have hx' : x.encoded = false := by simpa [KeyObj.isEncoded] using hx
        simp only [mphKeyBuf, KeyObj.isEncoded, hx', if_true, Bool.false_eq_true, if_false, KeyObj.encode, key_encode_eq, if_pos hl]
      · rfl

theorem ensure_buf (k : KeyObj) : (if (ensureEncoded k).2 then (ensureEncoded k).1.getBuf else .err) = mphKeyBuf k := by
  rw [ensureEncoded, mphKeyBuf]
  split
  · rfl
  · rcases k.encode with ⟨k', b⟩
    cases b <;> rfl

/-- The bytes that the keys contribute. -/
def refsBytes (keys : List KeyObj) : List Nat → Res Bytes
  | [] => .ok []
  | i :: is => do
    let b ← match keys[i]? with
      | none => .panic
      | some k => mphKeyBuf k
    let bs ← refsBytes keys is
    .ok (b ++ bs)

theorem refsBytes_congr {keys keys' : List KeyObj} (h : ∀ i : Nat, (keys'[i]?).map mphKeyBuf = (keys[i]?).map mphKeyBuf) :
    ∀ refs, refsBytes keys' refs = refsBytes keys refs
  | [] => rfl
  | i :: is => by
    have hi := h i
    rw [refsBytes, refsBytes, refsBytes_congr h is]
    rcases e : keys[i]? with - | k <;> rcases e' : keys'[i]? with - | k' <;> rw [e, e'] at hi
    · simp at hi
    · simp at hi
    · rw [Option.map_some, Option.map_some, Option.some.injEq] at hi
      dsimp only
      rw [hi]

theorem set_ensure {keys : List KeyObj} {j : Nat} {k : KeyObj} (hj : keys[j]? = some k) (i : Nat) :
    ((keys.set j (ensureEncoded k).1)[i]?).map mphKeyBuf = (keys[i]?).map mphKeyBuf := by
  by_cases e : j = i
  · subst e
    rw [List.getElem?_set_self (List.getElem?_eq_some_iff.mp hj).1, hj, Option.map_some, Option.map_some, keyBuf_ensure]
  · rw [List.getElem?_set_ne e]

theorem encodeRefs_eq : ∀ (refs : List Nat) (keys : List KeyObj), (encodeRefs keys refs).2 = refsBytes keys refs ∧
    ∀ i : Nat, ((encodeRefs keys refs).1[i]?).map mphKeyBuf = (keys[i]?).map mphKeyBuf
  | [], keys => ⟨rfl, fun _ => rfl⟩
  | j :: js, keys => by
    rw [encodeRefs, refsBytes]
    rcases hj : keys[j]? with - | k
    · exact ⟨rfl, fun _ => rfl⟩
    · have hs := set_ensure hj
      obtain ⟨h1, h2⟩ := encodeRefs_eq js (keys.set j (ensureEncoded k).1)
      rw [refsBytes_congr hs] at h1
      simp only
      rw [← ensure_buf]
      split
      · split
        · rename_i b hb
          refine ⟨?_, fun i => (h2 i).trans (hs i)⟩
          simp only [h1, hb, Res.bind_ok]
        · rename_i hb
          exact ⟨by rw [hb]; rfl, hs⟩
        · rename_i hb
          exact ⟨by rw [hb]; rfl, hs⟩
      · exact ⟨rfl, hs⟩

theorem refOps_congr (f : UInt32 → Slice → UInt32) {w w' : MWorld} (h : ∀ i, keyContent w' i = keyContent w i) :
    refMphOps f w'.base.keys = refMphOps f w.base.keys := by
  have hh : ∀ i : Nat, (w'.base.keys[i]?).map KeyObj.subKeys = (w.base.keys[i]?).map KeyObj.subKeys := h
  simp only [refMphOps, MphOps.mk.injEq]
  constructor
  · funext seed i
    have hi := hh i
    rcases e : w.base.keys[i]? with - | k <;> rcases e' : w'.base.keys[i]? with - | k' <;> rw [e, e'] at hi
    · simp at hi
    · simp at hi
    · simp only [Option.map_some, Option.some.injEq] at hi
      simp only [KeyObj.hash_eq, hi]
  · funext i j
    have hi := hh i
    have hj := hh j
    rcases e : w.base.keys[i]? with - | k <;> rcases e' : w'.base.keys[i]? with - | k' <;> rw [e, e'] at hi
    · simp at hi
    · simp at hi
    · rcases d : w.base.keys[j]? with - | l <;> rcases d' : w'.base.keys[j]? with - | l' <;> rw [d, d'] at hj
      · simp at hj
      · simp at hj
      · simp only [Option.map_some, Option.some.injEq] at hi hj
        simp only [KeyObj.equal?_eq, hi, hj]

theorem lookup_congr (f : UInt32 → Slice → UInt32) {w w' : MWorld} (h : ∀ i, keyContent w' i = keyContent w i) (ht : w'.tables = w.tables)
    (t s : Nat) : w'.lookup f t s = w.lookup f t s := by
  have hs : (w'.base.keys[s]?).map KeyObj.subKeys = (w.base.keys[s]?).map KeyObj.subKeys := h s
  rw [MWorld.lookup, MWorld.lookup, refOps_congr f h, ht]
  rcases e : w.base.keys[s]? with - | k <;> rcases e' : w'.base.keys[s]? with - | k' <;> rw [e, e'] at hs
  · simp at hs
  · simp at hs
  · rcases w.tables[t]? with - | T <;> rfl

/-- `Encode` of a table changes no sub keys and no answers, and again gives the same. -/
theorem C193_encode (f : UInt32 → Slice → UInt32) (w : MWorld) (t : Nat) :
    (∀ i, keyContent (w.encode t).1 i = keyContent w i) ∧ ((w.encode t).1.encode t).2 = (w.encode t).2 ∧
      ∀ t' s, (w.encode t).1.lookup f t' s = w.lookup f t' s := by
  have ht : (w.encode t).1.tables = w.tables := by
    rw [MWorld.encode]
    split
    · rfl
    · simp only
      split <;> rfl
  have hl : (w.encode t).1.base.keys.length = w.base.keys.length := by
    have key : ∀ (refs : List Nat) (keys : List KeyObj), (encodeRefs keys refs).1.length = keys.length := by
      intro refs
      induction refs with
      | nil => intro keys; rfl
      | cons j js ih =>
        intro keys
        rw [encodeRefs]
        split
        · rfl
        · simp only
          split
          · split
            · rw [ih, List.length_set]
            · rw [List.length_set]
            · rw [List.length_set]
          · rw [List.length_set]
    rw [MWorld.encode]
    split
    · rfl
    · simp only
      split
      · exact key _ _
      · rfl
  have hc : ∀ i, keyContent (w.encode t).1 i = keyContent w i := by
    intro i
    rcases e : w.base.keys[i]? with - | k
    · have : (w.encode t).1.base.keys[i]? = none := by
        rw [List.getElem?_eq_none_iff] at e ⊢
        omega
      rw [keyContent, keyContent, e, this]
    · obtain ⟨k', h1, g⟩ := encodeTable_step w t i k e
      rw [keyContent, keyContent, e, h1, Option.map_some, Option.map_some, Option.some.injEq]
      cases k with
      | key x => obtain ⟨x', rfl, ex⟩ := g; simp [KeyObj.subKeys, ex]
      | empty => cases g; rfl
      | mapped _ => cases g; rfl
  refine ⟨hc, ?_, fun t' s => lookup_congr f hc ht t' s⟩
  rw [MWorld.encode, ht]
  rcases hT : w.tables[t]? with - | T
  · rw [MWorld.encode, hT]
  · rcases hv : T.verify with refs | ⟨seed, hs⟩
    · simp only [MWorld.encode, hT, hv]
      rw [(encodeRefs_eq _ _).1, (encodeRefs_eq _ _).1, refsBytes_congr (encodeRefs_eq refs w.base.keys).2]
    · simp only [MWorld.encode, hT, hv]

/-! ### Saving a table -/

theorem refsBytes_objects (keys : List KeyObj) : ∀ (refs : List Nat), (∀ r ∈ refs, ∃ k, keys[r]? = some k) →
    refsBytes keys refs = mphKeyBufs (refs.map fun r => (keys[r]?).getD .empty)
  | [], _ => rfl
  | r :: rs, h => by
    obtain ⟨k, hk⟩ := h r (by simp)
    rw [refsBytes, List.map_cons, mphKeyBufs, refsBytes_objects keys rs (fun r hr => h r (by simp [hr]))]
    simp only [hk, Option.getD_some]

/-- A table that verifies by key is saved at any time after it was built, while none of its keys is in a state with outdated bytes: the
table that is loaded again answers like the one in memory. -/
theorem C193_saved_partial (f : UInt32 → Slice → UInt32) (before after : List TabCall)
    (order : List (Nat × List Nat) → List (Nat × List Nat)) (hord : ∀ l, (order l).Perm l) (fuel : Nat) (vs : UInt32) (refs : List Nat)
    (hlen : refs.length ≤ 2 ^ 31) (w : MWorld) (hb : (indexing f before).build f order fuel vs refs true = (w, .ok ()))
    (hs : ∀ r ∈ refs, ∀ k, (continueWith f w after).base.keys[r]? = some k → SoundKey k) (enc : Bytes)
    (he : ((continueWith f w after).encode (indexing f before).tables.length).2 = .ok enc) (rest : Bytes)
    (hl : (enc ++ rest).length ≤ 2 ^ 43) :
    ∃ t', newMphTable (enc ++ rest) = .ok (t', enc.length) ∧ ∀ (s : Nat) (k : KeyObj), (continueWith f w after).base.keys[s]? = some k →
      t'.lookup (keyMphOps f) k = (continueWith f w after).lookup f (indexing f before).tables.length s := by
  obtain ⟨T, rfl, hB, hrefs, -⟩ := build_ok hord hb
  have hT := tables_steps f after { indexing f before with tables := (indexing f before).tables ++ [T] }
    (indexing f before).tables.length T (by simp)
  have hks : ∀ r ∈ refs, ∃ k2, (continueWith f { indexing f before with tables := (indexing f before).tables ++ [T] } after).base.keys[r]?
      = some k2 := by
    intro r hr
    obtain ⟨k0, hk0⟩ := hrefs r hr
    obtain ⟨k2, hk2, -⟩ := mcall_steps f after { indexing f before with tables := (indexing f before).tables ++ [T] } r k0 hk0
    exact ⟨k2, hk2⟩
  have hf := hB.fits32 hlen
  have hv := hB.verify
  generalize hw2 : continueWith f { indexing f before with tables := (indexing f before).tables ++ [T] } after = w2 at *
  simp only [if_true] at hv
  simp only [MWorld.encode, hT, hv] at he
  rw [(encodeRefs_eq _ _).1, refsBytes_objects _ _ hks, Res.bind_eq_ok] at he
  obtain ⟨bs, hbs, he⟩ := he
  simp only [Res.ok.injEq] at he
  have hsound : ∀ k ∈ refs.map fun r => (w2.base.keys[r]?).getD .empty, SoundKey k := by
    intro k hk
    obtain ⟨r, hr, rfl⟩ := List.mem_map.mp hk
    obtain ⟨k2, hk2⟩ := hks r hr
    rw [hk2]
    exact hs r hr k2 hk2
  have hbs' := soundKeys_bufs hsound hbs
  generalize hobj : refs.map (fun r => (w2.base.keys[r]?).getD .empty) = objs at *
  have hlo : objs.length = refs.length := by rw [← hobj, List.length_map]
  subst hbs'
  subst he
  rw [← hlo]
  rw [← hlo] at hl
  refine ⟨_, load_key_mode ⟨T.level0, T.level0Mask, T.level1, T.level1Mask, .keys objs⟩ ⟨hf.l0, hf.m0, hf.l1, hf.m1⟩ objs (by omega) rest ?_,
    fun s k hk => ?_⟩
  · simp only [List.length_append, maxMake24] at hl ⊢; omega
  · have hh : ∀ seed, (refMphOps f w2.base.keys).hash seed s = (keyMphOps f).hash seed k := fun seed => by simp only [refMphOps, hk, keyMphOps]
    simp only [MWorld.lookup, hT, hk, MphTable.lookup, hv, hh]
    have hg := loadedKeys_getElem? objs rest (fun k hk => soundKey_nil (hsound k hk))
    split
    · rfl
    · split
      · rfl
      · rename_i n _
        have hn := hg n.toNat
        have hx : objs[n.toNat]? = (refs[n.toNat]?).map fun r => (w2.base.keys[r]?).getD .empty := by rw [← hobj, List.getElem?_map]
        rw [hx] at hn
        rcases hr : refs[n.toNat]? with - | r
        · rw [hr] at hn
          generalize (loadedKeys objs rest)[n.toNat]? = o1 at hn ⊢
          rcases o1 with - | k1
          · rfl
          · simp at hn
        · obtain ⟨k2, hk2⟩ := hks r (List.mem_of_getElem? hr)
          rw [hr] at hn
          generalize (loadedKeys objs rest)[n.toNat]? = o1 at hn ⊢
          rcases o1 with - | k1
          · simp at hn
          · simp only [Option.map_some, Option.some.injEq, hk2, Option.getD_some] at hn
            simp only [keyMphOps, KeyObj.equal?_eq, hn, refMphOps, hk, hk2]

/-- The calls that make keys from sub keys that are not nil, and encode them. -/
def plainCall : TabCall → Bool
  | .on .newKey => true
  | .on (.add _ s) => s.isSome
  | .on (.encodeKey _) => true
  | .encodeTable _ => true
  | _ => false

/-- The claim that a saved and loaded table answers like the one in memory, for keys that were made in the plainest way. -/
def TablesSaveWhatTheyAnswer : Prop :=
  ∀ (before after : List TabCall) (order : List (Nat × List Nat) → List (Nat × List Nat)) (fuel : Nat) (vs : UInt32) (refs : List Nat)
    (w : MWorld) (enc : Bytes), (∀ l, (order l).Perm l) → before.all plainCall = true → after.all plainCall = true →
    (indexing murmurOf before).build murmurOf order fuel vs refs true = (w, .ok ()) →
    ((continueWith murmurOf w after).encode (indexing murmurOf before).tables.length).2 = .ok enc →
    ∃ t', newMphTable enc = .ok (t', enc.length) ∧ ∀ (s : Nat) (k : KeyObj), (continueWith murmurOf w after).base.keys[s]? = some k →
      t'.lookup murmurMphOps k = (continueWith murmurOf w after).lookup murmurOf (indexing murmurOf before).tables.length s

/-- It is false: a key that was encoded before keeps its bytes when a sub key is added, so the loaded table finds what the one in memory
does not find any more. -/
theorem C193_saved_refuted : ¬ TablesSaveWhatTheyAnswer := by
  intro h
  obtain ⟨t', h1, h2⟩ := h [.on .newKey, .on (.add 0 (some [1])), .on (.encodeKey 0), .on .newKey, .on (.add 1 (some [1]))]
    [.on (.add 0 (some [2]))] id 100 77 [0]
    ((indexing murmurOf [.on .newKey, .on (.add 0 (some [1])), .on (.encodeKey 0), .on .newKey, .on (.add 1 (some [1]))]).build murmurOf id
      100 77 [0] true).1
    [1, 0, 0, 0, 1, 0, 0, 0, 0, 0, 0, 0, 0, 0, 0, 0, 1, 0, 0, 0, 0, 0, 0, 0, 0, 0, 0, 0, 1, 1, 1, 1]
    (fun l => List.Perm.refl l) (by decide +kernel) (by decide +kernel)
    (Prod.ext rfl (by decide +kernel)) (by decide +kernel)
  have h3 : newMphTable [1, 0, 0, 0, 1, 0, 0, 0, 0, 0, 0, 0, 0, 0, 0, 0, 1, 0, 0, 0, 0, 0, 0, 0, 0, 0, 0, 0, 1, 1, 1, 1]
      = .ok (⟨[0], 0, [0], 0, .keys [.mapped ⟨[some [1]], [1, 1, 1]⟩]⟩, 32) := by decide +kernel
  rw [h3] at h1
  simp only [Res.ok.injEq, Prod.mk.injEq] at h1
  rw [← h1.1] at h2
  have := h2 1 (.key ⟨false, [some [1]], none, 3⟩) (by decide +kernel)
  revert this
  decide +kernel

/-- `C193_saved_partial` applies to a table one of whose keys got a sub key after the build and was then encoded. -/
example : ∃ w enc, (indexing murmurOf twoKeys).build murmurOf id 100 77 [0, 1] true = (w, .ok ()) ∧
    (∀ r ∈ [0, 1], ∀ k, (continueWith murmurOf w [.on (.add 1 (some [3])), .on (.encodeKey 1)]).base.keys[r]? = some k → SoundKey k) ∧
    ((continueWith murmurOf w [.on (.add 1 (some [3])), .on (.encodeKey 1)]).encode (indexing murmurOf twoKeys).tables.length).2 = .ok enc ∧
    (enc ++ [7]).length ≤ 2 ^ 43 := by
  refine ⟨((indexing murmurOf twoKeys).build murmurOf id 100 77 [0, 1] true).1,
    [1, 0, 0, 0, 1, 0, 0, 0, 1, 0, 0, 0, 0, 0, 0, 0, 2, 0, 0, 0, 1, 0, 0, 0, 0, 0, 0, 0, 1, 0, 0, 0, 2, 1, 1, 1, 2, 1, 2, 1, 3],
    Prod.ext rfl (by decide +kernel), ?_, by decide +kernel, by decide⟩
  intro r hr k hk
  have h0 : (continueWith murmurOf ((indexing murmurOf twoKeys).build murmurOf id 100 77 [0, 1] true).1
      [.on (.add 1 (some [3])), .on (.encodeKey 1)]).base.keys[0]? = some (.key ⟨false, [some [1]], none, 3⟩) := by decide +kernel
  have h1 : (continueWith murmurOf ((indexing murmurOf twoKeys).build murmurOf id 100 77 [0, 1] true).1
      [.on (.add 1 (some [3])), .on (.encodeKey 1)]).base.keys[1]? =
        some (.key (Key.encode ⟨false, [some [2], some [3]], none, 5⟩).1) := by decide +kernel
  simp only [List.mem_cons, List.not_mem_nil, or_false] at hr
  rcases hr with rfl | rfl
  · rw [h0] at hk
    cases hk
    exact .fresh _ rfl (by decide)
  · rw [h1] at hk
    cases hk
    exact .encoded ⟨false, [some [2], some [3]], none, 5⟩ _ (by decide) (by decide +kernel)

example := C193_encode murmurOf (indexing murmurOf twoKeys) 0

end Poodle.Props
