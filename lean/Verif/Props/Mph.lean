import Verif.Lemmas.Mph
import Verif.Lemmas.Key

/-
Properties C34-C37 and C41: minimal perfect hash tables (/repo/src/util/mph_util.go).
-/

namespace Poodle.Props
open Poodle Poodle.Spec

variable {K : Type}

/-- What the key type must satisfy: `Equal` returns, is reflexive, and agrees with the hash under every seed. -/
structure LawfulMph (ops : MphOps K) : Prop where
  total : ∀ a b, ops.equal a b ≠ none
  refl : ∀ a, ops.equal a a = some true
  hash : ∀ a b, ops.equal a b = some true → ∀ seed, ops.hash seed a = ops.hash seed b

/-- Composite keys satisfy it, for every hash function of byte slices. -/
theorem keyMphOps_lawful (f : UInt32 → Slice → UInt32) : LawfulMph (keyMphOps f) := by
  refine ⟨fun a b => ?_, fun a => ?_, fun a b h seed => ?_⟩
  · simp [keyMphOps, KeyObj.equal?_eq]
  · simp [keyMphOps, KeyObj.equal?_eq]
  · simp only [keyMphOps, KeyObj.equal?_eq, Option.some.injEq, decide_eq_true_eq] at h
    simp only [keyMphOps, KeyObj.hash_eq, h]

theorem built_of_ok {ops : MphOps K} {order : List (Nat × List Nat) → List (Nat × List Nat)} (hord : ∀ l, (order l).Perm l)
    {fuel : Nat} {vs : UInt32} {keys : List K} {byKey : Bool} {t : MphTable K}
    (h : mphBuild ops order fuel vs keys byKey = .ok t) : Built ops vs keys byKey t := by
  rcases mphBuild_spec ops order hord fuel vs keys byKey with e | ⟨t', e, hB⟩
  · rw [e] at h; simp at h
  · rw [e] at h; simp only [Res.ok.injEq] at h; exact h ▸ hB

/-- The position found by the two hash levels. -/
theorem built_position {ops : MphOps K} {vs : UInt32} {keys : List K} {byKey : Bool} {t : MphTable K}
    (h : Built ops vs keys byKey t) (s : K) : ∃ seed n, t.level0[(ops.hash 0 s).toNat &&& t.level0Mask]? = some seed ∧
      t.level1[(ops.hash seed s).toNat &&& t.level1Mask]? = some n ∧ (keys ≠ [] → n.toNat < keys.length) := by
  have h0 : (ops.hash 0 s).toNat &&& t.level0Mask < t.level0.length := by
    rw [h.len0]; have := Nat.and_le_right (n := (ops.hash 0 s).toNat) (m := t.level0Mask); omega
  refine ⟨t.level0[(ops.hash 0 s).toNat &&& t.level0Mask], ?_⟩
  have h1 : (ops.hash t.level0[(ops.hash 0 s).toNat &&& t.level0Mask] s).toNat &&& t.level1Mask < t.level1.length := by
    rw [h.len1]
    have := Nat.and_le_right (n := (ops.hash t.level0[(ops.hash 0 s).toNat &&& t.level0Mask] s).toNat) (m := t.level1Mask); omega
  refine ⟨_, List.getElem?_eq_getElem h0, List.getElem?_eq_getElem h1, fun hne => ?_⟩
  rcases h.rng _ (List.getElem_mem h1) with hr | hr
  · exact hr
  · rw [hr]; exact List.length_pos_iff.mpr hne

/-- The position of a built key is its index. -/
theorem built_index {ops : MphOps K} {vs : UInt32} {keys : List K} {byKey : Bool} {t : MphTable K}
    (h : Built ops vs keys byKey t) {i : Nat} {k : K} (hk : keys[i]? = some k) : i < 2 ^ 32 ∧ ∃ seed,
      t.level0[(ops.hash 0 k).toNat &&& t.level0Mask]? = some seed ∧
      t.level1[(ops.hash seed k).toNat &&& t.level1Mask]? = some (UInt32.ofNat i) := by
  obtain ⟨P, -, hv, hp⟩ := h.placed
  obtain ⟨s, h0, hin⟩ := hp i k hk
  have := h.length_le
  have := (List.getElem?_eq_some_iff.mp hk).1
  exact ⟨by omega, s, h0, hv _ hin⟩

/-! ### C34 Perfect hash finds every key -/

/-- C34: if MPHBuild returns, Lookup of the `i`-th key returns `(i, true)`, in both modes, for every hash family, every
verification seed, every order of the buckets and any number of seed attempts. -/
theorem C34_finds_every_key (ops : MphOps K) (hl : LawfulMph ops) (order : List (Nat × List Nat) → List (Nat × List Nat))
    (hord : ∀ l, (order l).Perm l) (fuel : Nat) (vs : UInt32) (keys : List K) (byKey : Bool) (t : MphTable K)
    (h : mphBuild ops order fuel vs keys byKey = .ok t) (i : Nat) (k : K) (hk : keys[i]? = some k) :
    ∃ n, t.lookup ops k = .ok (n, true) ∧ n.toNat = i := by
  have hB := built_of_ok hord h
  obtain ⟨hi, s, h0, h1⟩ := built_index hB hk
  have hn : (UInt32.ofNat i).toNat = i := by rw [UInt32.toNat_ofNat', Nat.mod_eq_of_lt hi]
  refine ⟨UInt32.ofNat i, ?_, hn⟩
  unfold MphTable.lookup
  simp only [h0, h1, hB.verify]
  cases byKey with
  | true => simp only [if_true, hn, hk, hl.refl]
  | false => simp only [Bool.false_eq_true, if_false, hn, List.getElem?_map, hk, Option.map_some, decide_true]

/-- Nine simple keys (so that there are two buckets). -/
def nineKeys : List KeyObj :=
  [[1], [2], [3], [4, 4], [5], [], [7, 7, 7], [8], [9]].map fun b => .key (newSimpleKey (some b))

/-- The results of looking up a list of probes in a table built with Murmur hashing and the buckets in reverse order. -/
def buildAndProbe (keys probes : List KeyObj) (byKey : Bool) : List (Res (UInt32 × Bool)) :=
  match mphBuild murmurMphOps List.reverse 100 77 keys byKey with
  | .ok t => probes.map (t.lookup murmurMphOps)
  | _ => []

example : (∀ l : List (Nat × List Nat), l.reverse.Perm l) ∧ LawfulMph murmurMphOps :=
  ⟨fun l => List.reverse_perm l, keyMphOps_lawful _⟩

example : buildAndProbe nineKeys nineKeys true = (List.range 9).map (fun i => .ok (UInt32.ofNat i, true)) ∧
    buildAndProbe nineKeys nineKeys false = (List.range 9).map (fun i => .ok (UInt32.ofNat i, true)) := by
  decide +kernel

/-! ### C35 Perfect hash rejects foreign keys in key mode -/

/-- C35: with verification by key and at least one key, Lookup returns for every probe; it reports success exactly for
probes `Equal` to a built key, and then the index is the index of that key. -/
theorem C35_key_mode_exact (ops : MphOps K) (hl : LawfulMph ops) (order : List (Nat × List Nat) → List (Nat × List Nat))
    (hord : ∀ l, (order l).Perm l) (fuel : Nat) (vs : UInt32) (keys : List K) (hne : keys ≠ []) (t : MphTable K)
    (h : mphBuild ops order fuel vs keys true = .ok t) (s : K) :
    ∃ n b, t.lookup ops s = .ok (n, b) ∧ (b = true ↔ ∃ k ∈ keys, ops.equal s k = some true) ∧
      ∀ j k, keys[j]? = some k → ops.equal s k = some true → n.toNat = j := by
  have hB := built_of_ok hord h
  obtain ⟨seed, n, h0, h1, hn⟩ := built_position hB s
  have hlt := hn hne
  obtain ⟨b, hb⟩ : ∃ b, ops.equal s keys[n.toNat] = some b := by
    cases e : ops.equal s keys[n.toNat] with
    | none => exact absurd e (hl.total _ _)
    | some b => exact ⟨b, rfl⟩
  have huniq : ∀ j k, keys[j]? = some k → ops.equal s k = some true → n.toNat = j := by
    intro j k hk he
    obtain ⟨hj, seed', h0', h1'⟩ := built_index hB hk
    have hh := hl.hash s k he
    rw [← hh, h0, Option.some.injEq] at h0'
    subst h0'
    rw [← hh, h1, Option.some.injEq] at h1'
    rw [h1', UInt32.toNat_ofNat', Nat.mod_eq_of_lt hj]
  refine ⟨n, b, ?_, ?_, huniq⟩
  · unfold MphTable.lookup
    simp only [h0, h1, hB.verify, if_true, List.getElem?_eq_getElem hlt, hb]
  · constructor
    · rintro rfl
      exact ⟨_, List.getElem_mem hlt, hb⟩
    · rintro ⟨k, hk, he⟩
      obtain ⟨j, hj, rfl⟩ := List.mem_iff_getElem.mp hk
      have e := huniq j _ (List.getElem?_eq_getElem hj) he
      subst e
      rw [hb, Option.some.injEq] at he
      exact he

example := C35_key_mode_exact murmurMphOps (keyMphOps_lawful _) id (fun l => List.Perm.refl l) 100 20
  [.key (newSimpleKey (some [1])), .key (newSimpleKey (some [2]))] (by decide)
  ⟨[1], 0, [1, 0], 1, .keys [.key (newSimpleKey (some [1])), .key (newSimpleKey (some [2]))]⟩ (by decide +kernel) (.key (newSimpleKey (some [3])))

/-- Composite keys: success means the same sub keys. -/
theorem C35_composite_keys (f : UInt32 → Slice → UInt32) (order : List (Nat × List Nat) → List (Nat × List Nat))
    (hord : ∀ l, (order l).Perm l) (fuel : Nat) (vs : UInt32) (keys : List KeyObj) (hne : keys ≠ []) (t : MphTable KeyObj)
    (h : mphBuild (keyMphOps f) order fuel vs keys true = .ok t) (s : KeyObj) :
    ∃ n b, t.lookup (keyMphOps f) s = .ok (n, b) ∧
      (b = true ↔ ∃ k, keys[n.toNat]? = some k ∧ s.subKeys = k.subKeys) ∧ (b = false → ∀ k ∈ keys, s.subKeys ≠ k.subKeys) := by
  obtain ⟨n, b, h1, h2, h3⟩ := C35_key_mode_exact (keyMphOps f) (keyMphOps_lawful f) order hord fuel vs keys hne t h s
  have heq : ∀ k : KeyObj, (keyMphOps f).equal s k = some true ↔ s.subKeys = k.subKeys := by
    intro k; simp [keyMphOps, KeyObj.equal?_eq]
  refine ⟨n, b, h1, ?_, fun hb k hk he => ?_⟩
  · rw [h2]
    constructor
    · rintro ⟨k, hk, he⟩
      obtain ⟨j, hj, rfl⟩ := List.mem_iff_getElem.mp hk
      have e := h3 j _ (List.getElem?_eq_getElem hj) he
      exact ⟨keys[j], by rw [e]; exact List.getElem?_eq_getElem hj, (heq _).mp he⟩
    · rintro ⟨k, hk, he⟩
      exact ⟨k, List.mem_of_getElem? hk, (heq k).mpr he⟩
  · have := h2.mpr ⟨k, hk, (heq k).mpr he⟩
    simp [hb] at this

example : (buildAndProbe nineKeys ([[6], [1, 1], [4]].map fun b => .key (newSimpleKey (some b))) true).map
    (fun r => match r with | .ok (_, b) => some b | _ => none) = [some false, some false, some false] := by decide +kernel

/-! ### C36 Perfect hash false positives in hash mode are verification-hash collisions -/

/-- C36: with verification by hash and at least one key, Lookup of any probe returns an index below the number of keys, and
success exactly when the probe and the key at that index have the same verification hash. -/
theorem C36_hash_mode_exact (ops : MphOps K) (order : List (Nat × List Nat) → List (Nat × List Nat))
    (hord : ∀ l, (order l).Perm l) (fuel : Nat) (vs : UInt32) (keys : List K) (hne : keys ≠ []) (t : MphTable K)
    (h : mphBuild ops order fuel vs keys false = .ok t) (s : K) :
    ∃ n b k, t.lookup ops s = .ok (n, b) ∧ keys[n.toNat]? = some k ∧ (b = true ↔ ops.hash vs s = ops.hash vs k) := by
  have hB := built_of_ok hord h
  obtain ⟨seed, n, h0, h1, hn⟩ := built_position hB s
  have hlt := hn hne
  refine ⟨n, _, keys[n.toNat], ?_, List.getElem?_eq_getElem hlt, decide_eq_true_iff⟩
  unfold MphTable.lookup
  simp only [h0, h1, hB.verify, Bool.false_eq_true, if_false, List.getElem?_map, List.getElem?_eq_getElem hlt, Option.map_some]

example : (buildAndProbe nineKeys ([[6], [1, 1], [4]].map fun b => .key (newSimpleKey (some b))) false).map
    (fun r => match r with | .ok (_, b) => some b | _ => none) = [some false, some false, some false] := by decide +kernel

/-! ### C37 Perfect hash building terminates -/

/-- MPHBuild returns. -/
def MphTerminates (ops : MphOps K) (order : List (Nat × List Nat) → List (Nat × List Nat)) (vs : UInt32) (keys : List K)
    (byKey : Bool) : Prop := ∃ fuel t, mphBuild ops order fuel vs keys byKey = .ok t

/-- C37, a necessary condition: if MPHBuild returns, any two keys at different positions are separated by the hash under some
seed.  (In particular a list with two equal keys never returns.) -/
theorem C37_necessary_partial (ops : MphOps K) (order : List (Nat × List Nat) → List (Nat × List Nat))
    (hord : ∀ l, (order l).Perm l) (vs : UInt32) (keys : List K) (byKey : Bool) (h : MphTerminates ops order vs keys byKey)
    (i j : Nat) (a b : K) (ha : keys[i]? = some a) (hb : keys[j]? = some b) (hij : i ≠ j) :
    ∃ seed, ops.hash seed a ≠ ops.hash seed b := by
  obtain ⟨fuel, t, ht⟩ := h
  have hB := built_of_ok hord ht
  obtain ⟨hi, s, h0, h1⟩ := built_index hB ha
  obtain ⟨hj, s', h0', h1'⟩ := built_index hB hb
  by_contra hc
  push Not at hc
  rw [← hc 0, h0, Option.some.injEq] at h0'
  subst h0'
  rw [← hc s, h1, Option.some.injEq] at h1'
  have := congrArg UInt32.toNat h1'
  rw [UInt32.toNat_ofNat', UInt32.toNat_ofNat', Nat.mod_eq_of_lt hi, Nat.mod_eq_of_lt hj] at this
  exact hij this

example := C37_necessary_partial murmurMphOps id (fun l => List.Perm.refl l) 20 [.key (newSimpleKey (some [1])), .key (newSimpleKey (some [2]))] true
  ⟨100, ⟨[1], 0, [1, 0], 1, .keys [.key (newSimpleKey (some [1])), .key (newSimpleKey (some [2]))]⟩, by decide +kernel⟩ 0 1 _ _ rfl rfl (by decide)

/-- The claim of C37. -/
def MphAlwaysTerminates : Prop :=
  ∀ (order : List (Nat × List Nat) → List (Nat × List Nat)) (vs : UInt32) (keys : List KeyObj) (byKey : Bool),
    (∀ l, (order l).Perm l) → keys.Pairwise (fun a b => a.equal? b = some false) →
    MphTerminates murmurMphOps order vs keys byKey

/-- C37 is false: for the two unequal keys (1,2) and (2,1) MPHBuild runs forever, because their hashes agree under
every seed. -/
theorem C37_refuted : ¬ MphAlwaysTerminates := by
  intro h
  have := C37_necessary_partial _ id (fun l => List.Perm.refl l) 0 _ true
    (h id 0 [.key { newKey with keys := [some [1], some [2]] }, .key { newKey with keys := [some [2], some [1]] }] true
      (fun l => List.Perm.refl l) (by simp [KeyObj.equal?_eq, KeyObj.subKeys]))
    0 1 _ _ rfl rfl (by decide)
  obtain ⟨seed, hs⟩ := this
  apply hs
  simp [murmurMphOps, keyMphOps, KeyObj.hash, newKey, UInt32.xor_comm]

/-- The two keys of `C37_refuted` are built by the API. -/
example : addAll newKey [some [1], some [2]] = .ok { newKey with keys := [some [1], some [2]], estBufSize := 5 } := by
  decide +kernel

/-- C37, exact bound: MPHBuild returns if and only if 2^32 attempts per bucket suffice, and then further attempts do not change
the table: a build that does not finish within 2^32 attempts for some bucket never finishes. -/
theorem C37_terminates_iff_partial (ops : MphOps K) (order : List (Nat × List Nat) → List (Nat × List Nat))
    (hord : ∀ l, (order l).Perm l) (vs : UInt32) (keys : List K) (byKey : Bool) (fuel : Nat) (hf : 2 ^ 32 ≤ fuel) :
    mphBuild ops order fuel vs keys byKey = mphBuild ops order (2 ^ 32) vs keys byKey :=
  mphBuild_stable ops order hord fuel hf vs keys byKey

example := C37_terminates_iff_partial murmurMphOps List.reverse (fun l => List.reverse_perm l) 77 nineKeys true (2 ^ 33) (by decide)

/-- C37: with at most one key MPHBuild returns at the first attempt, for every hash family. -/
theorem C37_one_key_partial (ops : MphOps K) (order : List (Nat × List Nat) → List (Nat × List Nat))
    (hord : ∀ l, (order l).Perm l) (vs : UInt32) (keys : List K) (hlen : keys.length ≤ 1) (byKey : Bool) :
    ∃ t, mphBuild ops order 1 vs keys byKey = .ok t := by
  have ho0 : order [] = [] := (hord []).eq_nil
  have ho1 : order [(0, [0])] = [(0, [0])] := List.perm_singleton.mp (hord [(0, [0])])
  match keys, hlen with
  | [], _ =>
    simp [mphBuild, nextPow2, nextPow2Loop, mphSparse, mphBuckets, ho0, mphFill]
  | [k], _ =>
    simp [mphBuild, nextPow2, nextPow2Loop, mphSparse, mphBuckets, ho1, mphFill, mphSearch, mphPlace]

example := C37_one_key_partial murmurMphOps List.reverse (fun l => List.reverse_perm l) 77 [.key (newSimpleKey (some [1]))] (by decide) true

/-! ### C41 Lookup on an empty table -/

/-- The claim of C41. -/
def EmptyTableRejects : Prop :=
  ∀ (order : List (Nat × List Nat) → List (Nat × List Nat)) (fuel : Nat) (vs : UInt32) (byKey : Bool) (t : MphTable KeyObj)
    (s : KeyObj), (∀ l, (order l).Perm l) → mphBuild murmurMphOps order fuel vs [] byKey = .ok t →
    ∃ n, t.lookup murmurMphOps s = .ok (n, false)

/-- C41, exactly: a table built from zero keys always exists, and every Lookup on it panics. -/
theorem C41_empty_panics_partial (ops : MphOps K) (order : List (Nat × List Nat) → List (Nat × List Nat))
    (hord : ∀ l, (order l).Perm l) (fuel : Nat) (vs : UInt32) (byKey : Bool) :
    ∃ t, mphBuild ops order fuel vs [] byKey = .ok t ∧ ∀ s, t.lookup ops s = .panic := by
  have ho0 : order [] = [] := (hord []).eq_nil
  refine ⟨⟨[0], 0, [0], 0, if byKey then .keys [] else .hashes vs []⟩, ?_, fun s => ?_⟩
  · simp [mphBuild, nextPow2, nextPow2Loop, mphSparse, mphBuckets, ho0, mphFill]
  · cases byKey <;> simp [MphTable.lookup]

example := C41_empty_panics_partial murmurMphOps List.reverse (fun l => List.reverse_perm l) 100 77 true

/-- C41 is false. -/
theorem C41_refuted : ¬ EmptyTableRejects := by
  intro h
  obtain ⟨t, h1, h2⟩ := C41_empty_panics_partial murmurMphOps id (fun l => List.Perm.refl l) 0 0 true
  obtain ⟨n, hn⟩ := h id 0 0 true t .empty (fun l => List.Perm.refl l) h1
  rw [h2] at hn
  simp at hn

end Poodle.Props
