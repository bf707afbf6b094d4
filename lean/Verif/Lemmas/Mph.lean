import Verif.Model.Mph
import Mathlib.Data.List.Nodup
import Mathlib.Data.Fintype.Card
import Mathlib.Tactic.Ring

/-
Lemmas about the perfect hash builder.
-/

namespace Poodle

set_option linter.unusedSimpArgs false

variable {K : Type}

theorem nextPow2Loop_spec : ∀ (fuel i n : Nat), 1 ≤ i → n ≤ i * 2 ^ fuel →
    ∃ k, nextPow2Loop fuel i n = i * 2 ^ k ∧ n ≤ i * 2 ^ k ∧ (k = 0 ∨ i * 2 ^ k < 2 * n)
  | 0, i, n, _, h => ⟨0, by simp [nextPow2Loop], by simpa using h, Or.inl rfl⟩
  | fuel + 1, i, n, hi, h => by
    rw [nextPow2Loop]
    split
    · rename_i hge
      exact ⟨0, by simp, by simpa using hge, Or.inl rfl⟩
    · rename_i hge
      obtain ⟨k, h1, h2, h3⟩ := nextPow2Loop_spec fuel (i * 2) n (by omega) (by
        rw [show i * 2 ^ (fuel + 1) = i * 2 * 2 ^ fuel by rw [pow_succ]; ring] at h; exact h)
      have e : i * 2 * 2 ^ k = i * 2 ^ (k + 1) := by rw [pow_succ]; ring
      rw [e] at h1 h2 h3
      refine ⟨k + 1, h1, h2, Or.inr ?_⟩
      rcases h3 with rfl | h3
      · simp only [zero_add, pow_one] at *; omega
      · exact h3

theorem nextPow2_spec (n : Nat) : ∃ k, nextPow2 n = 2 ^ k ∧ n ≤ 2 ^ k ∧ (k = 0 ∨ 2 ^ k < 2 * n) := by
  obtain ⟨k, h1, h2, h3⟩ := nextPow2Loop_spec n 1 n (by omega) (by simpa using Nat.le_of_lt n.lt_two_pow_self)
  exact ⟨k, by simpa [nextPow2] using h1, by simpa using h2, by simpa using h3⟩

theorem nextPow2_pos (n : Nat) : 1 ≤ nextPow2 n := by
  obtain ⟨k, h, -, -⟩ := nextPow2_spec n
  rw [h]; exact Nat.one_le_two_pow

/-! ### Sparse buckets -/

/-- Bucket number of a key. -/
def slot0 (hash : UInt32 → K → UInt32) (mask : Nat) (k : K) : Nat := (hash 0 k).toNat &&& mask

theorem mphSparse_spec (hash : UInt32 → K → UInt32) (mask : Nat) : ∀ (ks : List K) (i : Nat) (sp : List (List Nat)),
    sp.length = mask + 1 → ∃ sp', mphSparse hash mask ks i sp = .ok sp' ∧ sp'.length = mask + 1 ∧
      ∀ n j, (∃ v, sp'[n]? = some v ∧ j ∈ v) ↔
        ((∃ v, sp[n]? = some v ∧ j ∈ v) ∨ ∃ q k, j = i + q ∧ ks[q]? = some k ∧ slot0 hash mask k = n)
  | [], i, sp, h => ⟨sp, rfl, h, by simp⟩
  | k :: ks, i, sp, h => by
    rw [mphSparse]
    have hlt : (hash 0 k).toNat &&& mask < sp.length := by
      have := Nat.and_le_right (n := (hash 0 k).toNat) (m := mask); omega
    simp only [List.getElem?_eq_getElem hlt]
    obtain ⟨sp', e1, e2, e3⟩ := mphSparse_spec hash mask ks (i + 1) (sp.set ((hash 0 k).toNat &&& mask)
      (sp[(hash 0 k).toNat &&& mask] ++ [i])) (by simpa using h)
    refine ⟨sp', e1, e2, fun n j => ?_⟩
    rw [e3]
    constructor
    · rintro (⟨v, hv, hj⟩ | ⟨q, k', rfl, hk, hn⟩)
      · rw [List.getElem?_set] at hv
        split at hv
        · rename_i hn
          subst hn
          simp only [hlt, if_true, Option.some.injEq] at hv
          subst hv
          rw [List.mem_append, List.mem_singleton] at hj
          rcases hj with hj | rfl
          · exact Or.inl ⟨_, List.getElem?_eq_getElem hlt, hj⟩
          · exact Or.inr ⟨0, k, rfl, by simp, rfl⟩
        · exact Or.inl ⟨v, hv, hj⟩
      · exact Or.inr ⟨q + 1, k', by omega, by simpa using hk, hn⟩
    · rintro (⟨v, hv, hj⟩ | ⟨q, k', rfl, hk, hn⟩)
      · left
        by_cases hn : (hash 0 k).toNat &&& mask = n
        · subst hn
          rw [List.getElem?_eq_getElem hlt, Option.some.injEq] at hv
          subst hv
          exact ⟨_, by rw [List.getElem?_set_self hlt], by simp [hj]⟩
        · exact ⟨v, by rw [List.getElem?_set_ne hn]; exact hv, hj⟩
      · cases q with
        | zero =>
          simp only [List.getElem?_cons_zero, Option.some.injEq] at hk
          subst hk
          subst hn
          exact Or.inl ⟨_, by rw [slot0, List.getElem?_set_self hlt], by simp⟩
        | succ q => exact Or.inr ⟨q, k', by omega, by simpa using hk, hn⟩

theorem mem_mphBuckets {sp : List (List Nat)} {b : Nat × List Nat} :
    b ∈ mphBuckets sp ↔ sp[b.1]? = some b.2 ∧ b.2 ≠ [] := by
  obtain ⟨n, vals⟩ := b
  simp only [mphBuckets, List.mem_map, List.mem_filter, Prod.exists, Prod.mk.injEq, decide_eq_true_eq]
  constructor
  · rintro ⟨v, m, ⟨hm, hv⟩, rfl, rfl⟩
    rw [List.mem_zipIdx_iff_getElem?] at hm
    exact ⟨hm, by rintro rfl; simp at hv⟩
  · rintro ⟨h1, h2⟩
    exact ⟨vals, n, ⟨by rw [List.mem_zipIdx_iff_getElem?]; exact h1, List.length_pos_iff.mpr h2⟩, rfl, rfl⟩

theorem mphBuckets_nodup (sp : List (List Nat)) : ((mphBuckets sp).map Prod.fst).Nodup := by
  have : (mphBuckets sp).map Prod.fst = (sp.zipIdx.filter fun p => p.1.length > 0).map Prod.snd := by
    simp [mphBuckets, List.map_map, Function.comp_def]
  rw [this]
  refine List.Nodup.sublist (List.Sublist.map _ List.filter_sublist) ?_
  rw [List.zipIdx_map_snd]
  exact List.nodup_range'

/-! ### Placing a bucket -/

/-- Slot of the key with index `i` (0 if there is no such key). -/
def slot (hash : UInt32 → K → UInt32) (keys : List K) (mask : Nat) (seed : UInt32) (i : Nat) : Nat :=
  match keys[i]? with
  | none => 0
  | some k => (hash seed k).toNat &&& mask

/-- The state of the builder: `P` are the pairs (key index, slot) placed so far. -/
structure MphInv (L N : Nat) (P : List (Nat × Nat)) (occ : List Bool) (l1 : List UInt32) : Prop where
  occLen : occ.length = L
  l1Len : l1.length = L
  lt : ∀ p ∈ P, p.2 < L
  nodup : (P.map Prod.snd).Nodup
  occ : ∀ n < L, occ[n]? = some (decide (n ∈ P.map Prod.snd))
  val : ∀ p ∈ P, l1[p.2]? = some (UInt32.ofNat p.1)
  rng : ∀ x ∈ l1, x.toNat < N ∨ x = 0

theorem MphInv.perm {L N : Nat} {P Q : List (Nat × Nat)} {occ : List Bool} {l1 : List UInt32} (h : MphInv L N P occ l1)
    (hp : P.Perm Q) : MphInv L N Q occ l1 :=
  ⟨h.occLen, h.l1Len, fun p hm => h.lt p (hp.mem_iff.mpr hm), (hp.map Prod.snd).nodup_iff.mp h.nodup,
    fun n hn => by rw [h.occ n hn]; simp [(hp.map Prod.snd).mem_iff], fun p hm => h.val p (hp.mem_iff.mpr hm), h.rng⟩

theorem MphInv.cons {L N : Nat} {P : List (Nat × Nat)} {occ : List Bool} {l1 : List UInt32} (h : MphInv L N P occ l1) {i n : Nat}
    (hn : n < L) (hi : i < N) (hf : n ∉ P.map Prod.snd) : MphInv L N ((i, n) :: P) (occ.set n true) (l1.set n (UInt32.ofNat i)) := by
  refine ⟨by simpa using h.occLen, by simpa using h.l1Len, ?_, ?_, ?_, ?_, ?_⟩
  · intro p hp
    rcases List.mem_cons.mp hp with rfl | hp
    · exact hn
    · exact h.lt p hp
  · simpa using ⟨by simpa using hf, h.nodup⟩
  · intro m hm
    rw [List.getElem?_set]
    split
    · rename_i e
      subst e
      simp [h.occLen, hn]
    · rename_i e
      rw [h.occ m hm]
      have : m ≠ n := fun hc => e hc.symm
      simp [this]
  · intro p hp
    rcases List.mem_cons.mp hp with rfl | hp'
    · simp [h.l1Len, hn]
    · rw [List.getElem?_set_ne]
      · exact h.val p hp'
      · rintro rfl
        exact hf (List.mem_map_of_mem hp')
  · intro x hx
    rcases List.mem_or_eq_of_mem_set hx with hx | rfl
    · exact h.rng x hx
    · left
      have : (UInt32.ofNat i).toNat ≤ i := by
        rw [UInt32.toNat_ofNat']; exact Nat.mod_le _ _
      omega

theorem MphInv.reset {L : Nat} {P : List (Nat × Nat)} : ∀ (T : List Nat) (S : List (Nat × Nat)) (occ : List Bool),
    (∀ n, n ∈ T ↔ n ∈ S.map Prod.snd) → (S.map Prod.snd ++ P.map Prod.snd).Nodup → occ.length = L →
    (∀ n < L, occ[n]? = some (decide (n ∈ S.map Prod.snd ++ P.map Prod.snd))) →
    ∀ n < L, (T.foldl (fun o n => o.set n false) occ)[n]? = some (decide (n ∈ P.map Prod.snd)) := by
  intro T S occ hT hnd hl ho
  have aux : ∀ (T : List Nat) (occ : List Bool) (n : Nat), occ.length = L → n < L →
      (T.foldl (fun o n => o.set n false) occ)[n]? = if n ∈ T then some false else occ[n]? := by
    intro T
    induction T with
    | nil => simp
    | cons t T ih =>
      intro occ n hl hn
      rw [List.foldl_cons, ih _ n (by simpa using hl) hn]
      by_cases h1 : n ∈ T
      · simp [h1]
      · by_cases h2 : n = t
        · subst h2
          simp [h1, hl, hn]
        · simp [h1, h2, List.getElem?_set_ne (fun hc => h2 hc.symm)]
  intro n hn
  rw [aux T occ n hl hn]
  split
  · rename_i hm
    rw [hT] at hm
    have : n ∉ P.map Prod.snd := List.disjoint_of_nodup_append hnd hm
    simp only [this, decide_false]
  · rename_i hm
    rw [hT] at hm
    rw [ho n hn]
    simp only [List.mem_append, hm, false_or]

theorem foldl_reset_length (T : List Nat) (occ : List Bool) : (T.foldl (fun o n => o.set n false) occ).length = occ.length := by
  induction T generalizing occ with
  | nil => rfl
  | cons t T ih => simp [ih]

/-- A set of key indices can be placed with a seed, given the slots that are taken. -/
def Fits (hash : UInt32 → K → UInt32) (keys : List K) (mask : Nat) (vals : List Nat) (taken : List Nat) (seed : UInt32) : Prop :=
  (vals.map (slot hash keys mask seed) ++ taken).Nodup

theorem mphPlace_spec (hash : UInt32 → K → UInt32) (keys : List K) (mask : Nat) (seed : UInt32) (P : List (Nat × Nat)) :
    ∀ (vals : List Nat) (S : List (Nat × Nat)) (occ : List Bool) (l1 : List UInt32) (tmp : List Nat),
    (∀ i ∈ vals, i < keys.length) → MphInv (mask + 1) keys.length (S ++ P) occ l1 → (∀ n, n ∈ tmp ↔ n ∈ S.map Prod.snd) →
    ∃ occ' l1', (mphPlace hash keys mask seed vals occ l1 tmp = .ok (occ', l1', true) ∧
          (vals.map (slot hash keys mask seed) ++ (S ++ P).map Prod.snd).Nodup ∧
          MphInv (mask + 1) keys.length (vals.map (fun i => (i, slot hash keys mask seed i)) ++ (S ++ P)) occ' l1') ∨
      (mphPlace hash keys mask seed vals occ l1 tmp = .ok (occ', l1', false) ∧
          ¬ (vals.map (slot hash keys mask seed) ++ (S ++ P).map Prod.snd).Nodup ∧
          MphInv (mask + 1) keys.length P occ' l1')
  | [], S, occ, l1, tmp, _, h, ht => ⟨occ, l1, Or.inl ⟨rfl, by simpa using h.nodup, by simpa using h⟩⟩
  | i :: is, S, occ, l1, tmp, hv, h, ht => by
    have hi := hv i (by simp)
    rw [mphPlace]
    simp only [List.getElem?_eq_getElem hi]
    have hslot : slot hash keys mask seed i = (hash seed keys[i]).toNat &&& mask := by
      simp [slot, List.getElem?_eq_getElem hi]
    rw [← hslot]
    have hlt : slot hash keys mask seed i < mask + 1 := by
      rw [hslot]
      have := Nat.and_le_right (n := (hash seed keys[i]).toNat) (m := mask); omega
    rw [h.occ _ hlt]
    by_cases hm : slot hash keys mask seed i ∈ (S ++ P).map Prod.snd
    · refine ⟨tmp.foldl (fun o n => o.set n false) occ, l1, Or.inr ⟨by simp only [hm, decide_true], ?_, ?_⟩⟩
      · intro hnd
        exact List.disjoint_of_nodup_append hnd (by simp) hm
      · have hnd : (S.map Prod.snd ++ P.map Prod.snd).Nodup := by simpa using h.nodup
        refine ⟨by rw [foldl_reset_length]; exact h.occLen, h.l1Len, fun p hp => h.lt p (by simp [hp]),
          (List.nodup_append.mp hnd).2.1, ?_, fun p hp => h.val p (by simp [hp]), h.rng⟩
        refine MphInv.reset tmp S occ ht hnd h.occLen ?_
        intro n hn
        have := h.occ n hn
        rw [List.map_append] at this
        exact this
    · have hc := h.cons hlt hi hm
      obtain ⟨occ', l1', hr⟩ := mphPlace_spec hash keys mask seed P is ((i, slot hash keys mask seed i) :: S)
        (occ.set (slot hash keys mask seed i) true) (l1.set (slot hash keys mask seed i) (UInt32.ofNat i))
        (tmp ++ [slot hash keys mask seed i]) (fun j hj => hv j (by simp [hj])) hc (by
          intro n
          rw [List.mem_append, List.mem_singleton, List.map_cons, List.mem_cons, ht]
          exact or_comm)
      have hl : slot hash keys mask seed i < l1.length := by rw [h.l1Len]; exact hlt
      simp only [hm, decide_false, hl, if_true]
      have hp : ((is.map (slot hash keys mask seed)) ++ (((i, slot hash keys mask seed i) :: S) ++ P).map Prod.snd).Perm
          ((i :: is).map (slot hash keys mask seed) ++ (S ++ P).map Prod.snd) := by
        simp only [List.cons_append, List.map_cons]
        exact List.perm_middle
      have hp2 : (is.map (fun i => (i, slot hash keys mask seed i)) ++ (((i, slot hash keys mask seed i) :: S) ++ P)).Perm
          ((i :: is).map (fun i => (i, slot hash keys mask seed i)) ++ (S ++ P)) := by
        simp only [List.cons_append, List.map_cons]
        exact List.perm_middle
      refine ⟨occ', l1', ?_⟩
      rcases hr with ⟨e, hn, hI⟩ | ⟨e, hn, hI⟩
      · exact Or.inl ⟨e, hp.nodup_iff.mp hn, hI.perm hp2⟩
      · exact Or.inr ⟨e, fun hc => hn (hp.nodup_iff.mpr hc), hI⟩

/-! ### The seed search -/

theorem mphSearch_spec (hash : UInt32 → K → UInt32) (keys : List K) (mask : Nat) (vals : List Nat) (P : List (Nat × Nat))
    (hv : ∀ i ∈ vals, i < keys.length) : ∀ (fuel : Nat) (seed : UInt32) (occ : List Bool) (l1 : List UInt32),
    MphInv (mask + 1) keys.length P occ l1 →
    (∃ occ' l1' s, mphSearch hash keys mask vals fuel seed occ l1 = .ok (occ', l1', s) ∧
        (∃ j < fuel, s = seed + UInt32.ofNat j) ∧ Fits hash keys mask vals (P.map Prod.snd) s ∧
        MphInv (mask + 1) keys.length (vals.map (fun i => (i, slot hash keys mask s i)) ++ P) occ' l1') ∨
      (mphSearch hash keys mask vals fuel seed occ l1 = .err ∧
        ∀ j < fuel, ¬ Fits hash keys mask vals (P.map Prod.snd) (seed + UInt32.ofNat j))
  | 0, seed, occ, l1, h => Or.inr ⟨rfl, by simp⟩
  | fuel + 1, seed, occ, l1, h => by
    obtain ⟨occ', l1', hr⟩ := mphPlace_spec hash keys mask seed P vals [] occ l1 [] hv (by simpa using h) (by simp)
    rw [mphSearch]
    rcases hr with ⟨e, hn, hI⟩ | ⟨e, hn, hI⟩
    · simp only [e]
      exact Or.inl ⟨occ', l1', seed, rfl, ⟨0, by omega, by simp⟩, by simpa [Fits] using hn, by simpa using hI⟩
    · simp only [e]
      have hshift : ∀ j : Nat, seed + 1 + UInt32.ofNat j = seed + UInt32.ofNat (j + 1) := by
        intro j
        rw [UInt32.ofNat_add, UInt32.add_assoc]
        congr 1
        exact UInt32.add_comm _ _
      rcases mphSearch_spec hash keys mask vals P hv fuel (seed + 1) occ' l1' hI with ⟨o, l, s, e', ⟨j, hj, hs⟩, hf, hI'⟩ | ⟨e', hf⟩
      · exact Or.inl ⟨o, l, s, e', ⟨j + 1, by omega, by rw [hs, hshift]⟩, hf, hI'⟩
      · refine Or.inr ⟨e', fun j hj => ?_⟩
        cases j with
        | zero => simpa [Fits] using hn
        | succ j => rw [← hshift]; exact hf j (by omega)

/-- More attempts do not change a successful search. -/
theorem mphSearch_mono (hash : UInt32 → K → UInt32) (keys : List K) (mask : Nat) (vals : List Nat) (r : List Bool × List UInt32 × UInt32) :
    ∀ (fuel extra : Nat) (seed : UInt32) (occ : List Bool) (l1 : List UInt32),
    mphSearch hash keys mask vals fuel seed occ l1 = .ok r → mphSearch hash keys mask vals (fuel + extra) seed occ l1 = .ok r
  | 0, _, _, _, _, h => by simp [mphSearch] at h
  | fuel + 1, extra, seed, occ, l1, h => by
    rw [show fuel + 1 + extra = (fuel + extra) + 1 by omega, mphSearch]
    rw [mphSearch] at h
    rcases e : mphPlace hash keys mask seed vals occ l1 [] with ⟨o, l, b⟩ | - | -
    · rw [e] at h
      cases b with
      | true => exact h
      | false => exact mphSearch_mono hash keys mask vals r fuel extra _ _ _ h
    · simp [e] at h
    · simp [e] at h

/-- After 2^32 attempts all seeds have been tried. -/
theorem mphSearch_stable (hash : UInt32 → K → UInt32) (keys : List K) (mask : Nat) (vals : List Nat) (P : List (Nat × Nat))
    (hv : ∀ i ∈ vals, i < keys.length) (fuel : Nat) (hf : 2 ^ 32 ≤ fuel) (seed : UInt32) (occ : List Bool) (l1 : List UInt32)
    (h : MphInv (mask + 1) keys.length P occ l1) :
    mphSearch hash keys mask vals fuel seed occ l1 = mphSearch hash keys mask vals (2 ^ 32) seed occ l1 := by
  obtain ⟨d, rfl⟩ := Nat.exists_eq_add_of_le hf
  generalize hF : (2 ^ 32 : Nat) = F at hf ⊢
  rcases mphSearch_spec hash keys mask vals P hv F seed occ l1 h with ⟨o, l, s, e, -⟩ | ⟨e, hn⟩
  · rw [e]; exact mphSearch_mono hash keys mask vals _ F d seed occ l1 e
  · rcases mphSearch_spec hash keys mask vals P hv (F + d) seed occ l1 h with ⟨o, l, s, e', ⟨j, -, hs⟩, hfit, -⟩ | ⟨e', -⟩
    · exfalso
      refine hn (j % F) (Nat.mod_lt _ (by rw [← hF]; decide)) ?_
      have : UInt32.ofNat (j % F) = UInt32.ofNat j := by
        apply UInt32.toNat_inj.mp
        rw [UInt32.toNat_ofNat', UInt32.toNat_ofNat', ← hF, Nat.mod_mod]
      rw [this, ← hs]
      exact hfit
    · rw [e, e']

/-! ### All buckets -/

theorem mphFill_stable (hash : UInt32 → K → UInt32) (keys : List K) (mask fuel : Nat) (hf : 2 ^ 32 ≤ fuel) :
    ∀ (bs : List (Nat × List Nat)) (l0 : List UInt32) (occ : List Bool) (l1 : List UInt32) (P : List (Nat × Nat)),
    (∀ b ∈ bs, ∀ i ∈ b.2, i < keys.length) → MphInv (mask + 1) keys.length P occ l1 →
    mphFill hash keys mask fuel bs l0 occ l1 = mphFill hash keys mask (2 ^ 32) bs l0 occ l1
  | [], _, _, _, _, _, _ => rfl
  | b :: bs, l0, occ, l1, P, hb, h => by
    rw [mphFill, mphFill, mphSearch_stable hash keys mask b.2 P (hb b (by simp)) fuel hf 0 occ l1 h]
    generalize hF : (2 ^ 32 : Nat) = F at hf ⊢
    rcases mphSearch_spec hash keys mask b.2 P (hb b (by simp)) F 0 occ l1 h with ⟨o, l, s, e, -, -, hI⟩ | ⟨e, -⟩
    · simp only [e]
      have := mphFill_stable hash keys mask fuel (by omega) bs (l0.set b.1 s) o l _ (fun b' hb' => hb b' (by simp [hb'])) hI
      rw [hF] at this
      rw [this]
    · simp only [e]

theorem mphFill_spec (hash : UInt32 → K → UInt32) (keys : List K) (mask fuel : Nat) :
    ∀ (bs : List (Nat × List Nat)) (l0 : List UInt32) (occ : List Bool) (l1 : List UInt32) (P : List (Nat × Nat)),
    (∀ b ∈ bs, b.1 < l0.length ∧ ∀ i ∈ b.2, i < keys.length) → (bs.map Prod.fst).Nodup →
    MphInv (mask + 1) keys.length P occ l1 →
    mphFill hash keys mask fuel bs l0 occ l1 = .err ∨
    ∃ l0' l1' occ' P', mphFill hash keys mask fuel bs l0 occ l1 = .ok (l0', l1') ∧ l0'.length = l0.length ∧
      MphInv (mask + 1) keys.length P' occ' l1' ∧ (∀ p ∈ P, p ∈ P') ∧
      (∀ n, n ∉ bs.map Prod.fst → l0'[n]? = l0[n]?) ∧
      ∀ b ∈ bs, ∃ s, l0'[b.1]? = some s ∧ ∀ i ∈ b.2, (i, slot hash keys mask s i) ∈ P'
  | [], l0, occ, l1, P, _, _, h => Or.inr ⟨l0, l1, occ, P, rfl, rfl, h, fun p hp => hp, fun _ _ => rfl, by simp⟩
  | b :: bs, l0, occ, l1, P, hb, hnd, h => by
    rw [mphFill]
    rw [List.map_cons, List.nodup_cons] at hnd
    have hb1 := hb b (by simp)
    rcases mphSearch_spec hash keys mask b.2 P hb1.2 fuel 0 occ l1 h with ⟨o, l, s, e, -, -, hI⟩ | ⟨e, -⟩
    · simp only [e, hb1.1, if_true]
      rcases mphFill_spec hash keys mask fuel bs (l0.set b.1 s) o l _ (fun b' hb' => by
          rw [List.length_set]; exact hb b' (by simp [hb'])) hnd.2 hI with
        e' | ⟨l0', l1', occ', P', e', hl, hI', hsub, hkeep, hall⟩
      · exact Or.inl e'
      · refine Or.inr ⟨l0', l1', occ', P', e', by simpa using hl, hI', fun p hp => hsub p (by simp [hp]), ?_, ?_⟩
        · intro n hn
          simp only [List.map_cons, List.mem_cons, not_or] at hn
          rw [hkeep n hn.2, List.getElem?_set_ne (fun hc => hn.1 hc.symm)]
        · intro b' hb'
          rcases List.mem_cons.mp hb' with rfl | hb'
          · refine ⟨s, ?_, fun i hi => hsub _ ?_⟩
            · rw [hkeep _ hnd.1, List.getElem?_set_self hb1.1]
            · simp only [List.mem_append, List.mem_map]
              exact Or.inl ⟨i, hi, rfl⟩
          · exact hall b' hb'
    · exact Or.inl (by simp only [e])

/-- Everything the builder establishes. -/
structure Built (ops : MphOps K) (verifySeed : UInt32) (keys : List K) (byKey : Bool) (t : MphTable K) : Prop where
  len0 : t.level0.length = t.level0Mask + 1
  len1 : t.level1.length = t.level1Mask + 1
  verify : t.verify = if byKey then .keys keys else .hashes verifySeed (keys.map (ops.hash verifySeed))
  rng : ∀ x ∈ t.level1, x.toNat < keys.length ∨ x = 0
  size0 : t.level0Mask + 1 = nextPow2 (keys.length / 4)
  size1 : t.level1Mask + 1 = nextPow2 keys.length
  placed : ∃ P : List (Nat × Nat), (P.map Prod.snd).Nodup ∧ (∀ p ∈ P, t.level1[p.2]? = some (UInt32.ofNat p.1)) ∧
    ∀ (i : Nat) (k : K), keys[i]? = some k → ∃ s, t.level0[(ops.hash 0 k).toNat &&& t.level0Mask]? = some s ∧
      (i, (ops.hash s k).toNat &&& t.level1Mask) ∈ P

theorem mphInv_init (L N : Nat) : MphInv L N [] (List.replicate L false) (List.replicate L 0) :=
  ⟨by simp, by simp, by simp, by simp, fun n hn => by simp [List.getElem?_replicate, hn], by simp, by
    intro x hx
    exact Or.inr (List.eq_of_mem_replicate hx)⟩

theorem mphBuild_spec (ops : MphOps K) (order : List (Nat × List Nat) → List (Nat × List Nat)) (hord : ∀ l, (order l).Perm l)
    (fuel : Nat) (verifySeed : UInt32) (keys : List K) (byKey : Bool) :
    mphBuild ops order fuel verifySeed keys byKey = .err ∨
      ∃ t, mphBuild ops order fuel verifySeed keys byKey = .ok t ∧ Built ops verifySeed keys byKey t := by
  have p0 := nextPow2_pos (keys.length / 4)
  have p1 := nextPow2_pos keys.length
  obtain ⟨sp, hsp, hlen, hmem⟩ := mphSparse_spec ops.hash (nextPow2 (keys.length / 4) - 1) keys 0
    (List.replicate (nextPow2 (keys.length / 4)) []) (by rw [List.length_replicate]; omega)
  have hbk : ∀ n v, sp[n]? = some v → ∀ j, j ∈ v ↔ ∃ k, keys[j]? = some k ∧ slot0 ops.hash (nextPow2 (keys.length / 4) - 1) k = n := by
    intro n v hv j
    have := hmem n j
    rw [hv] at this
    simp only [Option.some.injEq, exists_eq_left', List.getElem?_replicate, Nat.zero_add] at this
    rw [this]
    constructor
    · rintro (⟨w, hw, hj⟩ | ⟨q, k, rfl, hk, hn⟩)
      · split at hw
        · simp only [Option.some.injEq] at hw
          subst hw
          simp at hj
        · simp at hw
      · exact ⟨k, hk, hn⟩
    · rintro ⟨k, hk, hn⟩
      exact Or.inr ⟨j, k, rfl, hk, hn⟩
  have hF := mphFill_spec ops.hash keys (nextPow2 keys.length - 1) fuel (order (mphBuckets sp))
    (List.replicate (nextPow2 (keys.length / 4)) 0) (List.replicate (nextPow2 keys.length) false)
    (List.replicate (nextPow2 keys.length) 0) [] (by
      intro b hb
      have hb' := mem_mphBuckets.mp ((hord _).mem_iff.mp hb)
      refine ⟨?_, fun i hi => ?_⟩
      · have := (List.getElem?_eq_some_iff.mp hb'.1).1
        rw [List.length_replicate]; omega
      · obtain ⟨k, hk, -⟩ := (hbk _ _ hb'.1 i).mp hi
        exact (List.getElem?_eq_some_iff.mp hk).1)
    (by
      rw [((hord (mphBuckets sp)).map Prod.fst).nodup_iff]
      exact mphBuckets_nodup sp)
    (by
      rw [show nextPow2 keys.length - 1 + 1 = nextPow2 keys.length by omega]
      exact mphInv_init _ _)
  unfold mphBuild
  simp only [hsp, Res.bind_ok]
  rcases hF with e | ⟨l0', l1', occ', P', e, hl, hI, -, -, hall⟩
  · exact Or.inl (by simp only [e, Res.bind_err])
  · simp only [e, Res.bind_ok]
    refine Or.inr ⟨_, rfl, ?_, ?_, rfl, hI.rng, ?_, ?_, P', hI.nodup, hI.val, ?_⟩
    · simp only [hl, List.length_replicate]; omega
    · simp only [hI.l1Len]
    · simp only; omega
    · simp only; omega
    · intro i k hk
      simp only
      have hn : slot0 ops.hash (nextPow2 (keys.length / 4) - 1) k < sp.length := by
        unfold slot0
        have := Nat.and_le_right (n := (ops.hash 0 k).toNat) (m := nextPow2 (keys.length / 4) - 1); omega
      have hm : i ∈ sp[slot0 ops.hash (nextPow2 (keys.length / 4) - 1) k] :=
        (hbk _ _ (List.getElem?_eq_getElem hn) i).mpr ⟨k, hk, rfl⟩
      obtain ⟨s, hs, hin⟩ := hall (slot0 ops.hash (nextPow2 (keys.length / 4) - 1) k, sp[slot0 ops.hash (nextPow2 (keys.length / 4) - 1) k])
        ((hord _).mem_iff.mpr (mem_mphBuckets.mpr ⟨List.getElem?_eq_getElem hn, List.ne_nil_of_mem hm⟩))
      refine ⟨s, hs, ?_⟩
      have := hin i hm
      simpa [slot, hk] using this

theorem mphBuild_stable (ops : MphOps K) (order : List (Nat × List Nat) → List (Nat × List Nat)) (hord : ∀ l, (order l).Perm l)
    (fuel : Nat) (hf : 2 ^ 32 ≤ fuel) (verifySeed : UInt32) (keys : List K) (byKey : Bool) :
    mphBuild ops order fuel verifySeed keys byKey = mphBuild ops order (2 ^ 32) verifySeed keys byKey := by
  have p0 := nextPow2_pos (keys.length / 4)
  have p1 := nextPow2_pos keys.length
  obtain ⟨sp, hsp, hlen, hmem⟩ := mphSparse_spec ops.hash (nextPow2 (keys.length / 4) - 1) keys 0
    (List.replicate (nextPow2 (keys.length / 4)) []) (by rw [List.length_replicate]; omega)
  unfold mphBuild
  simp only [hsp, Res.bind_ok]
  rw [mphFill_stable ops.hash keys (nextPow2 keys.length - 1) fuel hf (order (mphBuckets sp)) _ _ _ [] (by
      intro b hb i hi
      have hb' := mem_mphBuckets.mp ((hord _).mem_iff.mp hb)
      rcases (hmem b.1 i).mp ⟨_, hb'.1, hi⟩ with ⟨w, hw, hj⟩ | ⟨q, k, rfl, hk, -⟩
      · rw [List.getElem?_replicate] at hw
        split at hw
        · simp only [Option.some.injEq] at hw
          subst hw
          simp at hj
        · simp at hw
      · have := (List.getElem?_eq_some_iff.mp hk).1
        omega)
    (by
      rw [show nextPow2 keys.length - 1 + 1 = nextPow2 keys.length by omega]
      exact mphInv_init _ _)]

/-- Distinct keys are in distinct slots below 2^32, so there are at most 2^32 keys. -/
theorem Built.length_le {ops : MphOps K} {vs : UInt32} {keys : List K} {byKey : Bool} {t : MphTable K}
    (h : Built ops vs keys byKey t) : keys.length ≤ 2 ^ 32 := by
  obtain ⟨P, hnd, -, hp⟩ := h.placed
  choose s hs using fun i : Fin keys.length => hp i keys[i] (by simp)
  have hinj : Function.Injective fun i : Fin keys.length =>
      (⟨(ops.hash (s i) keys[i]).toNat &&& t.level1Mask,
        Nat.lt_of_le_of_lt Nat.and_le_left (UInt32.toNat_lt _)⟩ : Fin (2 ^ 32)) := by
    intro i j hij
    simp only [Fin.mk.injEq] at hij
    have h1 := (hs i).2
    have h2 := (hs j).2
    rw [hij] at h1
    have := List.inj_on_of_nodup_map hnd h1 h2 rfl
    simp only [Prod.mk.injEq, and_true] at this
    exact Fin.ext this
  simpa using Fintype.card_le_of_injective _ hinj

end Poodle
