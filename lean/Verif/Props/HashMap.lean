import Verif.Lemmas.Hash
import Verif.Spec.Iter
import Mathlib.Tactic.NormNum

/-
Properties C28 to C31: hash map and hash set (/repo/src/collection/hash.go:41-254, hash_map.go, hash_set.go).
-/

namespace Poodle.Props
open Poodle Poodle.Spec

variable {K V : Type} {ops : HashOps K} {pol : ResizePolicy}

/-- A history of calls on a `HashMap` and the value each returns (`none`: some call panicked). -/
def runHash (ops : HashOps K) (pol : ResizePolicy) (h : HashTab K V) : List (MapOp K V) → Option (HashTab K V × List (Option V))
  | [] => some (h, [])
  | .put k v :: os => match h.put ops pol k v with
    | none => none
    | some (h1, r) => match runHash ops pol h1 os with
      | none => none
      | some (h2, rs) => some (h2, r :: rs)
  | .remove k :: os => match h.remove ops pol k with
    | none => none
    | some (h1, r) => match runHash ops pol h1 os with
      | none => none
      | some (h2, rs) => some (h2, r :: rs)

theorem runHash_spec (hl : LawfulHash ops) (os : List (MapOp K V)) (h : HashTab K V) (hg : GoodTab ops h) (n : Nat)
    (hn : h.size + os.length ≤ n) (hpol : Modest pol n) :
    ∃ h' rs, runHash ops pol h os = some (h', rs) ∧ GoodTab ops h' ∧ h'.size ≤ n ∧
      (valE ops h'.all, rs) = runE ops.equal (valE ops h.all) os := by
  induction os generalizing h with
  | nil => exact ⟨h, [], rfl, hg, by simpa using hn, rfl⟩
  | cons o os ih =>
    rw [List.length_cons] at hn
    cases o with
    | put k v =>
      obtain ⟨h1, e1, g1, s1, v1⟩ := put_hash_step hl pol h hg k v
        (fun m len c h0 hm hlen hc => hpol m len c h0 (by omega) hlen (.inl hc))
      obtain ⟨h2, rs, e2, g2, s2, v2⟩ := ih h1 g1 (by omega)
      refine ⟨h2, (lookE ops k h.all).map Prod.snd :: rs, ?_, g2, s2, ?_⟩
      · simp [runHash, HashTab.put, e1, e2]
      · rw [v1] at v2
        simp only [runE]
        rw [← v2]
        rfl
    | remove k =>
      obtain ⟨h1, e1, g1, s1, v1⟩ := remove_hash_step hl pol h hg k
        (fun m len c h0 hm hlen hc => hpol m len c h0 (by omega) hlen (.inr hc))
      obtain ⟨h2, rs, e2, g2, s2, v2⟩ := ih h1 g1 (by omega)
      refine ⟨h2, (lookE ops k h.all).map Prod.snd :: rs, ?_, g2, s2, ?_⟩
      · simp [runHash, HashTab.remove, e1, e2]
      · rw [v1] at v2
        simp only [runE]
        rw [← v2]
        rfl

theorem all_new (cap : Int) : (HashTab.new cap : HashTab K V).all = [] := by simp [HashTab.new, HashTab.all]

/-! ### C28 Hash map behaves as a finite map -/

/-- C28: for any lawful key type, any initial capacity below 2^32 and any resize policy that stays below 2^32 buckets, every
history of Put and Remove returns what a finite map returns, never panics, and afterwards Get and Size are those of the
finite map. -/
theorem C28_hashMap_refines (hl : LawfulHash ops) (cap : Int) (hc : cap < 2 ^ 32) (os : List (MapOp K V))
    (hpol : Modest pol os.length) :
    ∃ h, runHash ops pol (HashTab.new cap) os = some (h, (runE ops.equal (fun _ => none) os).2) ∧
      (∀ k, h.get ops k = some ((runE ops.equal (fun _ => none) os).1 k)) ∧
      ∃ n : Nat, h.size = n ∧ SizeE ops.equal (runE ops.equal (fun _ => none) os).1 n := by
  obtain ⟨h, rs, h1, h2, -, h3⟩ := runHash_spec hl os (HashTab.new cap) (new_hash_good cap hc) os.length
    (by simp [HashTab.new]) hpol
  have e0 : valE ops (HashTab.new cap : HashTab K V).all = fun _ => none := by
    rw [all_new]; rfl
  rw [e0] at h3
  rw [← h3]
  refine ⟨h, h1, fun k => ?_, _, h2.size, ?_⟩
  · rw [HashTab.get, getNode_spec hl h h2]; rfl
  · exact valE_size hl h2.distinct

/-- The bound on the capacity is needed: with 2^32 buckets every lookup divides by zero. -/
theorem C28_capacity_limit (ops : HashOps K) (k : K) : (HashTab.new (2 ^ 32) : HashTab K V).get ops k = none := by
  have h : ∀ cap : Int, 10 ≤ cap → cap.toNat % 2 ^ 32 = 0 → (HashTab.new cap : HashTab K V).get ops k = none := by
    intro cap h1 h2
    have hlen : (HashTab.new cap : HashTab K V).array.length = cap.toNat := by
      unfold HashTab.new
      rw [List.length_replicate, if_neg (by omega)]
    unfold HashTab.get HashTab.getNode HashTab.index
    rw [hlen, if_pos h2]
    rfl
  exact h _ (by norm_num) (by omega)

/-- Integer keys hashed to their residue, so that collisions are frequent. -/
def natHash : HashOps Nat := ⟨fun a b => a == b, fun a => UInt32.ofNat (a % 3)⟩

theorem natHash_lawful : LawfulHash natHash :=
  ⟨fun a => by simp [natHash], fun a b h => by simp only [natHash, beq_iff_eq] at h ⊢; exact h.symm,
    fun a b c h1 h2 => by simp only [natHash, beq_iff_eq] at h1 h2 ⊢; exact h1.trans h2,
    fun a b h => by simp only [natHash, beq_iff_eq] at h ⊢; rw [h]⟩

/-- The default policy (load factor 0.75, multiplier 1.5) in exact arithmetic. -/
def defaultPolicy : ResizePolicy where
  grow s len := if 4 * s ≥ 3 * (len : Int) then some ((3 * len / 2 : Nat) : Int) else none
  shrink s len := if 27 * s < 4 * (len : Int) then some ((4 * len / 9 : Nat) : Int) else none

/-- A policy that always resizes, to unrelated sizes. -/
def wildPolicy : ResizePolicy := ⟨fun s len => some (s * 7 % 31 + len % 13), fun s len => some (20 - s - len)⟩

example : Modest defaultPolicy (2 ^ 30) := by
  rintro s len c h0 hs hlen (h | h) <;> simp only [defaultPolicy] at h <;> split at h <;>
    simp only [Option.some.injEq, reduceCtorEq] at h <;> omega

theorem wildPolicy_modest (n : Nat) : Modest wildPolicy n := by
  rintro s len c h0 hs hlen (h | h) <;> simp only [wildPolicy, Option.some.injEq] at h <;> omega

/-- C28: the hypotheses of `C28_hashMap_refines`. -/
example := C28_hashMap_refines (pol := wildPolicy) natHash_lawful 3 (by decide) [.put 1 10, .put 4 40, .remove 1] (wildPolicy_modest _)

example : (runHash natHash wildPolicy (HashTab.new 3) [.put 1 10, .put 4 40, .put 7 70, .put 4 41, .remove 1, .remove 2]).map
    (fun r => (r.2, r.1.get natHash 4, r.1.size)) = some ([none, none, none, some 40, some 10, none], some (some 41), 2) := by
  decide +kernel

/-! ### C29 Resizing -/

/-- C29: in every reachable table every resize (to any capacity below 2^32) keeps exactly the same entries (as a multiset),
puts each one into the bucket its hash selects, leaves the size alone, and ends with the requested number of buckets or 10
if fewer were requested.  Reachable tables themselves have at least 10 buckets and no misplaced or duplicate entry. -/
theorem C29_resize (hl : LawfulHash ops) (cap : Int) (hc : cap < 2 ^ 32) (os : List (MapOp K V)) (hpol : Modest pol os.length)
    (n : Int) (hn : n < 2 ^ 32) :
    ∃ h rs h', runHash ops pol (HashTab.new cap) os = some (h, rs) ∧ h.resize ops n = some h' ∧
      h'.array.flatten.Perm h.array.flatten ∧ h'.size = h.size ∧ (h'.array.length : Int) = max 10 n ∧ 10 ≤ h.array.length ∧
      ∀ t, (t = h ∨ t = h') →
        (∀ (i : Nat) (c : List (K × V)), t.array[i]? = some c → ∀ e ∈ c, (ops.hash e.1).toNat % t.array.length = i) ∧
        t.array.flatten.Pairwise (fun a b => ops.equal a.1 b.1 = false) := by
  obtain ⟨h, rs, h1, h2, -, -⟩ := runHash_spec hl os (HashTab.new cap) (new_hash_good cap hc) os.length
    (by simp [HashTab.new]) hpol
  obtain ⟨h', r1, r2, r3, r4, r5⟩ := resize_spec hl h h2 n hn
  refine ⟨h, rs, h', h1, r1, r3, r4, r5, h2.floor, ?_⟩
  have key : ∀ t : HashTab K V, GoodTab ops t →
      (∀ (i : Nat) (c : List (K × V)), t.array[i]? = some c → ∀ e ∈ c, (ops.hash e.1).toNat % t.array.length = i) ∧
        t.array.flatten.Pairwise (fun a b => ops.equal a.1 b.1 = false) := by
    intro t ht
    refine ⟨fun i c hi e he => ?_, ht.distinct⟩
    have := ht.placed i c hi e he
    unfold HashTab.index at this
    have hf := ht.floor
    rw [Nat.mod_eq_of_lt ht.mod, if_neg (by omega)] at this
    simpa using this
  rintro t (rfl | rfl)
  · exact key _ h2
  · exact key _ r2

example := C29_resize (pol := wildPolicy) natHash_lawful 3 (by decide) [.put 1 10, .put 4 40, .remove 1] (wildPolicy_modest _) 31 (by decide)

/-- C29: the number of buckets is at least 10 throughout any history that does not panic, whatever the policy. -/
theorem C29_capacity_floor (ops : HashOps K) (pol : ResizePolicy) (cap : Int) (os : List (MapOp K V)) (h : HashTab K V)
    (rs : List (Option V)) (hrun : runHash ops pol (HashTab.new cap) os = some (h, rs)) : 10 ≤ h.array.length := by
  have hrl : ∀ (c : List (K × V)) (a a' : List (List (K × V))), HashTab.rehashChain ops a c = some a' → a'.length = a.length := by
    intro c
    induction c with
    | nil => intro a a' h; simp [HashTab.rehashChain] at h; rw [h]
    | cons e es ih =>
      intro a a' h
      simp only [HashTab.rehashChain] at h
      split at h
      · simp at h
      · rename_i a1 h1
        rw [ih _ _ h]
        unfold HashTab.rehash1 at h1
        split at h1
        · simp at h1
        · split at h1
          · simp at h1
          · simp only [Option.some.injEq] at h1; subst h1; simp
  have hr : ∀ (o : List (List (K × V))) (a a' : List (List (K × V))), HashTab.rehash ops a o = some a' → a'.length = a.length := by
    intro o
    induction o with
    | nil => intro a a' h; simp [HashTab.rehash] at h; rw [h]
    | cons e es ih =>
      intro a a' h
      simp only [HashTab.rehash] at h
      split at h
      · simp at h
      · rename_i a1 h1
        rw [ih _ _ h, hrl _ _ _ h1]
  have hres : ∀ (t t' : HashTab K V) (o : Option Int), 10 ≤ t.array.length → t.resizeIf ops o = some t' → 10 ≤ t'.array.length := by
    intro t t' o ht h
    cases o with
    | none => simp [HashTab.resizeIf] at h; subst h; exact ht
    | some n =>
      simp only [HashTab.resizeIf, HashTab.resize] at h
      have hm : 10 ≤ (if n < 10 then 10 else n.toNat) := by split <;> omega
      generalize (if n < 10 then 10 else n.toNat) = m at h hm
      split at h
      · simp only [Option.some.injEq] at h; subst h; exact ht
      · split at h
        · simp at h
        · split at h
          · simp at h
          · rename_i arr ha
            simp only [Option.some.injEq] at h
            subst h
            simp only
            rw [hr _ _ _ ha, List.length_replicate]
            exact hm
  suffices H : ∀ (t : HashTab K V), 10 ≤ t.array.length → ∀ h rs, runHash ops pol t os = some (h, rs) → 10 ≤ h.array.length from
    H _ (by simp only [HashTab.new, List.length_replicate]; split <;> omega) h rs hrun
  clear hrun
  induction os with
  | nil => intro t ht h rs hh; simp [runHash] at hh; rw [← hh.1]; exact ht
  | cons o os ih =>
    intro t ht h rs hh
    cases o with
    | put k v =>
      simp only [runHash] at hh
      split at hh
      · simp at hh
      · rename_i h1 r hp
        split at hh
        · simp at hh
        · rename_i h2 rs' hrec
          simp only [Option.some.injEq, Prod.mk.injEq] at hh
          rw [← hh.1]
          refine ih h1 ?_ _ _ hrec
          simp only [HashTab.put, Option.map_eq_some_iff] at hp
          obtain ⟨⟨x1, x2⟩, hp, hx⟩ := hp
          simp only [Prod.mk.injEq] at hx
          rw [← hx.1]
          unfold HashTab.putNode at hp
          split at hp
          · simp at hp
          · split at hp
            · simp at hp
            · split at hp
              · simp only [Option.some.injEq, Prod.mk.injEq] at hp; rw [← hp.1]; simpa using ht
              · simp only at hp
                split at hp
                · simp at hp
                · rename_i hh''
                  simp only [Option.some.injEq, Prod.mk.injEq] at hp
                  rw [← hp.1]
                  exact hres _ _ _ (by simpa using ht) hh''
    | remove k =>
      simp only [runHash] at hh
      split at hh
      · simp at hh
      · rename_i h1 r hp
        split at hh
        · simp at hh
        · rename_i h2 rs' hrec
          simp only [Option.some.injEq, Prod.mk.injEq] at hh
          rw [← hh.1]
          refine ih h1 ?_ _ _ hrec
          simp only [HashTab.remove, Option.map_eq_some_iff] at hp
          obtain ⟨⟨x1, x2⟩, hp, hx⟩ := hp
          simp only [Prod.mk.injEq] at hx
          rw [← hx.1]
          unfold HashTab.removeNode at hp
          split at hp
          · simp at hp
          · split at hp
            · simp at hp
            · split at hp
              · simp only [Option.some.injEq, Prod.mk.injEq] at hp; rw [← hp.1]; exact ht
              · simp only at hp
                split at hp
                · simp at hp
                · rename_i hh''
                  simp only [Option.some.injEq, Prod.mk.injEq] at hp
                  rw [← hp.1]
                  exact hres _ _ _ (by simpa using ht) hh''

example : (runHash natHash defaultPolicy (HashTab.new 0) ((List.range 12).map fun i => .put i i)).map (fun r => r.1.array.length)
    = some 22 := by decide +kernel

/-! ### C30 Hash iteration -/

/-- Results of a sequence of calls on the iterator of a hash map. -/
def runHashIter (h : HashTab K V) (cs : List IterCall) : List (IterRes (K × V)) :=
  runCalls (HashIter.mapCall h) HashIter.new cs

/-- The claim of C30: the iterator enumerates the entries of the map, each once, in some order. -/
def HashIteration : Prop :=
  ∀ (K V : Type) (ops : HashOps K) (pol : ResizePolicy), LawfulHash ops → (∀ n, Modest pol n) →
    ∀ (os : List (MapOp K V)) (h : HashTab K V) (rs : List (Option V)), runHash ops pol (HashTab.new 10) os = some (h, rs) →
      ∃ l : List (K × V), l.Pairwise (fun a b => ops.equal a.1 b.1 = false) ∧
        (∀ k v, (runE ops.equal (fun _ => none) os).1 k = some v ↔ ∃ k', (k', v) ∈ l ∧ ops.equal k k' = true) ∧
        runHashIter h (List.replicate l.length .next ++ [.hasNext]) = l.map .yield ++ [.bool false]

/-- The claim is false: a map with one entry yields nothing, its first `Next` panics. -/
theorem C30_refuted : ¬ HashIteration := by
  intro H
  have hrun : runHash natHash ⟨fun _ _ => none, fun _ _ => none⟩ (HashTab.new 10) [.put 1 10]
      = some (⟨[[], [(1, 10)], [], [], [], [], [], [], [], []], 1⟩, [none]) := by decide +kernel
  obtain ⟨l, -, h2, h3⟩ := H Nat Nat natHash ⟨fun _ _ => none, fun _ _ => none⟩ natHash_lawful
    (fun n s len c _ _ _ h => by simp at h) _ _ _ hrun
  cases l with
  | nil => have := (h2 1 10).mp (by decide); simp at this
  | cons e l =>
    have h4 : runHashIter (⟨[[], [(1, 10)], [], [], [], [], [], [], [], []], 1⟩ : HashTab Nat Nat)
        (List.replicate (e :: l).length .next ++ [.hasNext])
        = .crash :: runCalls (HashIter.mapCall ⟨[[], [(1, 10)], [], [], [], [], [], [], [], []], 1⟩) ⟨10, []⟩
            (List.replicate l.length .next ++ [.hasNext]) := by
      rw [List.length_cons, List.replicate_succ, List.cons_append, runHashIter, runCalls]
      rfl
    rw [h4] at h3
    simp at h3

/-- Updates of the map interleaved with calls on an iterator of it. -/
inductive HashEvent (K V : Type) where
  | update (o : MapOp K V)
  | call (c : IterCall)

/-- Results of the iterator calls in a history of updates and iterator calls. -/
def runEvents (ops : HashOps K) (pol : ResizePolicy) (h : HashTab K V) (it : HashIter K V) :
    List (HashEvent K V) → Option (List (IterCall × IterRes (K × V)))
  | [] => some []
  | .update o :: es => match runHash ops pol h [o] with
    | none => none
    | some (h', _) => runEvents ops pol h' it es
  | .call c :: es => (runEvents ops pol h (HashIter.mapCall h it c).1 es).map fun rs => (c, (HashIter.mapCall h it c).2) :: rs

theorem advLoop_nil (len : Nat) (n : Nat) (pos : Nat) :
    HashIter.advLoop len (⟨pos, []⟩ : HashIter K V) n = (⟨min (pos + n) (max pos len), []⟩, false) := by
  induction n generalizing pos with
  | zero => simp only [HashIter.advLoop]; congr 2; omega
  | succ n ih =>
    simp only [HashIter.advLoop]
    by_cases h : pos < len
    · rw [if_pos h]; simp only [ne_eq, not_true, if_false]; rw [ih]; congr 2; omega
    · rw [if_neg h]; congr 2; omega

theorem mapCall_nil (h : HashTab K V) (pos : Nat) (c : IterCall) :
    HashIter.mapCall h (⟨pos, []⟩ : HashIter K V) c
      = (⟨max pos h.array.length, []⟩, if c = .hasNext then .bool false else .crash) := by
  have ha : HashIter.advance h (⟨pos, []⟩ : HashIter K V) = ⟨max pos h.array.length, []⟩ := by
    unfold HashIter.advance
    rw [advLoop_nil]
    simp only
    rw [if_neg (by omega)]
    congr 1; omega
  cases c with
  | next => simp only [HashIter.mapCall, HashIter.call, ha]; rw [if_pos (by omega)]; simp
  | hasNext => simp [HashIter.mapCall, HashIter.call, ha]
  | peek => simp only [HashIter.mapCall, HashIter.call, ha]; rw [if_pos (by omega)]; simp

/-- C30, what the code does: whatever the table contains and however iterator calls are interleaved with updates, `HasNext`
is always false and every `Next` and `Peek` panics; no entry is ever yielded. -/
theorem C30_never_yields_partial (ops : HashOps K) (pol : ResizePolicy) (h : HashTab K V) (es : List (HashEvent K V))
    (rs : List (IterCall × IterRes (K × V))) (hrun : runEvents ops pol h HashIter.new es = some rs) :
    ∀ r ∈ rs, r.2 = if r.1 = .hasNext then .bool false else .crash := by
  suffices H : ∀ (es : List (HashEvent K V)) (h : HashTab K V) (pos : Nat) rs, runEvents ops pol h ⟨pos, []⟩ es = some rs →
      ∀ r ∈ rs, r.2 = if r.1 = .hasNext then .bool false else .crash from H es h 0 rs hrun
  clear hrun
  intro es
  induction es with
  | nil => intro h pos rs hr; simp [runEvents] at hr; subst hr; simp
  | cons e es ih =>
    intro h pos rs hr
    cases e with
    | update o =>
      simp only [runEvents] at hr
      split at hr
      · simp at hr
      · exact ih _ _ _ hr
    | call c =>
      simp only [runEvents, mapCall_nil, Option.map_eq_some_iff] at hr
      obtain ⟨rs', h1, rfl⟩ := hr
      intro r hr
      rw [List.mem_cons] at hr
      rcases hr with rfl | hr
      · rfl
      · exact ih _ _ _ h1 r hr

example := C30_never_yields_partial natHash defaultPolicy (HashTab.new 10)
    [.update (.put 1 10), .call .hasNext, .update (.put 2 20), .call .next] [(.hasNext, .bool false), (.next, .crash)] (by decide +kernel)

/-- C30, consequence: iteration is complete exactly for empty maps. -/
theorem C30_complete_iff_empty_partial (h : HashTab K V) (l : List (K × V)) :
    runHashIter h (List.replicate l.length .next ++ [.hasNext]) = l.map .yield ++ [.bool false] ↔ l = [] := by
  constructor
  · intro hr
    cases l with
    | nil => rfl
    | cons e l =>
      rw [List.length_cons, List.replicate_succ, List.cons_append, runHashIter, runCalls] at hr
      have : HashIter.mapCall h HashIter.new .next = (⟨max 0 h.array.length, []⟩, .crash) := mapCall_nil h 0 .next
      rw [this] at hr
      simp at hr
  · rintro rfl
    have : HashIter.mapCall h HashIter.new .hasNext = (⟨max 0 h.array.length, []⟩, .bool false) := mapCall_nil h 0 .hasNext
    simp [runHashIter, runCalls, this]

example : runEvents natHash defaultPolicy (HashTab.new 10) HashIter.new
    [.update (.put 1 10), .call .hasNext, .update (.put 2 20), .call .next] = some [(.hasNext, .bool false), (.next, .crash)] := by
  decide +kernel

/-! ### C31 Hash set -/

/-- Updates of a set. -/
inductive HSetOp (K : Type) where
  | put (k : K)
  | remove (k : K)

/-- A history of calls on a `HashSet` and the key each returns. -/
def runHashSet (ops : HashOps K) (pol : ResizePolicy) (h : HashTab K Unit) : List (HSetOp K) → Option (HashTab K Unit × List (Option K))
  | [] => some (h, [])
  | .put k :: os => match h.setPut ops pol k with
    | none => none
    | some (h1, r) => match runHashSet ops pol h1 os with
      | none => none
      | some (h2, rs) => some (h2, r :: rs)
  | .remove k :: os => match h.setRemove ops pol k with
    | none => none
    | some (h1, r) => match runHashSet ops pol h1 os with
      | none => none
      | some (h2, rs) => some (h2, r :: rs)

/-- The mathematical set after a history, and whether each operation found its key. -/
def hsetRun (eqv : K → K → Bool) (s : K → Bool) : List (HSetOp K) → (K → Bool) × List Bool
  | [] => (s, [])
  | .put k :: os => let (s', rs) := hsetRun eqv (fun x => eqv x k || s x) os; (s', s k :: rs)
  | .remove k :: os => let (s', rs) := hsetRun eqv (fun x => !eqv x k && s x) os; (s', s k :: rs)

theorem runHashSet_spec (hl : LawfulHash ops) (os : List (HSetOp K)) (h : HashTab K Unit) (hg : GoodTab ops h) (n : Nat)
    (hn : h.size + os.length ≤ n) (hpol : Modest pol n) :
    ∃ h' rs, runHashSet ops pol h os = some (h', rs) ∧ GoodTab ops h' ∧
      ((fun k => (valE ops h'.all k).isSome), rs.map Option.isSome) = hsetRun ops.equal (fun k => (valE ops h.all k).isSome) os := by
  induction os generalizing h with
  | nil => exact ⟨h, [], rfl, hg, rfl⟩
  | cons o os ih =>
    rw [List.length_cons] at hn
    cases o with
    | put k =>
      obtain ⟨h1, e1, g1, s1, v1⟩ := put_hash_step hl pol h hg k ()
        (fun m len c h0 hm hlen hc => hpol m len c h0 (by omega) hlen (.inl hc))
      obtain ⟨h2, rs, e2, g2, v2⟩ := ih h1 g1 (by omega)
      refine ⟨h2, (lookE ops k h.all).map Prod.fst :: rs, ?_, g2, ?_⟩
      · simp [runHashSet, HashTab.setPut, e1, e2]
      · have e : (fun x => (valE ops h1.all x).isSome) = fun x => ops.equal x k || (valE ops h.all x).isSome := by
          rw [v1]; funext x; dsimp only; cases ops.equal x k <;> simp
        rw [e] at v2
        simp only [hsetRun]
        rw [← v2]
        simp [valE]
    | remove k =>
      obtain ⟨h1, e1, g1, s1, v1⟩ := remove_hash_step hl pol h hg k
        (fun m len c h0 hm hlen hc => hpol m len c h0 (by omega) hlen (.inr hc))
      obtain ⟨h2, rs, e2, g2, v2⟩ := ih h1 g1 (by omega)
      refine ⟨h2, (lookE ops k h.all).map Prod.fst :: rs, ?_, g2, ?_⟩
      · simp [runHashSet, HashTab.setRemove, e1, e2]
      · have e : (fun x => (valE ops h1.all x).isSome) = fun x => !ops.equal x k && (valE ops h.all x).isSome := by
          rw [v1]; funext x; dsimp only; cases ops.equal x k <;> simp
        rw [e] at v2
        simp only [hsetRun]
        rw [← v2]
        simp [valE]

/-- C31: in any history on a new hash set no call panics, Put and Remove return a key exactly if the key was in the set, and
afterwards Exist and Size are those of the mathematical set. -/
theorem C31_hashSet_refines (hl : LawfulHash ops) (cap : Int) (hc : cap < 2 ^ 32) (os : List (HSetOp K))
    (hpol : Modest pol os.length) :
    ∃ h rs, runHashSet ops pol (HashTab.new cap) os = some (h, rs) ∧
      rs.map Option.isSome = (hsetRun ops.equal (fun _ => false) os).2 ∧
      (∀ k, h.exist ops k = some ((hsetRun ops.equal (fun _ => false) os).1 k)) ∧
      ∃ ks : List K, h.size = ks.length ∧ ks.Pairwise (fun a b => ops.equal a b = false) ∧
        ∀ k, (hsetRun ops.equal (fun _ => false) os).1 k = true ↔ ∃ k' ∈ ks, ops.equal k k' = true := by
  obtain ⟨h, rs, h1, h2, h3⟩ := runHashSet_spec hl os (HashTab.new cap) (new_hash_good cap hc) os.length
    (by simp [HashTab.new]) hpol
  have e0 : (fun k => (valE ops (HashTab.new cap : HashTab K Unit).all k).isSome) = fun _ => false := by
    rw [all_new]; rfl
  rw [e0] at h3
  rw [← h3]
  refine ⟨h, rs, h1, rfl, fun k => ?_, ?_⟩
  · rw [HashTab.exist, getNode_spec hl h h2]; simp [valE]
  · obtain ⟨ks, k1, k2, k3⟩ := valE_size hl h2.distinct
    exact ⟨ks, by rw [h2.size, k1], k2, k3⟩

example : (runHashSet natHash wildPolicy (HashTab.new 10) [.put 1, .put 4, .put 1, .remove 4, .remove 9]).map
    (fun r => (r.2, r.1.size)) = some ([none, none, some 1, some 4, none], 1) := by decide +kernel

end Poodle.Props
