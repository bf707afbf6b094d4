import Verif.Props.HashMap
import Verif.Lemmas.HashFloat

/-
Properties C99 to C101: load, space and cost of the default hash map (/repo/src/collection/hash.go:41-46, :67-72, :119-214).
-/

namespace Poodle.Props
open Poodle Poodle.Spec

variable {K V : Type} {ops : HashOps K}

/-! ### Effect of the calls on size and number of buckets, for any hash function -/

theorem rehash1_length {arr arr' : List (List (K × V))} {e : K × V} (h : HashTab.rehash1 ops arr e = some arr') :
    arr'.length = arr.length ∧ arr'.flatten.length = arr.flatten.length + 1 := by
  unfold HashTab.rehash1 at h
  split at h
  · simp at h
  · rename_i i hi
    split at h
    · simp at h
    · rename_i c hc
      simp only [Option.some.injEq] at h
      subst h
      obtain ⟨R, p1, p2, -⟩ := set_perm arr i c (e :: c) hc
      rw [p1.length_eq, p2.length_eq]
      simp

theorem rehashChain_length : ∀ (c : List (K × V)) {arr arr' : List (List (K × V))}, HashTab.rehashChain ops arr c = some arr' →
    arr'.length = arr.length ∧ arr'.flatten.length = arr.flatten.length + c.length
  | [], arr, arr', h => by simp only [HashTab.rehashChain, Option.some.injEq] at h; subst h; simp
  | e :: es, arr, arr', h => by
    simp only [HashTab.rehashChain] at h
    split at h
    · simp at h
    · rename_i a1 h1
      have := rehash1_length h1
      have := rehashChain_length es h
      simp only [List.length_cons]
      omega

theorem rehash_length : ∀ (cs : List (List (K × V))) {arr arr' : List (List (K × V))}, HashTab.rehash ops arr cs = some arr' →
    arr'.length = arr.length ∧ arr'.flatten.length = arr.flatten.length + cs.flatten.length
  | [], arr, arr', h => by simp only [HashTab.rehash, Option.some.injEq] at h; subst h; simp
  | e :: es, arr, arr', h => by
    simp only [HashTab.rehash] at h
    split at h
    · simp at h
    · rename_i a1 h1
      have := rehashChain_length e h1
      have := rehash_length es h
      simp only [List.flatten_cons, List.length_append]
      omega

/-- The number of buckets after a conditional resize. -/
def NewLen (o : Option Int) (len len' : Nat) : Prop := match o with
  | none => len' = len
  | some n => (len' : Int) = max 10 n

theorem resizeIf_length {h h' : HashTab K V} {o : Option Int} (e : h.resizeIf ops o = some h') :
    h'.size = h.size ∧ h'.array.flatten.length = h.array.flatten.length ∧ NewLen o h.array.length h'.array.length := by
  cases o with
  | none => simp only [HashTab.resizeIf, Option.some.injEq] at e; subst e; simp [NewLen]
  | some n =>
    simp only [HashTab.resizeIf, HashTab.resize] at e
    have hm : ((if n < 10 then 10 else n.toNat : Nat) : Int) = max 10 n := by split <;> omega
    generalize (if n < 10 then 10 else n.toNat) = m at e hm
    split at e
    · rename_i hl
      simp only [Option.some.injEq] at e
      subst e
      exact ⟨rfl, rfl, by simp only [NewLen]; omega⟩
    · split at e
      · simp at e
      · split at e
        · simp at e
        · rename_i arr ha
          simp only [Option.some.injEq] at e
          subst e
          obtain ⟨h1, h2⟩ := rehash_length _ ha
          rw [flatten_replicate_nil] at h2
          simp only [List.length_replicate, List.length_nil, Nat.zero_add] at h1 h2
          exact ⟨rfl, h2, by simp only [NewLen, h1]; exact hm⟩

/-- `Size` counts the entries. -/
def Counted (h : HashTab K V) : Prop := h.size = h.array.flatten.length

theorem putNode_length {h h' : HashTab K V} {pol : ResizePolicy} {k : K} {v : V} {r : Option (K × V)} (hc : Counted h)
    (e : h.putNode ops pol k v = some (h', r)) : Counted h' ∧
      ((h'.size = h.size ∧ h'.array.length = h.array.length) ∨
       (h'.size = h.size + 1 ∧ NewLen (pol.grow (h.size + 1) h.array.length) h.array.length h'.array.length)) := by
  unfold HashTab.putNode at e
  split at e
  · simp at e
  · rename_i i hi
    split at e
    · simp at e
    · rename_i c hcget
      split at e
      · rename_i old c' hput
        simp only [Option.some.injEq, Prod.mk.injEq] at e
        rw [← e.1]
        obtain ⟨R, p1, p2, -⟩ := set_perm h.array i c c' hcget
        have hlen : c'.length = c.length := by
          rcases chainPut_spec (ops := ops) k v c with ⟨h1, -⟩ | ⟨o, c2, A, B, h1, h2, h3, -⟩
          · rw [h1] at hput; simp at hput
          · rw [h1] at hput
            simp only [Option.some.injEq, Prod.mk.injEq] at hput
            rw [← hput.2, h2, h3]
            simp
        refine ⟨?_, .inl ⟨rfl, by simp⟩⟩
        simp only [Counted] at hc ⊢
        rw [p2.length_eq, hc, p1.length_eq]
        simp [hlen]
      · simp only at e
        split at e
        · simp at e
        · rename_i h2 hres
          simp only [Option.some.injEq, Prod.mk.injEq] at e
          rw [← e.1]
          obtain ⟨R, p1, p2, -⟩ := set_perm h.array i c ((k, v) :: c) hcget
          obtain ⟨r1, r2, r3⟩ := resizeIf_length hres
          simp only [List.length_set] at r1 r2 r3
          refine ⟨?_, .inr ⟨r1, r3⟩⟩
          simp only [Counted] at hc ⊢
          rw [r1, r2, p2.length_eq, hc, p1.length_eq]
          simp

theorem removeNode_length {h h' : HashTab K V} {pol : ResizePolicy} {k : K} {r : Option (K × V)} (hc : Counted h)
    (e : h.removeNode ops pol k = some (h', r)) : Counted h' ∧
      ((h'.size = h.size ∧ h'.array.length = h.array.length) ∨
       (h'.size = h.size - 1 ∧ NewLen (pol.shrink (h.size - 1) h.array.length) h.array.length h'.array.length)) := by
  unfold HashTab.removeNode at e
  split at e
  · simp at e
  · rename_i i hi
    split at e
    · simp at e
    · rename_i c hcget
      split at e
      · simp only [Option.some.injEq, Prod.mk.injEq] at e
        rw [← e.1]
        exact ⟨hc, .inl ⟨rfl, rfl⟩⟩
      · rename_i old c' hrem
        simp only at e
        split at e
        · simp at e
        · rename_i h2 hres
          simp only [Option.some.injEq, Prod.mk.injEq] at e
          rw [← e.1]
          obtain ⟨R, p1, p2, -⟩ := set_perm h.array i c c' hcget
          obtain ⟨r1, r2, r3⟩ := resizeIf_length hres
          simp only [List.length_set] at r1 r2 r3
          have hlen : c'.length + 1 = c.length := by
            rcases chainRemove_spec (ops := ops) k c with ⟨h1, -⟩ | ⟨o, A, B, h1, h2, -⟩
            · rw [h1] at hrem; simp at hrem
            · rw [h1] at hrem
              simp only [Option.some.injEq, Prod.mk.injEq] at hrem
              rw [← hrem.2, h2]
              simp
              omega
          refine ⟨?_, .inr ⟨r1, r3⟩⟩
          simp only [Counted] at hc ⊢
          rw [r1, r2, p2.length_eq, hc, p1.length_eq]
          simp
          omega

/-! ### The invariants -/

/-- Load of a table with `s` entries in `c` buckets. -/
structure LoadInv (s : Int) (c : Nat) : Prop where
  nonneg : 0 ≤ s
  floor : 10 ≤ c
  load : 4000000 * s < 3000001 * c
  exact : c ≤ 2 ^ 24 → 4 * s < 3 * c

/-- Not too many buckets. -/
def SpaceInv (s : Int) (c : Nat) : Prop := c ≤ 10 ∨ c ≤ 7 * s

/-- Forty times the potential for the cost of resizing. -/
def potential (s : Int) (c : Nat) : Int := max 0 (160 * s - 85 * c) + max 0 (12 * c - 40 * s)

/-- The number of entries moved to other buckets by a call that leads from `c` to `c'` buckets and ends with `s` entries. -/
def moved (s : Int) (c c' : Nat) : Int := if c' = c then 0 else s

theorem loadInv_put {s : Int} {c c' : Nat} (h : LoadInv s c) (hl : NewLen (floatPolicy.grow (s + 1) c) c c') :
    LoadInv (s + 1) c' ∧ (SpaceInv s c → SpaceInv (s + 1) c') ∧
      40 * moved (s + 1) c c' + potential (s + 1) c' ≤ potential s c + 160 := by
  obtain ⟨h1, h2, h3, h4⟩ := h
  unfold SpaceInv potential moved
  cases hg : floatPolicy.grow (s + 1) c with
  | none =>
    rw [hg] at hl
    simp only [NewLen] at hl
    subst hl
    have a := grow_none_bound (by omega) (by omega) hg
    exact ⟨⟨by omega, h2, a, fun hc => grow_none_exact (by omega) (by omega) hc hg⟩, by omega, by rw [if_pos rfl]; omega⟩
  | some n =>
    rw [hg] at hl
    simp only [NewLen] at hl
    obtain ⟨a1, a2, a3⟩ := grow_some_bound (by omega) (by omega) hg
    exact ⟨⟨by omega, by omega, by omega, by omega⟩, by omega, by split <;> omega⟩

theorem loadInv_remove {s : Int} {c c' : Nat} (h : LoadInv s c) (hs : 0 ≤ s - 1)
    (hl : NewLen (floatPolicy.shrink (s - 1) c) c c') :
    LoadInv (s - 1) c' ∧ (SpaceInv s c → SpaceInv (s - 1) c') ∧
      40 * moved (s - 1) c c' + potential (s - 1) c' ≤ potential s c + 160 := by
  obtain ⟨h1, h2, h3, h4⟩ := h
  unfold SpaceInv potential moved
  cases hg : floatPolicy.shrink (s - 1) c with
  | none =>
    rw [hg] at hl
    simp only [NewLen] at hl
    subst hl
    have a := shrink_none_bound hs (by omega) hg
    exact ⟨⟨by omega, h2, by omega, by omega⟩, by omega, by rw [if_pos rfl]; omega⟩
  | some n =>
    rw [hg] at hl
    simp only [NewLen] at hl
    obtain ⟨a1, a2, a3⟩ := shrink_some_bound hs (by omega) hg
    exact ⟨⟨by omega, by omega, by omega, by omega⟩, by omega, by split <;> omega⟩

/-- The invariants of a table, and what one call does to them. -/
structure TabStep (h h' : HashTab K V) : Prop where
  counted : Counted h'
  load : LoadInv h'.size h'.array.length
  space : SpaceInv h.size h.array.length → SpaceInv h'.size h'.array.length
  cost : 40 * moved h'.size h.array.length h'.array.length + potential h'.size h'.array.length ≤
    potential h.size h.array.length + 160

theorem tabStep_same {h h' : HashTab K V} (hc : Counted h') (hl : LoadInv h.size h.array.length) (h1 : h'.size = h.size)
    (h2 : h'.array.length = h.array.length) : TabStep h h' := by
  refine ⟨hc, by rw [h1, h2]; exact hl, by rw [h1, h2]; exact id, ?_⟩
  rw [h1, h2, moved, if_pos rfl]
  omega

theorem tabStep_put {h h' : HashTab K V} {k : K} {v : V} {r : Option (K × V)} (hc : Counted h) (hl : LoadInv h.size h.array.length)
    (e : h.putNode ops floatPolicy k v = some (h', r)) : TabStep h h' := by
  obtain ⟨c1, ⟨h1, h2⟩ | ⟨h1, h2⟩⟩ := putNode_length hc e
  · exact tabStep_same c1 hl h1 h2
  · have := loadInv_put hl h2
    rw [← h1] at this
    exact ⟨c1, this.1, this.2.1, this.2.2⟩

theorem tabStep_remove {h h' : HashTab K V} {k : K} {r : Option (K × V)} (hc : Counted h) (hl : LoadInv h.size h.array.length)
    (e : h.removeNode ops floatPolicy k = some (h', r)) : TabStep h h' := by
  obtain ⟨c1, ⟨h1, h2⟩ | ⟨h1, h2⟩⟩ := removeNode_length hc e
  · exact tabStep_same c1 hl h1 h2
  · have hs : 0 ≤ h.size - 1 := by rw [← h1, c1]; omega
    have := loadInv_remove hl hs h2
    rw [← h1] at this
    exact ⟨c1, this.1, this.2.1, this.2.2⟩

theorem tabNew (cap : Int) : Counted (HashTab.new cap : HashTab K V) ∧
    LoadInv (HashTab.new cap : HashTab K V).size (HashTab.new cap : HashTab K V).array.length := by
  have e : (HashTab.new cap : HashTab K V).size = 0 := rfl
  have hl : 10 ≤ (HashTab.new cap : HashTab K V).array.length := by simp only [HashTab.new, List.length_replicate]; split <;> omega
  refine ⟨by simp [Counted, HashTab.new], ?_⟩
  rw [e]
  exact ⟨by omega, hl, by omega, by omega⟩

/-- A history of calls on a `HashMap` with the default load factor and multiplier and the number of entries moved by
resizing. -/
def runMoved (ops : HashOps K) (h : HashTab K V) : List (MapOp K V) → Option (HashTab K V × Int)
  | [] => some (h, 0)
  | o :: os => match runHash ops floatPolicy h [o] with
    | none => none
    | some (h1, _) => match runMoved ops h1 os with
      | none => none
      | some (h2, n) => some (h2, moved h1.size h.array.length h1.array.length + n)

theorem tabStep_op {h h' : HashTab K V} {o : MapOp K V} {rs : List (Option V)} (hc : Counted h) (hl : LoadInv h.size h.array.length)
    (e : runHash ops floatPolicy h [o] = some (h', rs)) : TabStep h h' := by
  cases o with
  | put k v =>
    simp only [runHash, HashTab.put] at e
    cases hp : h.putNode ops floatPolicy k v with
    | none => rw [hp] at e; simp at e
    | some x =>
      rw [hp] at e
      simp only [Option.map_some, Option.some.injEq, Prod.mk.injEq] at e
      rw [← e.1]
      exact tabStep_put hc hl hp
  | remove k =>
    simp only [runHash, HashTab.remove] at e
    cases hp : h.removeNode ops floatPolicy k with
    | none => rw [hp] at e; simp at e
    | some x =>
      rw [hp] at e
      simp only [Option.map_some, Option.some.injEq, Prod.mk.injEq] at e
      rw [← e.1]
      exact tabStep_remove hc hl hp

/-- A history is its first call followed by the rest. -/
theorem runHash_cons {pol : ResizePolicy} {h h2 : HashTab K V} {o : MapOp K V} {os : List (MapOp K V)} {rs : List (Option V)} :
    runHash ops pol h (o :: os) = some (h2, rs) ↔
      ∃ h1 r rs', runHash ops pol h [o] = some (h1, [r]) ∧ runHash ops pol h1 os = some (h2, rs') ∧ rs = r :: rs' := by
  cases o with
  | put k v =>
    simp only [runHash]
    cases h.put ops pol k v with
    | none => simp
    | some x =>
      simp only
      cases hr : runHash ops pol x.1 os with
      | none => simp [hr]
      | some y =>
        simp only [Option.some.injEq, Prod.mk.injEq, List.cons.injEq, and_true]
        constructor
        · rintro ⟨rfl, rfl⟩; exact ⟨_, _, _, ⟨rfl, rfl⟩, hr, rfl⟩
        · rintro ⟨_, _, _, ⟨rfl, rfl⟩, h4, rfl⟩
          rw [hr] at h4
          simp only [Option.some.injEq] at h4
          subst h4
          exact ⟨rfl, rfl⟩
  | remove k =>
    simp only [runHash]
    cases h.remove ops pol k with
    | none => simp
    | some x =>
      simp only
      cases hr : runHash ops pol x.1 os with
      | none => simp [hr]
      | some y =>
        simp only [Option.some.injEq, Prod.mk.injEq, List.cons.injEq, and_true]
        constructor
        · rintro ⟨rfl, rfl⟩; exact ⟨_, _, _, ⟨rfl, rfl⟩, hr, rfl⟩
        · rintro ⟨_, _, _, ⟨rfl, rfl⟩, h4, rfl⟩
          rw [hr] at h4
          simp only [Option.some.injEq] at h4
          subst h4
          exact ⟨rfl, rfl⟩

theorem tabRun : ∀ (os : List (MapOp K V)) (h h' : HashTab K V) (rs : List (Option V)), Counted h →
    LoadInv h.size h.array.length → runHash ops floatPolicy h os = some (h', rs) →
    Counted h' ∧ LoadInv h'.size h'.array.length ∧ (SpaceInv h.size h.array.length → SpaceInv h'.size h'.array.length)
  | [], h, h', rs, hc, hl, e => by
    simp only [runHash, Option.some.injEq, Prod.mk.injEq] at e
    rw [← e.1]
    exact ⟨hc, hl, id⟩
  | o :: os, h, h', rs, hc, hl, e => by
    obtain ⟨h1, r, rs', e1, e2, -⟩ := runHash_cons.mp e
    have t := tabStep_op hc hl e1
    obtain ⟨a, b, c⟩ := tabRun os h1 h' rs' t.counted t.load e2
    exact ⟨a, b, fun hs => c (t.space hs)⟩

/-! ### C99 Load factor and space -/

/-- C99: after any history of Put and Remove on a map with the default load factor 0.75 and multiplier 1.5, whatever its initial
capacity and the hash function, there are fewer than 0.75 entries per bucket, up to a relative rounding error of 4 * 10^-7 for more
than 2^24 buckets. -/
theorem C99_load (cap : Int) (os : List (MapOp K V)) (h : HashTab K V) (rs : List (Option V))
    (hrun : runHash ops floatPolicy (HashTab.new cap) os = some (h, rs)) :
    h.size = h.array.flatten.length ∧ (h.array.length ≤ 2 ^ 24 → 4 * h.size < 3 * h.array.length) ∧
      4000000 * h.size < 3000001 * h.array.length := by
  obtain ⟨a, b, -⟩ := tabRun os _ _ _ (tabNew cap).1 (tabNew cap).2 hrun
  exact ⟨a, b.exact, b.load⟩

example := C99_load (ops := natHash) 10 [.put 1 1, .put 4 4, .remove 1]
  ⟨[[], [(4, 4)], [], [], [], [], [], [], [], []], 1⟩ [none, none, some 1] (by decide +kernel)

/-- C99: a default map has at most seven buckets per entry, or ten. -/
theorem C99_space (os : List (MapOp K V)) (h : HashTab K V) (rs : List (Option V))
    (hrun : runHash ops floatPolicy (HashTab.new 10) os = some (h, rs)) : (h.array.length : Int) ≤ max 10 (7 * h.size) := by
  obtain ⟨-, -, c⟩ := tabRun os _ _ _ (tabNew 10).1 (tabNew 10).2 hrun
  rcases c (.inl (by simp [HashTab.new])) with h | h <;> omega

example := C99_space (ops := natHash) [.put 1 1, .put 4 4, .remove 1]
  ⟨[[], [(4, 4)], [], [], [], [], [], [], [], []], 1⟩ [none, none, some 1] (by decide +kernel)

/-- C99: the same holds for sets. -/
theorem C99_set (os : List (HSetOp K)) (h : HashTab K Unit) (rs : List (Option K))
    (hrun : runHashSet ops floatPolicy (HashTab.new 10) os = some (h, rs)) :
    (h.array.length ≤ 2 ^ 24 → 4 * h.size < 3 * h.array.length) ∧ (h.array.length : Int) ≤ max 10 (7 * h.size) := by
  suffices H : ∀ (os : List (HSetOp K)) (h h' : HashTab K Unit) (rs : List (Option K)), Counted h →
      LoadInv h.size h.array.length → SpaceInv h.size h.array.length → runHashSet ops floatPolicy h os = some (h', rs) →
      LoadInv h'.size h'.array.length ∧ SpaceInv h'.size h'.array.length by
    obtain ⟨a, b⟩ := H os _ _ _ (tabNew 10).1 (tabNew 10).2 (.inl (by simp [HashTab.new])) hrun
    exact ⟨a.exact, by rcases b with b | b <;> omega⟩
  clear hrun
  intro os
  induction os with
  | nil =>
    intro h h' rs hc hl hs e
    simp only [runHashSet, Option.some.injEq, Prod.mk.injEq] at e
    rw [← e.1]
    exact ⟨hl, hs⟩
  | cons o os ih =>
    intro h h' rs hc hl hs e
    cases o with
    | put k =>
      simp only [runHashSet, HashTab.setPut] at e
      cases hp : h.putNode ops floatPolicy k () with
      | none => rw [hp] at e; simp at e
      | some x =>
        rw [hp] at e
        simp only [Option.map_some] at e
        have t := tabStep_put hc hl hp
        split at e
        · simp at e
        · rename_i h2 rs2 e2
          simp only [Option.some.injEq, Prod.mk.injEq] at e
          rw [← e.1]
          exact ih _ _ _ t.counted t.load (t.space hs) e2
    | remove k =>
      simp only [runHashSet, HashTab.setRemove] at e
      cases hp : h.removeNode ops floatPolicy k with
      | none => rw [hp] at e; simp at e
      | some x =>
        rw [hp] at e
        simp only [Option.map_some] at e
        have t := tabStep_remove hc hl hp
        split at e
        · simp at e
        · rename_i h2 rs2 e2
          simp only [Option.some.injEq, Prod.mk.injEq] at e
          rw [← e.1]
          exact ih _ _ _ t.counted t.load (t.space hs) e2

example : (runHash natHash floatPolicy (HashTab.new 10) ((List.range 12).map fun i => .put i i)).map
    (fun r => (r.1.size, r.1.array.length)) = some (12, 22) := by decide +kernel

/-- The default policy meets the assumption of C28 for up to 2^30 calls. -/
theorem floatPolicy_modest : Modest floatPolicy (2 ^ 30) := by
  intro s len c h0 hs hlen hc
  rcases Nat.eq_zero_or_pos len with rfl | hl
  · have z : float32 (((0 : Nat) : ℚ)) = 0 := float32_nat (by omega)
    have z' : float32 0 = 0 := by simpa using z
    have zz : loadRatio s 0 = 0 := by unfold loadRatio; rw [z, div_zero, z']
    rcases hc with hc | hc
    · simp only [floatPolicy, zz] at hc
      rw [if_neg (by norm_num)] at hc
      simp at hc
    · simp only [floatPolicy, zz, z, zero_div, z', Int.floor_zero] at hc
      split at hc
      · simp only [Option.some.injEq] at hc; omega
      · simp at hc
  · rcases hc with hc | hc
    · have := grow_some_bound h0 hl hc; omega
    · have := shrink_some_bound h0 hl hc; omega

/-! ### C100 Calls on a default map never panic -/

theorem resizeIf_total (h : HashTab K V) (o : Option Int) (ho : ∀ n, o = some n → n < 2 ^ 32) : (h.resizeIf ops o).isSome := by
  cases o with
  | none => rfl
  | some n =>
    have hn := ho n rfl
    simp only [HashTab.resizeIf, HashTab.resize]
    have hm : ((if n < 10 then 10 else n.toNat : Nat) : Int) = max 10 n := by split <;> omega
    generalize (if n < 10 then 10 else n.toNat) = m at hm
    split
    · rfl
    · rw [if_neg (by omega)]
      obtain ⟨arr, e, -⟩ := rehash_spec ops h.array (List.replicate m []) (by simp; omega) (by simp; omega) (placed_replicate ops m)
      rw [e]
      rfl

/-- C100: as long as a default map holds fewer than 600 million entries, no call panics. -/
theorem C100_total (os : List (MapOp K V)) (h : HashTab K V) (rs : List (Option V))
    (hrun : runHash ops floatPolicy (HashTab.new 10) os = some (h, rs)) (hs : h.size < 600000000) (k : K) (v : V) :
    (h.get ops k).isSome ∧ (h.put ops floatPolicy k v).isSome ∧ (h.remove ops floatPolicy k).isSome := by
  have hsp := C99_space os h rs hrun
  obtain ⟨hc, hl, -⟩ := tabRun os _ _ _ (tabNew 10).1 (tabNew 10).2 hrun
  have hf := hl.floor
  obtain ⟨i, c, h1, h2⟩ := index_ok ops h.array (by omega) (by omega) k
  refine ⟨?_, ?_, ?_⟩
  · simp only [HashTab.get, HashTab.getNode, h1, h2, Option.map_some, Option.isSome_some]
  · simp only [HashTab.put, Option.isSome_map, HashTab.putNode, h1, h2]
    split
    · rfl
    · have := resizeIf_total (ops := ops) (⟨h.array.set i ((k, v) :: c), h.size + 1⟩ : HashTab K V)
        (floatPolicy.grow (h.size + 1) (h.array.set i ((k, v) :: c)).length) (fun n hn => by
          have := grow_some_bound (by have := hl.nonneg; omega) (by simp; omega) hn
          rw [List.length_set] at this
          omega)
      obtain ⟨x, hx⟩ := Option.isSome_iff_exists.mp this
      rw [hx]
      rfl
  · simp only [HashTab.remove, Option.isSome_map, HashTab.removeNode, h1, h2]
    rcases chainRemove_spec (ops := ops) k c with ⟨e, -⟩ | ⟨old, A, B, e, e2, -⟩
    · rw [e]; rfl
    · rw [e]
      have hpos : 0 ≤ h.size - 1 := by
        have : 0 < h.array.flatten.length := by
          refine List.length_pos_of_mem (a := old) (List.mem_flatten.mpr ⟨c, List.mem_of_getElem? h2, ?_⟩)
          rw [e2]; simp
        simp only [Counted] at hc
        omega
      have := resizeIf_total (ops := ops) (⟨h.array.set i (A ++ B), h.size - 1⟩ : HashTab K V)
        (floatPolicy.shrink (h.size - 1) (h.array.set i (A ++ B)).length) (fun n hn => by
          have := shrink_some_bound hpos (by simp; omega) hn
          rw [List.length_set] at this
          omega)
      obtain ⟨x, hx⟩ := Option.isSome_iff_exists.mp this
      simp only
      rw [hx]
      rfl

example : ∃ h, runHash natHash floatPolicy (HashTab.new 10 : HashTab Nat Nat) [.put 1 1, .put 4 4, .remove 1] =
    some (h, [none, none, some 1]) ∧ h.size = 1 := by
  refine ⟨⟨[[], [(4, 4)], [], [], [], [], [], [], [], []], 1⟩, ?_, rfl⟩
  decide +kernel

/-! ### C101 Cost of resizing -/

theorem moved_run : ∀ (os : List (MapOp K V)) (h h' : HashTab K V) (n : Int), Counted h → LoadInv h.size h.array.length →
    runMoved ops h os = some (h', n) → 40 * n + potential h'.size h'.array.length ≤ potential h.size h.array.length + 160 * os.length
  | [], h, h', n, _, _, e => by
    simp only [runMoved, Option.some.injEq, Prod.mk.injEq] at e
    obtain ⟨rfl, rfl⟩ := e
    simp
  | o :: os, h, h', n, hc, hl, e => by
    simp only [runMoved] at e
    split at e
    · simp at e
    · rename_i h1 r e1
      split at e
      · simp at e
      · rename_i h2 m e2
        simp only [Option.some.injEq, Prod.mk.injEq] at e
        obtain ⟨rfl, rfl⟩ := e
        have t := tabStep_op hc hl e1
        have := moved_run os h1 _ _ t.counted t.load e2
        have := t.cost
        rw [List.length_cons]
        push_cast
        omega

/-- C101: resizing costs amortised constant time: in any history of calls on a map with the default load factor and multiplier, the
entries moved to a new bucket by all resizes together number at most four per call, plus 3/10 of the initial capacity. -/
theorem C101_amortised (cap : Int) (os : List (MapOp K V)) (h : HashTab K V) (n : Int)
    (hrun : runMoved ops (HashTab.new cap) os = some (h, n)) : 10 * n ≤ 40 * os.length + 3 * max 10 cap := by
  have := moved_run os _ _ _ (tabNew cap).1 (tabNew cap).2 hrun
  have e : (HashTab.new cap : HashTab K V).size = 0 := rfl
  have hl : ((HashTab.new cap : HashTab K V).array.length : Int) = max 10 cap := by
    simp only [HashTab.new, List.length_replicate]; split <;> omega
  simp only [potential] at this
  rw [e] at this
  omega

example : (runMoved natHash (HashTab.new 10) (((List.range 12).map fun i => .put i i) ++ ((List.range 10).map .remove))).map Prod.snd
    = some 23 := by decide +kernel

end Poodle.Props
