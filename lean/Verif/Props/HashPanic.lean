import Verif.Lemmas.HashPanic
import Verif.Props.HashMap

/-
Property C131: hash maps whose keys have methods that may panic (/repo/src/collection/hash.go:103-214).
-/

namespace Poodle.Props
open Poodle Poodle.Spec

variable {K V : Type} {ops : HashOps K} {pol : ResizePolicy}

/-- A history of calls on a `HashMap`, each with its own trap: the table at the end and what each call returned (`none`: it panicked,
and the panic was recovered). -/
def runHashT (ops : HashOps K) (pol : ResizePolicy) (h : HashTab K V) : List (Trap K × MapOp K V) → HashTab K V × List (Option (Option V))
  | [] => (h, [])
  | (t, .put k v) :: os =>
    ((runHashT ops pol (h.putT t ops pol k v).1 os).1, (h.putT t ops pol k v).2 :: (runHashT ops pol (h.putT t ops pol k v).1 os).2)
  | (t, .remove k) :: os =>
    ((runHashT ops pol (h.removeT t ops pol k).1 os).1, (h.removeT t ops pol k).2 :: (runHashT ops pol (h.removeT t ops pol k).1 os).2)

/-- The claim C131 (false of the code): a call that panics has no effect. -/
def PanicNoEffect : Prop := ∀ (K V : Type) (ops : HashOps K) (pol : ResizePolicy), LawfulHash ops → ∀ (os : List (Trap K × MapOp K V)),
  Modest pol os.length → ∃ m, SafeRuns ops.equal (fun _ => none) (os.map Prod.snd) (runHashT ops pol (HashTab.new 10) os).2 m ∧
    ∀ k, (runHashT ops pol (HashTab.new 10) os).1.get ops k = some (m k)

/-- Nothing panics. -/
def noTrap : Trap Nat := fun _ _ => false

/-- The second hash of a call panics. -/
def secondHash : Trap Nat := fun n c => n == 1 && match c with | .hash _ => true | .equal _ _ => false

/-- The eighth key makes the map grow. -/
def eightKeys : List (Trap Nat × MapOp Nat Nat) :=
  (List.range 7).map (fun k => (noTrap, .put (3 * k) k)) ++ [(secondHash, .put 1 100)]

theorem defaultPolicy_modest (n : Nat) (hn : n ≤ 2 ^ 30) : Modest defaultPolicy n := by
  rintro s len c h0 hs hlen (h | h) <;> simp only [defaultPolicy] at h <;> split at h <;>
    simp only [Option.some.injEq, reduceCtorEq] at h <;> omega

theorem safeRuns_last {eqv : K → K → Bool} {m : K → Option V} {os : List (MapOp K V)} {rs : List (Option (Option V))} {m' : K → Option V}
    {k : K} {v : V} (h : SafeRuns eqv m (os ++ [.put k v]) (rs ++ [none]) m') (hr : ∀ r ∈ rs, r ≠ none) (hl : os.length = rs.length) :
    SafeRuns eqv m os rs m' := by
  induction os generalizing m rs with
  | nil =>
    obtain rfl : rs = [] := List.length_eq_zero_iff.mp hl.symm
    cases h with
    | lost _ _ _ _ _ h => exact h
  | cons o os ih =>
    cases rs with
    | nil => simp at hl
    | cons r rs =>
      simp only [List.cons_append] at h
      cases h with
      | ret _ _ _ _ _ h => exact .ret _ _ _ _ _ (ih h (fun r hr' => hr r (by simp [hr'])) (by simpa using hl))
      | lost => exact absurd rfl (hr none (by simp))

/-- C131 is refuted: a `Put` that panics while the table grows has put the key in. -/
theorem C131_refuted : ¬ PanicNoEffect := by
  intro h
  obtain ⟨m, h1, h2⟩ := h Nat Nat natHash defaultPolicy natHash_lawful eightKeys (defaultPolicy_modest _ (by decide))
  have e1 : (runHashT natHash defaultPolicy (HashTab.new 10) eightKeys).2 = List.replicate 7 (some none) ++ [none] := by decide +kernel
  have e2 : (runHashT natHash defaultPolicy (HashTab.new 10) eightKeys).1.get natHash 1 = some (some 100) := by decide +kernel
  have e3 : eightKeys.map Prod.snd = (List.range 7).map (fun k => .put (3 * k) k) ++ [.put 1 100] := by simp [eightKeys]
  rw [e1, e3] at h1
  have h3 := safeRuns_last h1 (by simp) (by simp)
  have hm : m 1 = none := by
    have key : ∀ (os : List (MapOp Nat Nat)) (m0 m' : Nat → Option Nat) (rs : List (Option (Option Nat))),
        SafeRuns natHash.equal m0 os rs m' → (∀ o ∈ os, ∀ v, o ≠ .put 1 v) → m0 1 = none → m' 1 = none := by
      intro os m0 m' rs hs
      induction hs with
      | nil m => intro _ h; exact h
      | ret m op os rs m' _ ih =>
        intro ho h
        refine ih (fun o hh => ho o (by simp [hh])) ?_
        cases op with
        | put k v =>
          have : k ≠ 1 := fun e => ho (.put k v) (by simp) v (by rw [e])
          simp only [applyE, natHash, beq_iff_eq]
          rw [if_neg (fun e => this e.symm), h]
        | remove k =>
          simp only [applyE]
          split <;> simp [h]
      | lost m op os rs m' _ ih => intro ho h; exact ih (fun o hh => ho o (by simp [hh])) h
    refine key _ _ _ _ h3 ?_ rfl
    intro o ho v e
    subst e
    simp only [List.mem_map, List.mem_range, MapOp.put.injEq] at ho
    obtain ⟨a, -, h, -⟩ := ho
    omega
  rw [h2 1, hm] at e2
  simp at e2

theorem neverResize_modest (n : Nat) : Modest neverResize n := by
  rintro s len c h0 hs hlen (h | h) <;> simp [neverResize] at h

/-- One call, from a good table. -/
theorem putT_step (hl : LawfulHash ops) (t : Trap K) (h : HashTab K V) (hg : GoodTab ops h) (k : K) (v : V) {n : Nat} (hn : h.size + 1 ≤ n)
    (hpol : Modest pol n) :
    GoodTab ops (h.putT t ops pol k v).1 ∧ (h.putT t ops pol k v).1.size ≤ h.size + 1 ∧
    ((h.putT t ops pol k v = (h, none)) ∨
     (valE ops (h.putT t ops pol k v).1.all = applyE ops.equal (valE ops h.all) (.put k v) ∧
        ((h.putT t ops pol k v).2 = some (valE ops h.all k) ∨ ((h.putT t ops pol k v).2 = none ∧ valE ops h.all k = none ∧
          ∃ c n, (h.putT t ops pol k v).1.resizeIfT t ops c n = none ∧
            pol.grow (h.putT t ops pol k v).1.size (h.putT t ops pol k v).1.array.length = c)))) := by
  unfold HashTab.putT
  rcases putNodeT_cases (t := t) (ops := ops) (pol := pol) h k v with e | ⟨h', e1, e2, e3⟩ | ⟨h', r, e1, e2⟩
  · rw [e]; exact ⟨hg, by simp, .inl rfl⟩
  · obtain ⟨h1, p1, p2, p3, p4⟩ := put_hash_step hl neverResize h hg k v (by intro m len c _ _ _ h; simp [neverResize] at h)
    rw [e1] at p1
    simp only [Option.some.injEq, Prod.mk.injEq] at p1
    obtain ⟨rfl, p1⟩ := p1
    rw [e2]
    refine ⟨p2, p3, .inr ⟨p4, .inr ⟨rfl, ?_, e3⟩⟩⟩
    simp [valE, ← p1]
  · obtain ⟨h1, p1, p2, p3, p4⟩ := put_hash_step hl pol h hg k v (fun m len c h0 hm hlen hc => hpol m len c h0 (by omega) hlen (.inl hc))
    rw [e1] at p1
    simp only [Option.some.injEq, Prod.mk.injEq] at p1
    obtain ⟨rfl, rfl⟩ := p1
    rw [e2]
    exact ⟨p2, p3, .inr ⟨p4, .inl rfl⟩⟩

theorem removeT_step (hl : LawfulHash ops) (t : Trap K) (h : HashTab K V) (hg : GoodTab ops h) (k : K) {n : Nat} (hn : h.size + 1 ≤ n)
    (hpol : Modest pol n) :
    GoodTab ops (h.removeT t ops pol k).1 ∧ (h.removeT t ops pol k).1.size ≤ h.size ∧
    ((h.removeT t ops pol k = (h, none)) ∨
     (valE ops (h.removeT t ops pol k).1.all = applyE ops.equal (valE ops h.all) (.remove k) ∧
        ((h.removeT t ops pol k).2 = some (valE ops h.all k) ∨ ((h.removeT t ops pol k).2 = none ∧ valE ops h.all k ≠ none ∧
          ∃ c n, (h.removeT t ops pol k).1.resizeIfT t ops c n = none ∧
            pol.shrink (h.removeT t ops pol k).1.size (h.removeT t ops pol k).1.array.length = c)))) := by
  unfold HashTab.removeT
  rcases removeNodeT_cases (t := t) (ops := ops) (pol := pol) h k with e | ⟨h', old, e1, e2, e3⟩ | ⟨h', r, e1, e2⟩
  · rw [e]; exact ⟨hg, le_refl _, .inl rfl⟩
  · obtain ⟨h1, p1, p2, p3, p4⟩ := remove_hash_step hl neverResize h hg k (by intro m len c _ _ _ h; simp [neverResize] at h)
    rw [e1] at p1
    simp only [Option.some.injEq, Prod.mk.injEq] at p1
    obtain ⟨rfl, p1⟩ := p1
    rw [e2]
    refine ⟨p2, p3, .inr ⟨p4, .inr ⟨rfl, ?_, e3⟩⟩⟩
    simp [valE, ← p1]
  · obtain ⟨h1, p1, p2, p3, p4⟩ := remove_hash_step hl pol h hg k (fun m len c h0 hm hlen hc => hpol m len c h0 (by omega) hlen (.inr hc))
    rw [e1] at p1
    simp only [Option.some.injEq, Prod.mk.injEq] at p1
    obtain ⟨rfl, rfl⟩ := p1
    rw [e2]
    exact ⟨p2, p3, .inr ⟨p4, .inl rfl⟩⟩

theorem runHashT_spec (hl : LawfulHash ops) (os : List (Trap K × MapOp K V)) (h : HashTab K V) (hg : GoodTab ops h) (n : Nat)
    (hn : h.size + os.length ≤ n) (hpol : Modest pol n) :
    GoodTab ops (runHashT ops pol h os).1 ∧
      PanicRuns ops.equal (valE ops h.all) (os.map Prod.snd) (runHashT ops pol h os).2 (valE ops (runHashT ops pol h os).1.all) := by
  induction os generalizing h with
  | nil => exact ⟨hg, .nil _⟩
  | cons o os ih =>
    rw [List.length_cons] at hn
    obtain ⟨t, o⟩ := o
    cases o with
    | put k v =>
      obtain ⟨g, s, r⟩ := putT_step hl t h hg k v (n := n) (by omega) hpol
      simp only [runHashT, List.map_cons]
      rcases r with r | ⟨r1, r2 | ⟨r2, r3, -⟩⟩
      · rw [r]
        obtain ⟨i1, i2⟩ := ih h hg (by omega)
        exact ⟨i1, .lost _ _ _ _ _ i2⟩
      · obtain ⟨i1, i2⟩ := ih _ g (by omega)
        rw [r2]
        rw [r1] at i2
        exact ⟨i1, .ret _ (.put k v) _ _ _ i2⟩
      · obtain ⟨i1, i2⟩ := ih _ g (by omega)
        rw [r2]
        rw [r1] at i2
        exact ⟨i1, .done _ _ _ _ _ r3 i2⟩
    | remove k =>
      obtain ⟨g, s, r⟩ := removeT_step hl t h hg k (n := n) (by omega) hpol
      simp only [runHashT, List.map_cons]
      rcases r with r | ⟨r1, r2 | ⟨r2, r3, -⟩⟩
      · rw [r]
        obtain ⟨i1, i2⟩ := ih h hg (by omega)
        exact ⟨i1, .lost _ _ _ _ _ i2⟩
      · obtain ⟨i1, i2⟩ := ih _ g (by omega)
        rw [r2]
        rw [r1] at i2
        exact ⟨i1, .ret _ (.remove k) _ _ _ i2⟩
      · obtain ⟨i1, i2⟩ := ih _ g (by omega)
        rw [r2]
        rw [r1] at i2
        exact ⟨i1, .done _ _ _ _ _ r3 i2⟩

/-- C131, what holds for all panics at all points: the map stays a finite map; a call that panics has taken effect completely or not
at all, the former only if it added or removed a key; `Get` panics or returns what the finite map has; `Size` is the number of keys. -/
theorem C131_all_or_nothing_partial (hl : LawfulHash ops) (cap : Int) (hc : cap < 2 ^ 32) (os : List (Trap K × MapOp K V))
    (hpol : Modest pol os.length) :
    ∃ m, PanicRuns ops.equal (fun _ => none) (os.map Prod.snd) (runHashT ops pol (HashTab.new cap) os).2 m ∧
      (∀ t k, (runHashT ops pol (HashTab.new cap) os).1.getT t ops k = none ∨
        (runHashT ops pol (HashTab.new cap) os).1.getT t ops k = some (m k)) ∧
      (∀ k, (runHashT ops pol (HashTab.new cap) os).1.get ops k = some (m k)) ∧
      ∃ n : Nat, (runHashT ops pol (HashTab.new cap) os).1.size = n ∧ SizeE ops.equal m n := by
  obtain ⟨g, r⟩ := runHashT_spec hl os (HashTab.new cap) (new_hash_good cap hc) os.length (by simp [HashTab.new]) hpol
  have e0 : valE ops (HashTab.new cap : HashTab K V).all = fun _ => none := by rw [all_new]; rfl
  rw [e0] at r
  have hget : ∀ k, (runHashT ops pol (HashTab.new cap) os).1.get ops k = some (valE ops (runHashT ops pol (HashTab.new cap) os).1.all k) := by
    intro k
    rw [HashTab.get, getNode_spec hl _ g]; rfl
  refine ⟨_, r, fun t k => ?_, hget, _, g.size, valE_size hl g.distinct⟩
  rcases getNodeT_or (t := t) (ops := ops) (runHashT ops pol (HashTab.new cap) os).1 k with e | e
  · left; simp [HashTab.getT, e]
  · right
    rw [← hget k, HashTab.getT, e, HashTab.get]

example : LawfulHash natHash ∧ (10 : Int) < 2 ^ 32 ∧ Modest defaultPolicy eightKeys.length :=
  ⟨natHash_lawful, by decide, defaultPolicy_modest _ (by decide)⟩

example : (runHashT natHash defaultPolicy (HashTab.new 10) (eightKeys ++ [(noTrap, .remove 1), (fun n _ => n == 2, .remove 6)])).2 =
    List.replicate 7 (some none) ++ [none, some (some 100), none] := by decide +kernel

/-- C131: a call panics only if a method of a key does. -/
theorem C131_only_keys_panic (hl : LawfulHash ops) (cap : Int) (hc : cap < 2 ^ 32) (os : List (Trap K × MapOp K V))
    (hpol : Modest pol os.length) :
    (∀ (i : Nat) o, os[i]? = some o → (runHashT ops pol (HashTab.new cap) os).2[i]? = some none → ∃ n c, o.1 n c = true) ∧
      ∀ t k, (runHashT ops pol (HashTab.new cap) os).1.getT t ops k = none → ∃ n c, t n c = true := by
  have never : ∀ {t : Trap K}, (¬ ∃ n c, t n c = true) → ∀ n c, t n c = false := by
    intro t h n c
    cases e : t n c
    · rfl
    · exact absurd ⟨n, c, e⟩ h
  constructor
  · suffices H : ∀ (os : List (Trap K × MapOp K V)) (h : HashTab K V), GoodTab ops h → ∀ n : Nat, h.size + os.length ≤ n → Modest pol n →
        ∀ (i : Nat) o, os[i]? = some o → (runHashT ops pol h os).2[i]? = some none → ∃ n c, o.1 n c = true by
      exact H os (HashTab.new cap) (new_hash_good cap hc) os.length (by simp [HashTab.new]) hpol
    clear hpol
    intro os
    induction os with
    | nil => intro h _ n _ _ i o ho; simp at ho
    | cons o os ih =>
      intro h hg n hn hpol i o' ho hr
      rw [List.length_cons] at hn
      obtain ⟨t, op⟩ := o
      cases op with
      | put k v =>
        obtain ⟨g, s, -⟩ := putT_step hl t h hg k v (n := n) (by omega) hpol
        cases i with
        | succ i => exact ih _ g n (by omega) hpol i o' (by simpa using ho) (by simpa [runHashT] using hr)
        | zero =>
          simp only [List.getElem?_cons_zero, Option.some.injEq] at ho
          subst ho
          by_contra hcon
          obtain ⟨h1, p1, -⟩ := putNode_hash_spec hl pol h hg k v (fun m len c h0 hm hlen hc => hpol m len c h0 (by omega) hlen (.inl hc))
          simp [runHashT, HashTab.putT, putNodeT_clean (never hcon) h k v p1] at hr
      | remove k =>
        obtain ⟨g, s, -⟩ := removeT_step hl t h hg k (n := n) (by omega) hpol
        cases i with
        | succ i => exact ih _ g n (by omega) hpol i o' (by simpa using ho) (by simpa [runHashT] using hr)
        | zero =>
          simp only [List.getElem?_cons_zero, Option.some.injEq] at ho
          subst ho
          by_contra hcon
          obtain ⟨h1, p1, -⟩ := removeNode_hash_spec hl pol h hg k (fun m len c h0 hm hlen hc => hpol m len c h0 (by omega) hlen (.inr hc))
          simp [runHashT, HashTab.removeT, removeNodeT_clean (never hcon) h k p1] at hr
  · intro t k hr
    by_contra hcon
    obtain ⟨g, -⟩ := runHashT_spec hl os (HashTab.new cap) (new_hash_good cap hc) os.length (by simp [HashTab.new]) hpol
    rw [HashTab.getT, getNodeT_clean (never hcon), getNode_spec hl _ g] at hr
    simp at hr

example : (runHashT natHash defaultPolicy (HashTab.new 10) eightKeys).2[7]? = some none ∧
    (runHashT natHash defaultPolicy (HashTab.new 10) eightKeys).1.getT (fun _ _ => true) natHash 3 = none := by decide +kernel

/-- Whether the hash of a key panics depends on the key only, and `Equal` panics as it likes. -/
def FixedHash (bad : K → Bool) (t : Trap K) : Prop := ∀ n k, t n (.hash k) = bad k

theorem keys_put (hl : LawfulHash ops) {t : Trap K} {bad : K → Bool} (ht : FixedHash bad t) (h : HashTab K V) (hg : GoodTab ops h)
    (hb : ∀ e ∈ h.all, bad e.1 = false) (k : K) (v : V) {n : Nat} (hn : h.size + 1 ≤ n) (hpol : Modest pol n) :
    (∀ e ∈ (h.putT t ops pol k v).1.all, bad e.1 = false) ∧
      ((h.putT t ops pol k v = (h, none)) ∨ (h.putT t ops pol k v).2 = some (valE ops h.all k)) := by
  by_cases hk : bad k = true
  · have : h.putNodeT t ops pol k v = (h, none) := by simp [HashTab.putNodeT, keyCall, ht 0 k, hk]
    simp only [HashTab.putT, this]
    exact ⟨hb, .inl rfl⟩
  · have hk : bad k = false := by simpa using hk
    have hall : ∀ (pol' : ResizePolicy) (h' : HashTab K V) r, Modest pol' n → h.putNode ops pol' k v = some (h', r) →
        ∀ e ∈ h'.all, bad e.1 = false := by
      intro pol' h' r hp e1 e he
      obtain ⟨h1, p1, -, p3⟩ := putNode_hash_spec hl pol' h hg k v (fun m len c h0 hm hlen hc => hp m len c h0 (by omega) hlen (.inl hc))
      rw [e1] at p1
      simp only [Option.some.injEq, Prod.mk.injEq] at p1
      obtain ⟨rfl, -⟩ := p1
      rcases p3 with ⟨-, p⟩ | ⟨old, R, -, q1, q2⟩
      · have := p.mem_iff.mp he
        simp only [List.mem_cons] at this
        rcases this with rfl | h
        · exact hk
        · exact hb e h
      · have := q2.mem_iff.mp he
        simp only [List.mem_cons] at this
        rcases this with rfl | h
        · exact hk
        · exact hb e (q1.mem_iff.mpr (by simp [h]))
    obtain ⟨g, -, r⟩ := putT_step hl t h hg k v hn hpol
    unfold HashTab.putT at g r ⊢
    rcases putNodeT_cases (t := t) (ops := ops) (pol := pol) h k v with e | ⟨h', e1, e2, c, m, e3, e4⟩ | ⟨h', r', e1, e2⟩
    · rw [e]; exact ⟨hb, .inl rfl⟩
    · exfalso
      rw [e2] at g
      have hb' := hall neverResize h' _ (neverResize_modest n) e1
      obtain ⟨h1, p1, p2, p3, -⟩ := put_hash_step hl neverResize h hg k v (by intro m len c _ _ _ h; simp [neverResize] at h)
      rw [e1] at p1
      simp only [Option.some.injEq, Prod.mk.injEq] at p1
      obtain ⟨rfl, -⟩ := p1
      obtain ⟨h2, q1, -⟩ := resizeIf_spec hl h' g c (fun x hx => by
        subst hx
        have := p2.mod
        have hs := p2.size
        exact hpol h'.size _ x (by omega) (by omega) this (.inl e4))
      rw [resizeIfT_clean h' c m (fun e he n => by rw [ht n]; exact hb' e he) q1] at e3
      simp at e3
    · rw [e2]
      refine ⟨hall pol h' r' hpol e1, ?_⟩
      rw [e2] at r
      rcases r with r | ⟨-, r | ⟨r, -⟩⟩
      · simp at r
      · exact .inr r
      · simp at r

theorem keys_remove (hl : LawfulHash ops) {t : Trap K} {bad : K → Bool} (ht : FixedHash bad t) (h : HashTab K V) (hg : GoodTab ops h)
    (hb : ∀ e ∈ h.all, bad e.1 = false) (k : K) {n : Nat} (hn : h.size + 1 ≤ n) (hpol : Modest pol n) :
    (∀ e ∈ (h.removeT t ops pol k).1.all, bad e.1 = false) ∧
      ((h.removeT t ops pol k = (h, none)) ∨ (h.removeT t ops pol k).2 = some (valE ops h.all k)) := by
  have hall : ∀ (pol' : ResizePolicy) (h' : HashTab K V) r, Modest pol' n → h.removeNode ops pol' k = some (h', r) →
      ∀ e ∈ h'.all, bad e.1 = false := by
    intro pol' h' r hp e1 e he
    obtain ⟨h1, p1, -, p3⟩ := removeNode_hash_spec hl pol' h hg k (fun m len c h0 hm hlen hc => hp m len c h0 (by omega) hlen (.inr hc))
    rw [e1] at p1
    simp only [Option.some.injEq, Prod.mk.injEq] at p1
    obtain ⟨rfl, -⟩ := p1
    rcases p3 with ⟨-, rfl⟩ | ⟨old, -, q1⟩
    · exact hb e he
    · exact hb e (q1.mem_iff.mpr (by simp [he]))
  obtain ⟨g, -, r⟩ := removeT_step hl t h hg k hn hpol
  unfold HashTab.removeT at g r ⊢
  rcases removeNodeT_cases (t := t) (ops := ops) (pol := pol) h k with e | ⟨h', old, e1, e2, c, m, e3, e4⟩ | ⟨h', r', e1, e2⟩
  · rw [e]; exact ⟨hb, .inl rfl⟩
  · exfalso
    rw [e2] at g
    have hb' := hall neverResize h' _ (neverResize_modest n) e1
    obtain ⟨h1, p1, p2, p3, -⟩ := remove_hash_step hl neverResize h hg k (by intro m len c _ _ _ h; simp [neverResize] at h)
    rw [e1] at p1
    simp only [Option.some.injEq, Prod.mk.injEq] at p1
    obtain ⟨rfl, -⟩ := p1
    obtain ⟨h2, q1, -⟩ := resizeIf_spec hl h' g c (fun x hx => by
      subst hx
      have := p2.mod
      have hs := p2.size
      exact hpol h'.size _ x (by omega) (by omega) this (.inr e4))
    rw [resizeIfT_clean h' c m (fun e he n => by rw [ht n]; exact hb' e he) q1] at e3
    simp at e3
  · rw [e2]
    refine ⟨hall pol h' r' hpol e1, ?_⟩
    rw [e2] at r
    rcases r with r | ⟨-, r | ⟨r, -⟩⟩
    · simp at r
    · exact .inr r
    · simp at r

/-- C131, what holds if the hash of a key panics always or never: a call that panics has no effect. -/
theorem C131_fixed_hash_partial (hl : LawfulHash ops) (cap : Int) (hc : cap < 2 ^ 32) (bad : K → Bool) (os : List (Trap K × MapOp K V))
    (hbad : ∀ o ∈ os, FixedHash bad o.1) (hpol : Modest pol os.length) :
    ∃ m, SafeRuns ops.equal (fun _ => none) (os.map Prod.snd) (runHashT ops pol (HashTab.new cap) os).2 m ∧
      ∀ k, (runHashT ops pol (HashTab.new cap) os).1.get ops k = some (m k) := by
  suffices H : ∀ (os : List (Trap K × MapOp K V)) (h : HashTab K V), GoodTab ops h → (∀ e ∈ h.all, bad e.1 = false) →
      (∀ o ∈ os, FixedHash bad o.1) → ∀ n : Nat, h.size + os.length ≤ n → Modest pol n →
      SafeRuns ops.equal (valE ops h.all) (os.map Prod.snd) (runHashT ops pol h os).2 (valE ops (runHashT ops pol h os).1.all) by
    have := H os (HashTab.new cap) (new_hash_good cap hc) (by rw [all_new]; simp) hbad os.length (by simp [HashTab.new]) hpol
    rw [all_new] at this
    refine ⟨_, this, fun k => ?_⟩
    obtain ⟨g, -⟩ := runHashT_spec hl os (HashTab.new cap) (new_hash_good cap hc) os.length (by simp [HashTab.new]) hpol
    rw [HashTab.get, getNode_spec hl _ g]; rfl
  clear hbad hpol
  intro os
  induction os with
  | nil => intro h _ _ _ n _ _; exact .nil _
  | cons o os ih =>
    intro h hg hb hbad n hn hpol
    rw [List.length_cons] at hn
    obtain ⟨t, o⟩ := o
    have ht := hbad (t, o) (by simp)
    have hbad' : ∀ o ∈ os, FixedHash bad o.1 := fun o ho => hbad o (by simp [ho])
    cases o with
    | put k v =>
      obtain ⟨g, s, r⟩ := putT_step hl t h hg k v (n := n) (by omega) hpol
      obtain ⟨b1, b2⟩ := keys_put hl ht h hg hb k v (n := n) (by omega) hpol
      simp only [runHashT, List.map_cons]
      rcases b2 with b2 | b2
      · rw [b2]
        exact .lost _ _ _ _ _ (ih h hg hb hbad' n (by omega) hpol)
      · have i2 := ih _ g b1 hbad' n (by omega) hpol
        rw [b2]
        rcases r with r | ⟨r1, -⟩
        · rw [r] at b2; simp at b2
        · rw [r1] at i2
          exact .ret _ (.put k v) _ _ _ i2
    | remove k =>
      obtain ⟨g, s, r⟩ := removeT_step hl t h hg k (n := n) (by omega) hpol
      obtain ⟨b1, b2⟩ := keys_remove hl ht h hg hb k (n := n) (by omega) hpol
      simp only [runHashT, List.map_cons]
      rcases b2 with b2 | b2
      · rw [b2]
        exact .lost _ _ _ _ _ (ih h hg hb hbad' n (by omega) hpol)
      · have i2 := ih _ g b1 hbad' n (by omega) hpol
        rw [b2]
        rcases r with r | ⟨r1, -⟩
        · rw [r] at b2; simp at b2
        · rw [r1] at i2
          exact .ret _ (.remove k) _ _ _ i2

/-- The hash of 5 panics, and so does every comparison with 6. -/
def badKeys : Trap Nat := fun _ c => match c with
  | .hash k => k == 5
  | .equal _ b => b == 6

example : FixedHash (· == 5) badKeys := fun _ _ => rfl

example : (runHashT natHash defaultPolicy (HashTab.new 10) [(badKeys, .put 3 30), (badKeys, .put 5 50), (badKeys, .put 6 60),
    (badKeys, .put 9 90), (badKeys, .remove 3)]).2 = [some none, none, none, some none, some (some 30)] := by decide +kernel

end Poodle.Props
