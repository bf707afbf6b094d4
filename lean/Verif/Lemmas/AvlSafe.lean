import Verif.Lemmas.AvlWorld
import Mathlib.Algebra.BigOperators.Group.List.Basic

/-
Iterators over nodes that are taken out of the tree: links lead to live nodes or to nodes that died later.
-/

namespace Poodle
open Poodle.Spec

set_option linter.unusedSimpArgs false

variable {K V : Type} {ops : KeyOps K} {cmp : K → K → Ordering}

open PTree

/-! ### Entries, whatever the comparisons answer -/

theorem putR_entries (key : K) (value : V) (t : Tree K V) (hb : Balanced t) :
    ∀ e ∈ entries (t.putR ops key value).1, e = (key, value) ∨ e ∈ entries t := by
  induction t with
  | nil => simp [Tree.putR, entries]
  | node k v b l r ihl ihr =>
    simp only [Tree.putR]
    by_cases he : ops.equal k key = true
    · simp only [he, if_true, entries, List.mem_append, List.mem_cons]
      tauto
    · simp only [he, Bool.false_eq_true, if_false]
      cases hc : ops.compare k key with
      | none => exact fun e he => .inr he
      | some c =>
        simp only
        by_cases hlt : c < 0
        · simp only [hlt, if_true]
          have hs := (putR_shape (ops := ops) key value r hb.2.2.2.2).2
          have ih := ihr hb.2.2.2.2
          rcases hr : r.putR ops key value with ⟨t, - | ⟨old, done⟩⟩
          · rw [hr] at ih
            simp only [entries, List.mem_append, List.mem_cons]
            intro e he
            rcases he with h | h | h
            · simp [h]
            · simp [h]
            · rcases ih e h with h | h <;> simp [h]
          · rw [hr] at ih
            obtain ⟨T, d', g1, g2, -⟩ := putFinish_true k v b l r t old done hb (hs _ _ _ hr).1 (hs _ _ _ hr).2
            simp only [g1, g2, entries, List.mem_append, List.mem_cons]
            intro e he
            rcases he with h | h | h
            · simp [h]
            · simp [h]
            · rcases ih e h with h | h <;> simp [h]
        · simp only [hlt, if_false]
          have hs := (putR_shape (ops := ops) key value l hb.2.2.2.1).2
          have ih := ihl hb.2.2.2.1
          rcases hr : l.putR ops key value with ⟨t, - | ⟨old, done⟩⟩
          · rw [hr] at ih
            simp only [entries, List.mem_append, List.mem_cons]
            intro e he
            rcases he with h | h | h
            · rcases ih e h with h | h <;> simp [h]
            · simp [h]
            · simp [h]
          · rw [hr] at ih
            obtain ⟨T, d', g1, g2, -⟩ := putFinish_false k v b l r t old done hb (hs _ _ _ hr).1 (hs _ _ _ hr).2
            simp only [g1, g2, entries, List.mem_append, List.mem_cons]
            intro e he
            rcases he with h | h | h
            · rcases ih e h with h | h <;> simp [h]
            · simp [h]
            · simp [h]

theorem removeR_entries (key : K) (t : Tree K V) (hb : Balanced t) : ∀ e ∈ entries (t.removeR ops key).1, e ∈ entries t := by
  induction t generalizing key with
  | nil => simp [Tree.removeR, entries]
  | node k v b l r ihl ihr =>
    have right : ∀ (k' key : K) (v' : V) (F : Option (K × V) → Option (K × V)), (k', v') ∈ entries (Tree.node k v b l r) →
        ∀ e ∈ entries (match r.removeR ops key with
          | (t, none) => (Tree.node k' v' b l t, none)
          | (t, some (n, done)) => Tree.removeFinish k' v' b l r true t (F n) done).1, e ∈ entries (Tree.node k v b l r) := by
      intro k' key v' F hk e he
      have ih := ihr key hb.2.2.2.2
      have hs := (removeR_shape (ops := ops) key r hb.2.2.2.2).2
      rcases hp : r.removeR ops key with ⟨t, - | ⟨n, done⟩⟩
      · simp only [hp] at ih he
        simp only [entries, List.mem_append, List.mem_cons] at he hk ⊢
        rcases he with h | rfl | h
        · exact .inl h
        · exact hk
        · exact .inr (.inr (ih e h))
      · simp only [hp] at ih he
        obtain ⟨T', d', f1, f2, -⟩ := removeFinish_true k v k' v' b l r t (F n) done hb (hs _ _ _ hp).1 (hs _ _ _ hp).2
        rw [f1] at he
        simp only [f2] at he
        simp only [entries, List.mem_append, List.mem_cons] at he hk ⊢
        rcases he with h | rfl | h
        · exact .inl h
        · exact hk
        · exact .inr (.inr (ih e h))
    have left : ∀ (k' key : K) (v' : V) (F : Option (K × V) → Option (K × V)), (k', v') ∈ entries (Tree.node k v b l r) →
        ∀ e ∈ entries (match l.removeR ops key with
          | (t, none) => (Tree.node k' v' b t r, none)
          | (t, some (n, done)) => Tree.removeFinish k' v' b l r false t (F n) done).1, e ∈ entries (Tree.node k v b l r) := by
      intro k' key v' F hk e he
      have ih := ihl key hb.2.2.2.1
      have hs := (removeR_shape (ops := ops) key l hb.2.2.2.1).2
      rcases hp : l.removeR ops key with ⟨t, - | ⟨n, done⟩⟩
      · simp only [hp] at ih he
        simp only [entries, List.mem_append, List.mem_cons] at he hk ⊢
        rcases he with h | rfl | h
        · exact .inl (ih e h)
        · exact hk
        · exact .inr (.inr h)
      · simp only [hp] at ih he
        obtain ⟨T', d', f1, f2, -⟩ := removeFinish_false k v k' v' b l r t (F n) done hb (hs _ _ _ hp).1 (hs _ _ _ hp).2
        rw [f1] at he
        simp only [f2] at he
        simp only [entries, List.mem_append, List.mem_cons] at he hk ⊢
        rcases he with h | rfl | h
        · exact .inl (ih e h)
        · exact hk
        · exact .inr (.inr h)
    rw [Tree.removeR.eq_def]
    simp only
    by_cases he : ops.equal k key = true
    · simp only [he, if_true]
      cases l with
      | nil => simp +contextual [entries]
      | node k2 v2 b2 l2 r2 =>
        cases r with
        | nil => intro e he; rw [entries]; exact List.mem_append_left _ he
        | node k3 v3 b3 l3 r3 =>
          obtain ⟨x, A, hx, hA⟩ := rightmost_spec (Tree.node k2 v2 b2 l2 r2) (by simp)
          have hxm : (x.1, x.2) ∈ entries (Tree.node k v b (.node k2 v2 b2 l2 r2) (.node k3 v3 b3 l3 r3)) := by
            rw [entries, hA]; simp
          simp only [hx]
          cases hc : ops.compare x.1 x.1 with
          | none =>
            intro e he
            rw [entries] at he hxm ⊢
            simp only [List.mem_append, List.mem_cons] at he hxm ⊢
            rcases he with h | rfl | h
            · exact .inl h
            · exact hxm
            · exact .inr (.inr h)
          | some c =>
            simp only
            by_cases hlt : c < 0
            · simp only [hlt, if_true]
              exact right x.1 x.1 x.2 (fun _ => some (k, v)) hxm
            · simp only [hlt, if_false]
              exact left x.1 x.1 x.2 (fun _ => some (k, v)) hxm
    · simp only [he, Bool.false_eq_true, if_false]
      cases hc : ops.compare k key with
      | none => simp
      | some c =>
        simp only
        by_cases hlt : c < 0
        · simp only [hlt, if_true]
          exact right k key v id (by simp [entries])
        · simp only [hlt, if_false]
          exact left k key v id (by simp [entries])

theorem put_entries (k : K) (v : V) (t : Tree K V) (n : Int) (hb : Balanced t) :
    ∀ e ∈ entries ((⟨t, n⟩ : SortedMap K V).put ops k v).1.root,
      ((∃ o, ((⟨t, n⟩ : SortedMap K V).put ops k v).2 = some o) ∧ e = (k, v)) ∨ e ∈ entries t := by
  cases t with
  | nil => simp [SortedMap.put, SortedMap.putNode, entries]
  | node k0 v0 b l r =>
    have h1 := putR_entries (ops := ops) k v _ hb
    have h2 := (putR_shape (ops := ops) k v _ hb).1
    rcases hr : (Tree.node k0 v0 b l r).putR ops k v with ⟨T, - | ⟨old, d⟩⟩
    · rw [hr] at h2
      simp only [Prod.mk.injEq, and_true, forall_const] at h2
      subst h2
      simp [SortedMap.put, SortedMap.putNode, hr]
    · rw [hr] at h1
      simpa [SortedMap.put, SortedMap.putNode, hr] using h1

theorem remove_entries (k : K) (t : Tree K V) (n : Int) (hb : Balanced t) :
    ∀ e ∈ entries ((⟨t, n⟩ : SortedMap K V).remove ops k).1.root, e ∈ entries t := by
  have h1 := removeR_entries (ops := ops) k t hb
  rcases hr : t.removeR ops k with ⟨T, - | ⟨old, d⟩⟩ <;> rw [hr] at h1 <;> simpa [SortedMap.remove, SortedMap.removeNode, hr] using h1

/-! ### Ranks -/

/-- A link of a node. -/
def LinkTo (n : HNode K V) (q : Nat) : Prop := n.l = some q ∨ n.r = some q

/-- The nodes with addresses in `Z` have links to nodes of `Z` with smaller ranks. -/
def Ranked (h : AHeap K V) (Z : List Nat) (ρ : Nat → Nat) : Prop :=
  ∀ a ∈ Z, ∃ n : HNode K V, h[a]? = some n ∧ ρ a < h.length ∧ ∀ q, LinkTo n q → q ∈ Z ∧ ρ q < ρ a

/-- Nodes that are dead, in the order of death: their links lead to live nodes (in `A`) or to nodes that died later. -/
def DeadOk (h : AHeap K V) (A : List Nat) : List Nat → Prop
  | [] => True
  | a :: D => (∃ n : HNode K V, h[a]? = some n ∧ ∀ q, LinkTo n q → q ∈ A ∨ q ∈ D) ∧ DeadOk h A D

theorem rank_tree (h : AHeap K V) (P : PTree K V) (hp : Owns h P) (hn : P.addrs.Nodup) :
    ∃ ρ : Nat → Nat, ∀ a ∈ P.addrs, ∃ n : HNode K V, h[a]? = some n ∧ ρ a < height P.erase ∧ ∀ q, LinkTo n q → q ∈ P.addrs ∧ ρ q < ρ a := by
  induction P with
  | nil => exact ⟨fun _ => 0, by simp [addrs]⟩
  | node a k v b l r ihl ihr =>
    obtain ⟨q1, q2, q3⟩ := hp
    simp only [addrs, List.nodup_append, List.nodup_cons, List.mem_cons] at hn
    obtain ⟨n1, ⟨n2, n3⟩, n4⟩ := hn
    obtain ⟨ρl, hl⟩ := ihl q2 n1
    obtain ⟨ρr, hr⟩ := ihr q3 n3
    have hal : a ∉ l.addrs := fun hx => n4 a hx a (.inl rfl) rfl
    have hlr : ∀ x ∈ r.addrs, x ∉ l.addrs := fun x hx hx' => n4 x hx' x (.inr hx) rfl
    refine ⟨fun x => if x = a then max (height l.erase) (height r.erase) else if x ∈ l.addrs then ρl x else ρr x, fun x hx => ?_⟩
    have L : ∀ x ∈ l.addrs, x ≠ a := fun x hx hxa => hal (hxa ▸ hx)
    have R : ∀ x ∈ r.addrs, x ≠ a := fun x hx hxa => n2 (hxa ▸ hx)
    simp only [addrs, List.mem_append, List.mem_cons] at hx ⊢
    simp only [erase, height]
    rcases hx with hx | rfl | hx
    · obtain ⟨n, m1, m2, m3⟩ := hl x hx
      refine ⟨n, m1, by simp [L x hx, hx]; omega, fun q hq => ?_⟩
      obtain ⟨m4, m5⟩ := m3 q hq
      exact ⟨.inl m4, by simp [L x hx, L q m4, hx, m4, m5]⟩
    · refine ⟨_, q1, by simp, fun q hq => ?_⟩
      rcases hq with hq | hq
      · have hm := ptr_mem hq
        obtain ⟨n, -, m2, -⟩ := hl q hm
        exact ⟨.inl hm, by simp [L q hm, hm]; omega⟩
      · have hm := ptr_mem hq
        obtain ⟨n, -, m2, -⟩ := hr q hm
        exact ⟨.inr (.inr hm), by simp [R q hm, hlr q hm]; omega⟩
    · obtain ⟨n, m1, m2, m3⟩ := hr x hx
      refine ⟨n, m1, by simp [R x hx, hlr x hx]; omega, fun q hq => ?_⟩
      obtain ⟨m4, m5⟩ := m3 q hq
      exact ⟨.inr (.inr m4), by simp [R x hx, R q m4, hlr x hx, hlr q m4, m5]⟩

theorem rank_dead (h : AHeap K V) (P : PTree K V) (hp : Owns h P) (D : List Nat) (hd : DeadOk h P.addrs D) (hn : (P.addrs ++ D).Nodup) :
    ∃ ρ : Nat → Nat, ∀ a ∈ P.addrs ++ D, ∃ n : HNode K V, h[a]? = some n ∧ ρ a < height P.erase + D.length ∧
      ∀ q, LinkTo n q → q ∈ P.addrs ++ D ∧ ρ q < ρ a := by
  induction D with
  | nil => simpa using rank_tree h P hp (by simpa using hn)
  | cons d D ih =>
    obtain ⟨⟨n, h1, h2⟩, h3⟩ := hd
    rw [List.nodup_middle, List.nodup_cons] at hn
    obtain ⟨hdn, hn⟩ := hn
    obtain ⟨ρ, hρ⟩ := ih h3 hn
    have N : ∀ x ∈ P.addrs ++ D, x ≠ d := fun x hx hxd => hdn (hxd ▸ hx)
    have M : ∀ x, x ∈ P.addrs ++ d :: D ↔ x = d ∨ x ∈ P.addrs ++ D := by
      intro x; simp only [List.mem_append, List.mem_cons]; tauto
    refine ⟨fun x => if x = d then height P.erase + D.length else ρ x, fun x hx => ?_⟩
    simp only [M] at hx ⊢
    rcases hx with rfl | hx
    · refine ⟨n, h1, by simp, fun q hq => ?_⟩
      have hm : q ∈ P.addrs ++ D := List.mem_append.mpr (h2 q hq)
      obtain ⟨-, -, m2, -⟩ := hρ q hm
      exact ⟨.inr hm, by simp [N q hm, m2]⟩
    · obtain ⟨m, m1, m2, m3⟩ := hρ x hx
      refine ⟨m, m1, by simp [N x hx]; omega, fun q hq => ?_⟩
      obtain ⟨m4, m5⟩ := m3 q hq
      exact ⟨.inr m4, by simp [N x hx, N q m4, m5]⟩

theorem ranked_dead (h : AHeap K V) (P : PTree K V) (hp : Owns h P) (D : List Nat) (hd : DeadOk h P.addrs D) (hn : (P.addrs ++ D).Nodup) :
    ∃ ρ, Ranked h (P.addrs ++ D) ρ := by
  obtain ⟨ρ, hρ⟩ := rank_dead h P hp D hd hn
  refine ⟨ρ, fun a ha => ?_⟩
  obtain ⟨n, m1, m2, m3⟩ := hρ a ha
  refine ⟨n, m1, ?_, m3⟩
  have h1 := nodup_lt_length hn (n := h.length) fun x hx => by
    obtain ⟨n, m1, -⟩ := hρ x hx
    exact (List.getElem?_eq_some_iff.mp m1).1
  have h2 := height_le_addrs P
  simp only [List.length_append] at h1
  omega

/-! ### Iterators on ranked nodes -/

/-- The iterator is at nodes of `Z`. -/
structure IterOk (Z : List Nat) (it : HIter K) : Prop where
  pos : it.pos ≤ 1
  curr : ∀ a, it.curr = some a → a ∈ Z
  paths : ∀ p ∈ it.paths, p ∈ Z

/-- A bound for what is to come. -/
def pot (ρ : Nat → Nat) (it : HIter K) : Nat :=
  (it.paths.map fun p => 2 ^ ρ p).sum + match it.curr with
    | none => 0
    | some a => 2 ^ ρ a - it.pos

/-- The iterator after a piece of code. -/
structure Goes (Z : List Nat) (ρ : Nat → Nat) (it it' : HIter K) : Prop where
  ok : IterOk Z it'
  le : pot ρ it' ≤ pot ρ it

/-- Ready to return an entry, or at the end. -/
def Ready (it : HIter K) : Prop := (it.curr = none ∧ it.paths = []) ∨ ∃ a, it.curr = some a ∧ it.pos = 0

theorem Goes.refl {Z : List Nat} {ρ : Nat → Nat} {it : HIter K} (h : IterOk Z it) : Goes Z ρ it it := ⟨h, Nat.le_refl _⟩

theorem Goes.trans {Z : List Nat} {ρ : Nat → Nat} {a b c : HIter K} (h1 : Goes Z ρ a b) (h2 : Goes Z ρ b c) : Goes Z ρ a c :=
  ⟨h2.ok, Nat.le_trans h2.le h1.le⟩

theorem two_pow_lt {a b : Nat} (h : a < b) : 2 * 2 ^ a ≤ 2 ^ b := by
  rw [← Nat.pow_succ']
  exact Nat.pow_le_pow_right (by omega) h

theorem pop_goes {Z : List Nat} {ρ : Nat → Nat} {it : HIter K} (h : IterOk Z it) {p : Nat} {ps : List Nat} (hp : it.paths = p :: ps) :
    Goes Z ρ it { it with curr := some p, pos := 0, paths := ps } := by
  refine ⟨⟨by simp, ?_, ?_⟩, ?_⟩
  · intro a ha
    simp only [Option.some.injEq] at ha
    exact h.paths a (by simp [hp, ha])
  · intro a ha
    exact h.paths a (by simp [hp, ha])
  · have := Nat.two_pow_pos (ρ p)
    simp only [pot, hp, List.map_cons, List.sum_cons]
    omega

/-- Going down to the left. -/
theorem descend_goes {h : AHeap K V} {Z : List Nat} {ρ : Nat → Nat} (hr : Ranked h Z ρ) (a : Nat) (it : HIter K) (hi : IterOk Z it)
    (hc : it.curr = some a) (hpos : it.pos = 0) (fuel : Nat) (hf : ρ a < fuel) :
    ∃ it' b, HIter.descend h fuel it = (it', some ()) ∧ IterOk Z it' ∧ it'.curr = some b ∧ it'.pos = 0 ∧ it'.start = it.start ∧ it'.stop = it.stop ∧
      pot ρ it' + 1 ≤ (it.paths.map fun p => 2 ^ ρ p).sum + 2 * 2 ^ ρ a := by
  induction fuel generalizing it a with
  | zero => omega
  | succ fuel ih =>
    obtain ⟨n, m1, m2, m3⟩ := hr a (hi.curr a hc)
    have h2 := Nat.two_pow_pos (ρ a)
    rcases hl : n.l with - | q
    · refine ⟨it, a, by simp [HIter.descend, bind_run, HIter.self, hc, HIter.node, m1, hl, pure_run], hi, hc, hpos, rfl, rfl, ?_⟩
      simp only [pot, hc]
      omega
    · obtain ⟨m4, m5⟩ := m3 q (.inl hl)
      obtain ⟨it', b, e1, e2, e3, e4, e5, e6, e7⟩ := ih q { it with paths := a :: it.paths, curr := some q, pos := 0 }
        ⟨by simp, by simpa using m4, by
          intro p hp
          simp only [List.mem_cons] at hp
          rcases hp with rfl | hp
          · exact hi.curr _ hc
          · exact hi.paths p hp⟩ rfl rfl (by omega)
      refine ⟨it', b, ?_, e2, e3, e4, e5, e6, ?_⟩
      · rw [← e1]
        simp [HIter.descend, bind_run, HIter.self, hc, HIter.node, m1, hl, pure_run, HIter.assign]
      · have := two_pow_lt m5
        simp only [List.map_cons, List.sum_cons] at e7
        omega

/-- The start loop. -/
theorem startLoop_goes {h : AHeap K V} {Z : List Nat} {ρ : Nat → Nat} (hr : Ranked h Z ρ) (s : K) (a : Nat) (it : HIter K) (hi : IterOk Z it)
    (hc : it.curr = some a) (hpos : it.pos = 0) (fuel : Nat) (hf : it.paths.length * (h.length + 1) + ρ a < fuel) :
    ∃ it' r, HIter.startLoop ops h s fuel it = (it', r) ∧ Goes Z ρ it it' ∧ (r = none → ∃ x y, ops.compare x y = none) ∧
      (r = some true → it'.curr = none ∧ it'.paths = []) ∧ (r = some false → (∃ b, it'.curr = some b) ∧ it'.pos = 0) := by
  induction fuel generalizing it a with
  | zero => omega
  | succ fuel ih =>
    obtain ⟨n, m1, m2, m3⟩ := hr a (hi.curr a hc)
    rcases hcmp : ops.compare s n.key with - | c
    · refine ⟨it, none, by simp [HIter.startLoop, bind_run, HIter.self, hc, HIter.node, m1, HIter.compare, hcmp], .refl hi, fun _ => ⟨_, _, hcmp⟩,
        by simp, by simp⟩
    · by_cases hlt : c < 0
      · rcases hR : n.r with - | q
        · rcases hp : it.paths with - | ⟨p, ps⟩
          · refine ⟨{ it with curr := none }, some true, ?_, ⟨⟨hi.pos, by simp, hi.paths⟩, ?_⟩, by simp, fun _ => ⟨rfl, hp⟩, by simp⟩
            · simp [HIter.startLoop, bind_run, HIter.self, hc, HIter.node, m1, HIter.compare, hcmp, hlt, hR, hp, HIter.assign, pure_run]
            · simp [pot, hp]
          · have hg := pop_goes (ρ := ρ) hi hp
            obtain ⟨m, -, m5, -⟩ := hr p (hi.paths p (by simp [hp]))
            simp only [hp, List.length_cons, Nat.add_mul] at hf
            obtain ⟨it', r, e1, e2, e3, e4, e5⟩ := ih p _ hg.ok rfl rfl (by simp only; omega)
            refine ⟨it', r, ?_, hg.trans e2, e3, e4, e5⟩
            rw [← e1]
            simp [HIter.startLoop, bind_run, HIter.self, hc, HIter.node, m1, HIter.compare, hcmp, hlt, hR, hp, HIter.assign, pure_run]
        · obtain ⟨m4, m5⟩ := m3 q (.inr hR)
          have hg : Goes Z ρ it { it with curr := some q } := by
            refine ⟨⟨hi.pos, by simpa using m4, hi.paths⟩, ?_⟩
            have := Nat.pow_le_pow_right (n := 2) (by omega) (Nat.le_of_lt m5)
            simp only [pot, hc, hpos]
            omega
          obtain ⟨it', r, e1, e2, e3, e4, e5⟩ := ih q _ hg.ok rfl hpos (by simp only; omega)
          refine ⟨it', r, ?_, hg.trans e2, e3, e4, e5⟩
          rw [← e1]
          simp [HIter.startLoop, bind_run, HIter.self, hc, HIter.node, m1, HIter.compare, hcmp, hlt, hR, HIter.assign, pure_run]
      · exact ⟨it, some false, by simp [HIter.startLoop, bind_run, HIter.self, hc, HIter.node, m1, HIter.compare, hcmp, hlt, pure_run], .refl hi,
          by simp, by simp, fun _ => ⟨⟨a, hc⟩, hpos⟩⟩

/-- The end loop. -/
theorem endLoop_goes {h : AHeap K V} {Z : List Nat} {ρ : Nat → Nat} (hr : Ranked h Z ρ) (e : K) (a : Nat) (it : HIter K) (hi : IterOk Z it)
    (hc : it.curr = some a) (hpos : it.pos = 0) (fuel : Nat) (hf : it.paths.length < fuel) :
    ∃ it' r, HIter.endLoop ops h e fuel it = (it', r) ∧ Goes Z ρ it it' ∧ (r = none → ∃ x y, ops.compare x y = none) ∧
      (r = some () → Ready it') := by
  induction fuel generalizing it a with
  | zero => omega
  | succ fuel ih =>
    obtain ⟨n, m1, m2, m3⟩ := hr a (hi.curr a hc)
    rcases hcmp : ops.compare n.key e with - | c
    · exact ⟨it, none, by simp [HIter.endLoop, bind_run, HIter.self, hc, HIter.node, m1, HIter.compare, hcmp], .refl hi, fun _ => ⟨_, _, hcmp⟩,
        by simp⟩
    · by_cases hge : c ≥ 0
      · rcases hp : it.paths with - | ⟨p, ps⟩
        · refine ⟨{ it with curr := none, stop := none }, some (), ?_, ⟨⟨hi.pos, by simp, hi.paths⟩, ?_⟩, by simp, fun _ => .inl ⟨rfl, hp⟩⟩
          · simp [HIter.endLoop, bind_run, HIter.self, hc, HIter.node, m1, HIter.compare, hcmp, hge, hp, HIter.assign, pure_run]
          · simp [pot, hp]
        · have hg := pop_goes (ρ := ρ) hi hp
          simp only [hp, List.length_cons] at hf
          obtain ⟨it', r, e1, e2, e3, e4⟩ := ih p _ hg.ok rfl rfl (by simp only; omega)
          refine ⟨it', r, ?_, hg.trans e2, e3, e4⟩
          rw [← e1]
          simp [HIter.endLoop, bind_run, HIter.self, hc, HIter.node, m1, HIter.compare, hcmp, hge, hp, HIter.assign, pure_run]
      · exact ⟨it, some (), by simp [HIter.endLoop, bind_run, HIter.self, hc, HIter.node, m1, HIter.compare, hcmp, hge, pure_run], .refl hi,
          by simp, fun _ => .inr ⟨a, hc, hpos⟩⟩

/-- What is known after a piece of `advance`. -/
def Works (ops : KeyOps K) (Z : List Nat) (ρ : Nat → Nat) (it : HIter K) (x : HIter K × Option Unit) : Prop :=
  Goes Z ρ it x.1 ∧ (x.2 = none → ∃ a b, ops.compare a b = none) ∧ (x.2 = some () → Ready x.1)

theorem Works.after {Z : List Nat} {ρ : Nat → Nat} {it it1 : HIter K} {x : HIter K × Option Unit} (h1 : Goes Z ρ it it1)
    (h2 : Works ops Z ρ it1 x) : Works ops Z ρ it x := ⟨h1.trans h2.1, h2.2⟩

theorem boundEnd_works {h : AHeap K V} {Z : List Nat} {ρ : Nat → Nat} (hr : Ranked h Z ρ) (a : Nat) (it : HIter K) (hi : IterOk Z it)
    (hc : it.curr = some a) (hpos : it.pos = 0) : Works ops Z ρ it (HIter.boundEnd ops h it) := by
  rcases hs : it.stop with - | e
  · have : HIter.boundEnd ops h it = (it, some ()) := by simp [HIter.boundEnd, bind_run, HIter.self, hs, pure_run]
    rw [this]
    exact ⟨.refl hi, by simp, fun _ => .inr ⟨a, hc, hpos⟩⟩
  · have : HIter.boundEnd ops h it = HIter.endLoop ops h e (it.paths.length + 1) it := by simp [HIter.boundEnd, bind_run, HIter.self, hs]
    rw [this]
    obtain ⟨it', r, e1, e2, e3, e4⟩ := endLoop_goes (ops := ops) hr e a it hi hc hpos (it.paths.length + 1) (by omega)
    rw [e1]
    exact ⟨e2, e3, e4⟩

theorem bounds_works {h : AHeap K V} {Z : List Nat} {ρ : Nat → Nat} (hr : Ranked h Z ρ) (a : Nat) (it : HIter K) (hi : IterOk Z it)
    (hc : it.curr = some a) (hpos : it.pos = 0) : Works ops Z ρ it (HIter.bounds ops h it) := by
  rcases hs : it.start with - | s
  · have : HIter.bounds ops h it = HIter.boundEnd ops h it := by simp [HIter.bounds, bind_run, HIter.self, hs]
    rw [this]
    exact boundEnd_works hr a it hi hc hpos
  · obtain ⟨n, -, m2, -⟩ := hr a (hi.curr a hc)
    obtain ⟨it', r, e1, e2, e3, e4, e5⟩ := startLoop_goes (ops := ops) hr s a it hi hc hpos ((it.paths.length + 1) * (h.length + 1)) (by
      rw [Nat.add_mul]; omega)
    rcases r with - | - | -
    · have : HIter.bounds ops h it = (it', none) := by simp [HIter.bounds, bind_run, HIter.self, hs, e1]
      rw [this]
      exact ⟨e2, fun _ => e3 rfl, by simp⟩
    · have : HIter.bounds ops h it = HIter.boundEnd ops h { it' with start := none } := by
        simp [HIter.bounds, bind_run, HIter.self, hs, e1, HIter.assign]
      rw [this]
      obtain ⟨⟨b, hb⟩, hp⟩ := e5 rfl
      have hg : Goes Z ρ it { it' with start := none } := ⟨⟨e2.ok.pos, e2.ok.curr, e2.ok.paths⟩, e2.le⟩
      exact .after hg (boundEnd_works hr b _ hg.ok hb hp)
    · have : HIter.bounds ops h it = (it', some ()) := by simp [HIter.bounds, bind_run, HIter.self, hs, e1, pure_run]
      rw [this]
      exact ⟨e2, by simp, fun _ => .inl (e4 rfl)⟩

theorem step_works {h : AHeap K V} {Z : List Nat} {ρ : Nat → Nat} (hr : Ranked h Z ρ) (a : Nat) (it : HIter K) (hi : IterOk Z it)
    (hc : it.curr = some a) : Works ops Z ρ it (HIter.step ops h it) := by
  obtain ⟨n, m1, m2, m3⟩ := hr a (hi.curr a hc)
  rcases hpos : it.pos with - | - | m
  · have : HIter.step ops h it = HIter.bounds ops h it := by simp [HIter.step, bind_run, HIter.self, hpos]
    rw [this]
    exact bounds_works hr a it hi hc hpos
  · rcases hR : n.r with - | q
    · rcases hp : it.paths with - | ⟨p, ps⟩
      · have : HIter.step ops h it = ({ it with curr := none, start := none, stop := none }, some ()) := by
          simp [HIter.step, bind_run, HIter.self, hpos, HIter.node, hc, m1, hR, hp, HIter.assign]
        rw [this]
        exact ⟨⟨⟨hi.pos, by simp, hi.paths⟩, by simp [pot, hp]⟩, by simp, fun _ => .inl ⟨rfl, hp⟩⟩
      · have : HIter.step ops h it = HIter.bounds ops h { it with curr := some p, pos := 0, paths := ps } := by
          simp [HIter.step, bind_run, HIter.self, hpos, HIter.node, hc, m1, hR, hp, HIter.assign]
        rw [this]
        have hg := pop_goes (ρ := ρ) hi hp
        exact .after hg (bounds_works hr p _ hg.ok rfl rfl)
    · obtain ⟨m4, m5⟩ := m3 q (.inr hR)
      obtain ⟨n', -, m6, -⟩ := hr q m4
      obtain ⟨it', b, e1, e2, e3, e4, e5, e6, e7⟩ := descend_goes hr q { it with curr := some q, pos := 0 } ⟨by simp, by simpa using m4, hi.paths⟩ rfl rfl
        (h.length + 1) (by omega)
      have : HIter.step ops h it = HIter.bounds ops h it' := by
        simp [HIter.step, bind_run, HIter.self, hpos, HIter.node, hc, m1, hR, HIter.assign, e1]
      rw [this]
      have hg : Goes Z ρ it it' := by
        refine ⟨e2, ?_⟩
        have := two_pow_lt m5
        simp only [pot, hc, hpos] at e7 ⊢
        omega
      exact .after hg (bounds_works hr b it' e2 e3 e4)
  · have := hi.pos
    omega

theorem advance_works {h : AHeap K V} {Z : List Nat} {ρ : Nat → Nat} (hr : Ranked h Z ρ) (it : HIter K) (hi : IterOk Z it) :
    Works ops Z ρ it (HIter.advance ops h it) := by
  rcases hc : it.curr with - | a
  · rcases hp : it.paths with - | ⟨p, ps⟩
    · have : HIter.advance ops h it = (it, some ()) := by simp [HIter.advance, bind_run, HIter.self, hc, hp, pure_run]
      rw [this]
      exact ⟨.refl hi, by simp, fun _ => .inl ⟨hc, hp⟩⟩
    · have : HIter.advance ops h it = HIter.step ops h { it with curr := some p, pos := 0, paths := ps } := by
        simp [HIter.advance, bind_run, HIter.self, hc, hp, HIter.assign]
      rw [this]
      have hg := pop_goes (ρ := ρ) hi hp
      exact .after hg (step_works hr p _ hg.ok rfl)
  · have : HIter.advance ops h it = HIter.step ops h it := by
      rcases hp : it.paths with - | ⟨p, ps⟩ <;> simp [HIter.advance, bind_run, HIter.self, hc, hp]
    rw [this]
    exact step_works hr a it hi hc

/-- One call on an iterator. -/
theorem sortedCall_works {h : AHeap K V} {Z : List Nat} {ρ : Nat → Nat} (hr : Ranked h Z ρ) (it : HIter K) (hi : IterOk Z it) (c : IterCall) :
    Goes Z ρ it (HIter.sortedCall ops h it c).1 ∧
    ((HIter.sortedCall ops h it c).2 = .crash → (∃ a b, ops.compare a b = none) ∨
      (c ≠ .hasNext ∧ (HIter.sortedCall ops h it .hasNext).2 = .bool false)) ∧
    (∀ e, (HIter.sortedCall ops h it c).2 = .yield e → (∃ a ∈ Z, ∃ n : HNode K V, h[a]? = some n ∧ e = (n.key, n.val)) ∧
      (c = .next → pot ρ (HIter.sortedCall ops h it c).1 < pot ρ it)) := by
  obtain ⟨a1, a2, a3⟩ := advance_works (ops := ops) hr it hi
  rcases hx : HIter.advance ops h it with ⟨it', _ | _⟩
  · rw [hx] at a1 a2
    simp only at a1
    have : HIter.sortedCall ops h it c = (it', .crash) := by
      cases c <;> simp [HIter.sortedCall, HIter.call, bind_run, hx]
    rw [this]
    exact ⟨a1, fun _ => .inl (a2 rfl), by simp⟩
  · rw [hx] at a1 a3
    replace a3 := a3 rfl
    simp only at a1 a3
    rcases a3 with ⟨r1, r2⟩ | ⟨a, r1, r2⟩
    · have hend : (HIter.sortedCall ops h it c).1 = it' ∧ (HIter.sortedCall ops h it c).2 = if c = .hasNext then .bool false else .crash := by
        cases c <;> simp [HIter.sortedCall, HIter.call, bind_run, hx, HIter.self, r1, r2, pure_run]
      have hH : (HIter.sortedCall ops h it .hasNext).2 = .bool false := by
        simp [HIter.sortedCall, HIter.call, bind_run, hx, HIter.self, r1, r2, pure_run]
      rw [hend.1, hend.2]
      refine ⟨a1, ?_, ?_⟩
      · by_cases h : c = .hasNext
        · simp [h]
        · simp [h, hH]
      · intro e he
        split at he <;> simp at he
    · obtain ⟨n, m1, -⟩ := hr a (a1.ok.curr a r1)
      cases c with
      | next =>
        have : HIter.sortedCall ops h it .next = ({ it' with pos := 1 }, .yield (n.key, n.val)) := by
          rcases hp : it'.paths with - | ⟨p, ps⟩ <;>
            simp [HIter.sortedCall, HIter.call, bind_run, hx, HIter.self, r1, HIter.node, m1, HIter.assign, pure_run, hp]
        rw [this]
        have hlt : pot ρ { it' with pos := 1 } < pot ρ it' := by
          have := Nat.two_pow_pos (ρ a)
          simp only [pot, r1, r2]
          omega
        refine ⟨⟨⟨by simp, a1.ok.curr, a1.ok.paths⟩, Nat.le_trans (Nat.le_of_lt hlt) a1.le⟩, by simp, fun e he => ?_⟩
        simp only [IterRes.yield.injEq] at he
        exact ⟨⟨a, a1.ok.curr a r1, n, m1, he.symm⟩, fun _ => Nat.lt_of_lt_of_le hlt a1.le⟩
      | hasNext =>
        have : HIter.sortedCall ops h it .hasNext = (it', .bool true) := by
          rcases hp : it'.paths with - | ⟨p, ps⟩ <;>
            simp [HIter.sortedCall, HIter.call, bind_run, hx, HIter.self, r1, pure_run, hp]
        rw [this]
        exact ⟨a1, by simp, by simp⟩
      | peek =>
        have : HIter.sortedCall ops h it .peek = (it', .yield (n.key, n.val)) := by
          simp [HIter.sortedCall, HIter.call, bind_run, hx, HIter.self, r1, HIter.node, m1, pure_run]
        rw [this]
        refine ⟨a1, by simp, fun e he => ?_⟩
        simp only [IterRes.yield.injEq] at he
        exact ⟨⟨a, a1.ok.curr a r1, n, m1, he.symm⟩, by simp⟩

/-- If no comparison panics, `Next` panics only at the end. -/
theorem next_end {h : AHeap K V} {Z : List Nat} {ρ : Nat → Nat} (hr : Ranked h Z ρ) (it : HIter K) (hi : IterOk Z it)
    (ht : ∀ a b, ops.compare a b ≠ none) :
    (∃ e, (HIter.sortedCall ops h it .next).2 = .yield e) ∨
      ((HIter.sortedCall ops h it .next).1.curr = none ∧ (HIter.sortedCall ops h it .next).1.paths = []) := by
  obtain ⟨a1, a2, a3⟩ := advance_works (ops := ops) hr it hi
  rcases hx : HIter.advance ops h it with ⟨it', _ | _⟩
  · obtain ⟨a, b, hab⟩ := a2 (by rw [hx])
    exact absurd hab (ht a b)
  · rw [hx] at a1 a3
    replace a3 := a3 rfl
    simp only at a1 a3
    rcases a3 with ⟨r1, r2⟩ | ⟨a, r1, r2⟩
    · right
      simp [HIter.sortedCall, HIter.call, bind_run, hx, HIter.self, r1, r2, pure_run]
    · left
      obtain ⟨n, m1, -⟩ := hr a (a1.ok.curr a r1)
      refine ⟨(n.key, n.val), ?_⟩
      rcases hp : it'.paths with - | ⟨p, ps⟩ <;>
        simp [HIter.sortedCall, HIter.call, bind_run, hx, HIter.self, r1, HIter.node, m1, HIter.assign, pure_run, hp]

theorem hasNext_end {h : AHeap K V} {it : HIter K} (h1 : it.curr = none) (h2 : it.paths = []) :
    (HIter.sortedCall ops h it .hasNext).2 = .bool false := by
  simp [HIter.sortedCall, HIter.call, HIter.advance, bind_run, HIter.self, h1, h2, pure_run]

/-- A new iterator. -/
theorem new_works {h : AHeap K V} {Z : List Nat} {ρ : Nat → Nat} (hr : Ranked h Z ρ) (root : Ptr) (hroot : ∀ a, root = some a → a ∈ Z)
    (start stop : Option K) (it : HIter K) (hi : HIter.new ops h root start stop = some it) : IterOk Z it := by
  obtain ⟨it', h1, h2⟩ : ∃ it', HIter.descend h (h.length + 1) ⟨[], root, 0, none, none⟩ = (it', some ()) ∧ IterOk Z it' := by
    rcases root with - | a
    · exact ⟨_, by simp [HIter.descend, bind_run, HIter.self, pure_run]; rfl, by simp, by simp, by simp⟩
    · obtain ⟨n, -, m2, -⟩ := hr a (hroot a rfl)
      obtain ⟨it', b, e1, e2, -⟩ := descend_goes hr a ⟨[], some a, 0, none, none⟩ ⟨by simp, by simpa using hroot a rfl, by simp⟩ rfl rfl
        (h.length + 1) (by omega)
      exact ⟨it', e1, e2⟩
  have : ∃ s e, it = { it' with start := s, stop := e } := by
    simp only [HIter.new, h1] at hi
    split at hi
    · split at hi
      · simp at hi
      · split at hi
        · simp at hi
        · simp only [Option.some.injEq] at hi
          exact ⟨_, _, hi.symm⟩
    · simp only [Option.some.injEq] at hi
      exact ⟨_, _, hi.symm⟩
  obtain ⟨s, e, rfl⟩ := this
  exact ⟨h2.pos, h2.curr, h2.paths⟩

theorem new_crash {h : AHeap K V} {Z : List Nat} {ρ : Nat → Nat} (hr : Ranked h Z ρ) (root : Ptr) (hroot : ∀ a, root = some a → a ∈ Z)
    (start stop : Option K) (hi : HIter.new ops h root start stop = none) :
    ∃ s e, start = some s ∧ stop = some e ∧ ∀ c, ops.compare s e = some c → c > 0 := by
  obtain ⟨it', h1⟩ : ∃ it', HIter.descend h (h.length + 1) ⟨[], root, 0, none, none⟩ = ((it' : HIter K), some ()) := by
    rcases root with - | a
    · exact ⟨_, by simp [HIter.descend, bind_run, HIter.self, pure_run]; rfl⟩
    · obtain ⟨n, -, m2, -⟩ := hr a (hroot a rfl)
      obtain ⟨it', b, e1, e2, -⟩ := descend_goes (K := K) hr a ⟨[], some a, 0, none, none⟩ ⟨by simp, by simpa using hroot a rfl, by simp⟩ rfl rfl
        (h.length + 1) (by omega)
      exact ⟨it', e1⟩
  simp only [HIter.new, h1] at hi
  split at hi
  · refine ⟨_, _, rfl, rfl, fun c hc => ?_⟩
    rw [hc] at hi
    simp only at hi
    split at hi
    · assumption
    · simp at hi
  · simp at hi

/-! ### Programs -/

/-- The state of a program: `D i` are the dead nodes of map `i`, `E i` holds of the entries that were put into it, `I` has the map of each
iterator. -/
structure Safe (w : World K V) (Ss : List (PTree K V × Int)) (D : Nat → List Nat) (E : Nat → K × V → Prop) (I : List Nat) : Prop where
  links : Links w.heap w.maps Ss
  dead : ∀ i P n, Ss[i]? = some (P, n) → DeadOk w.heap P.addrs (D i)
  nodup : ∀ i P n, Ss[i]? = some (P, n) → (P.addrs ++ D i).Nodup
  live : ∀ i P n, Ss[i]? = some (P, n) → ∀ e ∈ entries P.erase, E i e
  put : ∀ i, ∀ x ∈ D i, ∃ n : HNode K V, w.heap[x]? = some n ∧ E i (n.key, n.val)
  apart : ∀ i j P n, Ss[i]? = some (P, n) → i ≠ j → ∀ x ∈ D j, x ∉ P.addrs
  fresh : ∀ i, Ss.length ≤ i → D i = []
  iters : List.Forall₂ (fun it i => ∃ P n, Ss[i]? = some (P, n) ∧ IterOk (P.addrs ++ D i) it) w.iters I

theorem Safe.new (E : Nat → K × V → Prop) : Safe (World.new : World K V) [] (fun _ => []) E [] :=
  ⟨⟨rfl, by simp, by simp, by simp⟩, by simp, by simp, by simp, by simp, by simp, by simp, .nil⟩

theorem Safe.mono {w : World K V} {Ss : List (PTree K V × Int)} {D : Nat → List Nat} {E E' : Nat → K × V → Prop} {I : List Nat}
    (S : Safe w Ss D E I) (h : ∀ i e, E i e → E' i e) : Safe w Ss D E' I :=
  ⟨S.links, S.dead, S.nodup, fun i P n hi e he => h _ _ (S.live i P n hi e he), fun i x hx => by
    obtain ⟨n, h1, h2⟩ := S.put i x hx
    exact ⟨n, h1, h _ _ h2⟩, S.apart, S.fresh, S.iters⟩

/-- Entries of live and dead nodes. -/
theorem Owns.entry {h : AHeap K V} {P : PTree K V} (hp : Owns h P) {x : Nat} (hx : x ∈ P.addrs) :
    ∃ n : HNode K V, h[x]? = some n ∧ (n.key, n.val) ∈ entries P.erase := by
  induction P with
  | nil => simp [addrs] at hx
  | node a k v b l r ihl ihr =>
    obtain ⟨q1, q2, q3⟩ := hp
    simp only [addrs, List.mem_append, List.mem_cons] at hx
    simp only [PTree.erase, entries, List.mem_append, List.mem_cons]
    rcases hx with hx | rfl | hx
    · obtain ⟨n, h1, h2⟩ := ihl q2 hx
      exact ⟨n, h1, .inl h2⟩
    · exact ⟨_, q1, .inr (.inl rfl)⟩
    · obtain ⟨n, h1, h2⟩ := ihr q3 hx
      exact ⟨n, h1, .inr (.inr h2)⟩

theorem Safe.entry {w : World K V} {Ss : List (PTree K V × Int)} {D : Nat → List Nat} {E : Nat → K × V → Prop} {I : List Nat}
    (S : Safe w Ss D E I) {i : Nat} {P : PTree K V} {n : Int} (hi : Ss[i]? = some (P, n)) {x : Nat} (hx : x ∈ P.addrs ++ D i) {m : HNode K V}
    (hm : w.heap[x]? = some m) : E i (m.key, m.val) := by
  rcases List.mem_append.mp hx with hx | hx
  · obtain ⟨m', h1, h2⟩ := Owns.entry (S.links.owns _ (List.mem_of_getElem? hi)) hx
    rw [hm] at h1
    simp only [Option.some.injEq] at h1
    subst h1
    exact S.live i P n hi _ h2
  · obtain ⟨m', h1, h2⟩ := S.put i x hx
    rw [hm] at h1
    simp only [Option.some.injEq] at h1
    subst h1
    exact h2

theorem Safe.ranked {w : World K V} {Ss : List (PTree K V × Int)} {D : Nat → List Nat} {E : Nat → K × V → Prop} {I : List Nat}
    (S : Safe w Ss D E I) {i : Nat} {P : PTree K V} {n : Int} (hi : Ss[i]? = some (P, n)) : ∃ ρ, Ranked w.heap (P.addrs ++ D i) ρ :=
  ranked_dead _ P (S.links.owns _ (List.mem_of_getElem? hi)) _ (S.dead i P n hi) (S.nodup i P n hi)

theorem DeadOk.grow {h h' : AHeap K V} {A A' N : List Nat} (D : List Nat) (hd : DeadOk h A D) (hh : ∀ x ∈ D, h'[x]? = h[x]?)
    (hA : ∀ x ∈ A, x ∈ A' ∨ x ∈ N) (hN : DeadOk h' A' N) : DeadOk h' A' (D ++ N) := by
  induction D with
  | nil => exact hN
  | cons d D ih =>
    obtain ⟨⟨n, h1, h2⟩, h3⟩ := hd
    refine ⟨⟨n, by rw [hh d (by simp)]; exact h1, fun q hq => ?_⟩, ih h3 fun x hx => hh x (by simp [hx])⟩
    change q ∈ A' ∨ q ∈ D ++ N
    simp only [List.mem_append]
    rcases h2 q hq with h | h
    · rcases hA q h with h | h <;> simp [h]
    · simp [h]

theorem DeadOk.of_links {h : AHeap K V} {A : List Nat} (N : List Nat)
    (hN : ∀ x ∈ N, ∃ n : HNode K V, h[x]? = some n ∧ ∀ q, LinkTo n q → q ∈ A) : DeadOk h A N := by
  induction N with
  | nil => trivial
  | cons d N ih =>
    obtain ⟨n, h1, h2⟩ := hN d (by simp)
    exact ⟨⟨n, h1, fun q hq => .inl (h2 q hq)⟩, ih fun x hx => hN x (by simp [hx])⟩

/-- What is kept of the maps that a call does not touch. -/
def Untouched (c : Cmd K V) (h h' : AHeap K V) (Ss Ss' : List (PTree K V × Int)) (D D' : Nat → List Nat) : Prop :=
  h.length ≤ h'.length ∧ ∀ i P n, Ss[i]? = some (P, n) → ¬ Touches c i →
    Ss'[i]? = some (P, n) ∧ D' i = D i ∧ ∀ x ∈ P.addrs ++ D i, h'[x]? = h[x]?

theorem untouched_refl (c : Cmd K V) (h : AHeap K V) (Ss : List (PTree K V × Int)) (D : Nat → List Nat) : Untouched c h h Ss Ss D D :=
  ⟨Nat.le_refl _, fun _ _ _ hi _ => ⟨hi, rfl, fun _ _ => rfl⟩⟩

/-- One map is changed. -/
theorem Safe.update {w : World K V} {Ss : List (PTree K V × Int)} {D : Nat → List Nat} {E : Nat → K × V → Prop} {I : List Nat}
    (S : Safe w Ss D E I) {i : Nat} {P R : PTree K V} {n n' : Int} {h' : AHeap K V} (hi : Ss[i]? = some (P, n)) (hR : Owns h' R)
    (hb : Balanced R.erase) (hg : GrownBy w.heap.length P.addrs R.addrs ∨ R.addrs.Sublist P.addrs) (hf : Frame w.heap h' P.addrs)
    (hdied : ∀ x ∈ P.addrs, x ∉ R.addrs → ∃ n : HNode K V, h'[x]? = some n ∧ (∀ q, LinkTo n q → q ∈ R.addrs) ∧
      (n.key, n.val) ∈ entries P.erase) (he : ∀ e ∈ entries R.erase, E i e) (c : Cmd K V) (hc : Touches c i) :
    ∃ D', Safe ⟨h', w.maps.set i (hmap R n'), w.iters⟩ (Ss.set i (R, n')) D' E I ∧ Untouched c w.heap h' Ss (Ss.set i (R, n')) D D' := by
  classical
  have hL := S.links.update (n' := n') hi hR hb hg hf
  have hlen := (List.getElem?_eq_some_iff.mp hi).1
  have hPR : ∀ x ∈ R.addrs, x ∈ P.addrs ∨ x = w.heap.length := by
    intro x hx
    rcases hg with hg | hg
    · exact hg.mem hx
    · exact .inl (hg.subset hx)
  have hDlt : ∀ j, ∀ x ∈ D j, x < w.heap.length := by
    intro j x hx
    obtain ⟨m, h1, -⟩ := S.put j x hx
    exact (List.getElem?_eq_some_iff.mp h1).1
  have hDP : ∀ j, ∀ x ∈ D j, x ∉ P.addrs := by
    intro j x hx hxP
    by_cases hj : i = j
    · subst hj
      have := S.nodup i P n hi
      rw [List.nodup_append] at this
      exact this.2.2 x hxP x hx rfl
    · exact S.apart i j P n hi hj x hx hxP
  have hDR : ∀ j, ∀ x ∈ D j, x ∉ R.addrs := by
    intro j x hx hxR
    rcases hPR x hxR with h | h
    · exact hDP j x hx h
    · have := hDlt j x hx
      omega
  have hDh : ∀ j, ∀ x ∈ D j, h'[x]? = w.heap[x]? := fun j x hx => hf.2 x (hDlt j x hx) (hDP j x hx)
  have hPlt := Owns.lt P (S.links.owns _ (List.mem_of_getElem? hi))
  set N : List Nat := P.addrs.filter fun x => x ∉ R.addrs with hN
  have hNm : ∀ x, x ∈ N ↔ x ∈ P.addrs ∧ x ∉ R.addrs := by intro x; simp [hN]
  have hset : ∀ j Q m, (Ss.set i (R, n'))[j]? = some (Q, m) → (j = i ∧ Q = R ∧ m = n') ∨ (i ≠ j ∧ Ss[j]? = some (Q, m)) := by
    intro j Q m hj
    by_cases hij : i = j
    · subst hij
      rw [List.getElem?_set_self hlen] at hj
      simp only [Option.some.injEq, Prod.mk.injEq] at hj
      exact .inl ⟨rfl, hj.1.symm, hj.2.symm⟩
    · rw [List.getElem?_set_ne hij] at hj
      exact .inr ⟨hij, hj⟩
  have hQh : ∀ j Q m, i ≠ j → Ss[j]? = some (Q, m) → ∀ x ∈ Q.addrs, h'[x]? = w.heap[x]? := fun j Q m hij hj x hx =>
    hf.2 x (Owns.lt Q (S.links.owns _ (List.mem_of_getElem? hj)) x hx) (S.links.apart hi hj hij x hx)
  have hD' : ∀ j, i ≠ j → (if j = i then D i ++ N else D j) = D j := fun j hj => if_neg (Ne.symm hj)
  refine ⟨fun j => if j = i then D i ++ N else D j, ⟨hL, ?_, ?_, ?_, ?_, ?_, ?_, ?_⟩, hf.1, ?_⟩
  · intro j Q m hj
    rcases hset j Q m hj with ⟨rfl, rfl, rfl⟩ | ⟨hij, hj⟩
    · simp only [if_true]
      refine (S.dead j P n hi).grow _ (hDh j) (fun x hx => ?_) (.of_links _ fun x hx => ?_)
      · rw [hNm]
        by_cases h : x ∈ Q.addrs
        · exact .inl h
        · exact .inr ⟨hx, h⟩
      · obtain ⟨h1, h2⟩ := (hNm x).mp hx
        obtain ⟨m, m1, m2, -⟩ := hdied x h1 h2
        exact ⟨m, m1, m2⟩
    · rw [hD' j hij]
      have := (S.dead j Q m hj).grow (N := []) (A' := Q.addrs) _ (hDh j) (fun x hx => .inl hx) trivial
      simpa using this
  · intro j Q m hj
    rcases hset j Q m hj with ⟨rfl, rfl, rfl⟩ | ⟨hij, hj⟩
    · simp only [if_true]
      have h1 := (hL.one (List.mem_of_getElem? hj)).2.1
      have h2 := S.nodup j P n hi
      rw [List.nodup_append] at h2
      rw [List.nodup_append, List.nodup_append]
      refine ⟨h1, ⟨h2.2.1, h2.1.filter _, ?_⟩, ?_⟩
      · rintro x hx y hy rfl
        exact hDP j x hx ((hNm x).mp hy).1
      · rintro x hx y hy rfl
        rcases List.mem_append.mp hy with h | h
        · exact hDR j x h hx
        · exact ((hNm x).mp h).2 hx
    · rw [hD' j hij]
      exact S.nodup j Q m hj
  · intro j Q m hj
    rcases hset j Q m hj with ⟨rfl, rfl, rfl⟩ | ⟨hij, hj⟩
    · exact he
    · exact S.live j Q m hj
  · intro j x hx
    by_cases hj : i = j
    · subst hj
      simp only [if_true, List.mem_append] at hx
      rcases hx with hx | hx
      · obtain ⟨m, h1, h2⟩ := S.put i x hx
        exact ⟨m, by simp only [hDh i x hx]; exact h1, h2⟩
      · obtain ⟨h1, h2⟩ := (hNm x).mp hx
        obtain ⟨m, m1, -, m3⟩ := hdied x h1 h2
        exact ⟨m, m1, S.live i P n hi _ m3⟩
    · rw [hD' j hj] at hx
      obtain ⟨m, h1, h2⟩ := S.put j x hx
      exact ⟨m, by simp only [hDh j x hx]; exact h1, h2⟩
  · intro a j Q m ha haj x hx
    rcases hset a Q m ha with ⟨rfl, rfl, rfl⟩ | ⟨hia, ha⟩
    · rw [hD' j haj] at hx
      exact hDR j x hx
    · by_cases hj : i = j
      · subst hj
        simp only [if_true, List.mem_append] at hx
        rcases hx with hx | hx
        · exact S.apart a i Q m ha haj x hx
        · intro hxQ
          exact S.links.apart hi ha hia x hxQ ((hNm x).mp hx).1
      · rw [hD' j hj] at hx
        exact S.apart a j Q m ha haj x hx
  · intro j hj
    rw [List.length_set] at hj
    rw [hD' j (by omega)]
    exact S.fresh j hj
  · refine S.iters.imp ?_
    rintro it j ⟨Q, m, hj, hit⟩
    by_cases hij : i = j
    · subst hij
      rw [hi] at hj
      simp only [Option.some.injEq, Prod.mk.injEq] at hj
      obtain ⟨rfl, rfl⟩ := hj
      have hz : ∀ x ∈ P.addrs ++ D i, x ∈ R.addrs ++ (D i ++ N) := by
        intro x hx
        simp only [List.mem_append, hNm] at hx ⊢
        rcases hx with h | h
        · by_cases hxR : x ∈ R.addrs
          · exact .inl hxR
          · exact .inr (.inr ⟨h, hxR⟩)
        · exact .inr (.inl h)
      refine ⟨R, n', List.getElem?_set_self hlen, ?_⟩
      simp only [if_true]
      exact ⟨hit.pos, fun a ha => hz a (hit.curr a ha), fun p hp => hz p (hit.paths p hp)⟩
    · refine ⟨Q, m, by rw [List.getElem?_set_ne hij]; exact hj, ?_⟩
      rw [hD' j hij]
      exact hit
  · intro j Q m hj hnt
    have hij : i ≠ j := by
      rintro rfl
      exact hnt hc
    refine ⟨by rw [List.getElem?_set_ne hij]; exact hj, hD' j hij, fun x hx => ?_⟩
    rcases List.mem_append.mp hx with hx | hx
    · exact hQh j Q m hij hj x hx
    · exact hDh j x hx

theorem forall₂_set {α β : Type} {r : α → β → Prop} {l : List α} {m : List β} (h : List.Forall₂ r l m) {j : Nat} {x x' : α}
    (hj : l[j]? = some x) (hx : ∀ y, m[j]? = some y → r x y → r x' y) : List.Forall₂ r (l.set j x') m := by
  induction h generalizing j with
  | nil => simp at hj
  | @cons a b l m hab h ih =>
    cases j with
    | zero =>
      simp only [List.getElem?_cons_zero, Option.some.injEq] at hj
      subst hj
      exact .cons (hx b rfl hab) h
    | succ j => exact .cons hab (ih hj hx)

theorem forall₂_get {α β : Type} {r : α → β → Prop} {l : List α} {m : List β} (h : List.Forall₂ r l m) {j : Nat} {x : α}
    (hj : l[j]? = some x) : ∃ y, m[j]? = some y ∧ r x y := by
  induction h generalizing j with
  | nil => simp at hj
  | @cons a b l m hab h ih =>
    cases j with
    | zero =>
      simp only [List.getElem?_cons_zero, Option.some.injEq] at hj
      subst hj
      exact ⟨b, rfl, hab⟩
    | succ j => exact ih hj

/-- The maps of the iterators after a call. -/
def itersAfter (I : List Nat) : Cmd K V → Out K V → List Nat
  | .iter i _ _, .done => I ++ [i]
  | _, _ => I

/-- One call, whatever the key operations do. -/
theorem Safe.exec {w : World K V} {Ss : List (PTree K V × Int)} {D : Nat → List Nat} {E : Nat → K × V → Prop} {I : List Nat}
    (S : Safe w Ss D E I) (c : Cmd K V) (hE : ∀ i k v o, c = .put i k v → (w.exec ops c).2 = .val o → E i (k, v)) :
    ∃ Ss' D', Safe (w.exec ops c).1 Ss' D' E (itersAfter I c (w.exec ops c).2) ∧ Untouched c w.heap (w.exec ops c).1.heap Ss Ss' D D' := by
  cases c with
  | newMap =>
    have hL := S.links.new
    have hset : ∀ i P n, (Ss ++ [(PTree.nil, (0 : Int))])[i]? = some (P, n) → Ss[i]? = some (P, n) ∨ (i = Ss.length ∧ P = .nil) := by
      intro i P n hi
      by_cases h : i < Ss.length
      · rw [List.getElem?_append_left h] at hi
        exact .inl hi
      · rw [List.getElem?_append_right (by omega)] at hi
        rcases hk : i - Ss.length with - | k
        · simp only [hk, List.getElem?_cons_zero, Option.some.injEq, Prod.mk.injEq] at hi
          exact .inr ⟨by omega, hi.1.symm⟩
        · simp [hk] at hi
    refine ⟨_, D, ⟨hL, ?_, ?_, ?_, S.put, ?_, ?_, ?_⟩, Nat.le_refl _, ?_⟩
    · intro i P n hi
      rcases hset i P n hi with h | ⟨rfl, rfl⟩
      · exact S.dead i P n h
      · rw [S.fresh _ (Nat.le_refl _)]; trivial
    · intro i P n hi
      rcases hset i P n hi with h | ⟨rfl, rfl⟩
      · exact S.nodup i P n h
      · rw [S.fresh _ (Nat.le_refl _)]; simp [addrs]
    · intro i P n hi
      rcases hset i P n hi with h | ⟨rfl, rfl⟩
      · exact S.live i P n h
      · simp [PTree.erase, entries]
    · intro i j P n hi hij
      rcases hset i P n hi with h | ⟨rfl, rfl⟩
      · exact S.apart i j P n h hij
      · simp [addrs]
    · intro i hi
      simp only [List.length_append, List.length_singleton] at hi
      exact S.fresh i (by omega)
    · refine S.iters.imp ?_
      rintro it i ⟨P, n, hi, hit⟩
      exact ⟨P, n, by rw [List.getElem?_append_left (List.getElem?_eq_some_iff.mp hi).1]; exact hi, hit⟩
    · intro i P n hi _
      exact ⟨by rw [List.getElem?_append_left (List.getElem?_eq_some_iff.mp hi).1]; exact hi, rfl, fun _ _ => rfl⟩
  | get i k =>
    refine ⟨Ss, D, ?_⟩
    have : (w.exec ops (.get i k)).1 = w := by
      rcases S.links.look i with ⟨e1, e2, e3⟩ | ⟨P, n, e1, e2, e3⟩
      · simp only [World.exec, e2]
      · obtain ⟨o1, o2, o3⟩ := S.links.one (List.mem_of_getElem? e1)
        have hg := get_heap (ops := ops) k P n w.heap o1 o2
        simp only [World.exec, e2, hg]
        rcases (⟨P.erase, n⟩ : SortedMap K V).get ops k with - | r <;> rfl
    rw [this]
    exact ⟨S, untouched_refl _ _ _ _⟩
  | put i k v =>
    rcases S.links.look i with ⟨e1, e2, e3⟩ | ⟨P, n, e1, e2, e3⟩
    · have : (w.exec ops (.put i k v)).1 = w := by simp only [World.exec, e2]
      rw [this]
      exact ⟨Ss, D, S, untouched_refl _ _ _ _⟩
    · obtain ⟨o1, o2, o3⟩ := S.links.one (List.mem_of_getElem? e1)
      obtain ⟨h', R, r1, r2, r3, r4, r5, r6⟩ := put_heap (ops := ops) k v P n w.heap o1 o2 o3
      have hent := put_entries (ops := ops) k v P.erase n o3
      have hex : (w.exec ops (.put i k v)).1 =
          ⟨h', w.maps.set i (hmap R ((⟨P.erase, n⟩ : SortedMap K V).put ops k v).1.size), w.iters⟩ := by
        rcases hr : ((⟨P.erase, n⟩ : SortedMap K V).put ops k v).2 with - | r <;> rw [hr] at r1 <;> simp only [World.exec, e2, r1]
      have hout : ∀ o, ((⟨P.erase, n⟩ : SortedMap K V).put ops k v).2 = some o → (w.exec ops (.put i k v)).2 = .val o := by
        intro o ho
        rw [ho] at r1
        simp only [World.exec, e2, r1]
      obtain ⟨D', s1, s2⟩ := S.update (n' := ((⟨P.erase, n⟩ : SortedMap K V).put ops k v).1.size) e1 r2 r4 (.inl r5) r6 (by
          intro x hx hxR
          refine absurd ?_ hxR
          rcases r5 with h | ⟨X, Y, hX, hY⟩
          · rw [← h]; exact hx
          · rw [hX] at hx
            rw [hY]
            simp only [List.mem_append, List.mem_cons] at hx ⊢
            tauto) (by
          intro e he
          rw [r3] at he
          rcases hent e he with ⟨⟨o, ho⟩, rfl⟩ | h
          · exact hE i k v o rfl (hout o ho)
          · exact S.live i P n e1 e h) (.put i k v) (.inl ⟨k, v, rfl⟩)
      rw [hex]
      exact ⟨_, D', s1, s2⟩
  | remove i k =>
    rcases S.links.look i with ⟨e1, e2, e3⟩ | ⟨P, n, e1, e2, e3⟩
    · have : (w.exec ops (.remove i k)).1 = w := by simp only [World.exec, e2]
      rw [this]
      exact ⟨Ss, D, S, untouched_refl _ _ _ _⟩
    · obtain ⟨o1, o2, o3⟩ := S.links.one (List.mem_of_getElem? e1)
      obtain ⟨h', R, r1, r2, r3, r4, r5, r6, r7⟩ := remove_heap (ops := ops) k P n w.heap o1 o2 o3
      have hent := remove_entries (ops := ops) k P.erase n o3
      have hex : (w.exec ops (.remove i k)).1 =
          ⟨h', w.maps.set i (hmap R ((⟨P.erase, n⟩ : SortedMap K V).remove ops k).1.size), w.iters⟩ := by
        rcases hr : ((⟨P.erase, n⟩ : SortedMap K V).remove ops k).2 with - | r <;> rw [hr] at r1 <;> simp only [World.exec, e2, r1]
      obtain ⟨D', s1, s2⟩ := S.update (n' := ((⟨P.erase, n⟩ : SortedMap K V).remove ops k).1.size) e1 r2 r4 (.inr r5) r6 r7 (by
          intro e he
          rw [r3] at he
          exact S.live i P n e1 e (hent e he)) (.remove i k) (.inr ⟨k, rfl⟩)
      rw [hex]
      exact ⟨_, D', s1, s2⟩
  | size i =>
    refine ⟨Ss, D, ?_⟩
    have : (w.exec ops (.size i)).1 = w := by
      simp only [World.exec]
      rcases w.maps[i]? with - | m <;> rfl
    rw [this]
    exact ⟨S, untouched_refl _ _ _ _⟩
  | iter i s e =>
    rcases S.links.look i with ⟨e1, e2, e3⟩ | ⟨P, n, e1, e2, e3⟩
    · simp only [World.exec, e2]
      exact ⟨Ss, D, S, untouched_refl _ _ _ _⟩
    · simp only [World.exec, e2]
      obtain ⟨ρ, hρ⟩ := S.ranked e1
      rcases hnew : HIter.new ops w.heap (hmap P n).root s e with - | it
      · exact ⟨Ss, D, S, untouched_refl _ _ _ _⟩
      · have hit := new_works hρ (hmap P n).root (fun a ha => List.mem_append_left _ (ptr_mem ha)) s e it hnew
        exact ⟨Ss, D, ⟨S.links, S.dead, S.nodup, S.live, S.put, S.apart, S.fresh,
          List.rel_append S.iters (.cons ⟨P, n, e1, hit⟩ .nil)⟩, untouched_refl _ _ _ _⟩
  | call j c =>
    rcases e2 : w.iters[j]? with - | it
    · simp only [World.exec, e2]
      exact ⟨Ss, D, S, untouched_refl _ _ _ _⟩
    · obtain ⟨i, -, P, n, hi, hit⟩ := forall₂_get S.iters e2
      obtain ⟨ρ, hρ⟩ := S.ranked hi
      have hw := (sortedCall_works (ops := ops) hρ it hit c).1
      have hex : (w.exec ops (.call j c)).1 = { w with iters := w.iters.set j (it.sortedCall ops w.heap c).1 } := by
        simp only [World.exec, e2]
        rcases it.sortedCall ops w.heap c with ⟨it', r⟩
        cases r <;> rfl
      rw [hex]
      refine ⟨Ss, D, ⟨S.links, S.dead, S.nodup, S.live, S.put, S.apart, S.fresh, ?_⟩, untouched_refl _ _ _ _⟩
      refine forall₂_set S.iters e2 ?_
      rintro i' - ⟨P', n', hi', hit'⟩
      obtain ⟨ρ', hρ'⟩ := S.ranked hi'
      exact ⟨P', n', hi', (sortedCall_works (ops := ops) hρ' it hit' c).1.ok⟩

end Poodle
