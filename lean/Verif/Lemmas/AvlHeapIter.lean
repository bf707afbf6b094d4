import Verif.Lemmas.AvlHeapOps

namespace Poodle
open Poodle.Spec

set_option linter.unusedSimpArgs false

variable {K V : Type} {ops : KeyOps K} {cmp : K → K → Ordering}

open PTree

/-- The addresses of a node and its right sub tree. -/
def remA : PTree K V → List Nat
  | .nil => []
  | .node a _ _ _ _ r => a :: r.addrs

/-- The iterator in the heap `h` has the trees `C`, `Qs`, parts of the tree with the addresses `A`. -/
structure IterRep (h : AHeap K V) (A : List Nat) (it : HIter K) (C : PTree K V) (Qs : List (PTree K V)) : Prop where
  curr : it.curr = C.ptr
  paths : it.paths.map some = Qs.map ptr
  oc : Owns h C
  oq : ∀ Q ∈ Qs, Owns h Q
  sub : (remA C ++ Qs.flatMap remA).Sublist A
  subC : ∀ x ∈ C.addrs, x ∈ A
  subQ : ∀ Q ∈ Qs, ∀ x ∈ Q.addrs, x ∈ A

/-- The iterator without addresses. -/
def plainIter (it : HIter K) (C : PTree K V) (Qs : List (PTree K V)) : AvlIter K V :=
  ⟨Qs.map erase, C.erase, it.pos, it.start, it.stop⟩

theorem paths_cons {ps : List Nat} {Q : PTree K V} {Qs : List (PTree K V)} (h : ps.map some = (Q :: Qs).map ptr) :
    ∃ a k v b l r qs, Q = .node a k v b l r ∧ ps = a :: qs ∧ qs.map some = Qs.map ptr := by
  cases ps with
  | nil => simp at h
  | cons a qs =>
    simp only [List.map_cons, List.cons.injEq] at h
    cases Q with
    | nil => simp [ptr] at h
    | node a' k v b l r =>
      simp only [ptr, Option.some.injEq] at h
      obtain ⟨rfl, h⟩ := h
      exact ⟨_, _, _, _, _, _, _, rfl, rfl, h⟩

theorem paths_nil {ps : List Nat} (h : ps.map some = ([] : List (PTree K V)).map ptr) : ps = [] := by
  simpa using h

/-- Going down to the leftmost node. -/
theorem descend_sim (h : AHeap K V) (A : List Nat) (C : PTree K V) (Qs : List (PTree K V)) (it : HIter K) (fuel : Nat)
    (hf : height C.erase < fuel) (hc : it.curr = C.ptr) (hp : it.paths.map some = Qs.map ptr) (oc : Owns h C)
    (oq : ∀ Q ∈ Qs, Owns h Q) (sub : (C.addrs ++ Qs.flatMap remA).Sublist A) (subQ : ∀ Q ∈ Qs, ∀ x ∈ Q.addrs, x ∈ A) (hpos : it.pos = 0) :
    ∃ it' C' Qs', HIter.descend h fuel it = (it', some ()) ∧ IterRep h A it' C' Qs' ∧
      AvlIter.descend C.erase (Qs.map erase) = (C'.erase, Qs'.map erase) ∧ it'.pos = 0 ∧ it'.start = it.start ∧ it'.stop = it.stop := by
  induction C generalizing Qs it fuel with
  | nil =>
    obtain ⟨f, rfl⟩ : ∃ f, fuel = f + 1 := ⟨fuel - 1, by omega⟩
    refine ⟨it, .nil, Qs, ?_, ⟨hc, hp, trivial, oq, ?_, by simp [addrs], subQ⟩, rfl, hpos, rfl, rfl⟩
    · rw [ptr] at hc
      simp [HIter.descend, bind_run, HIter.self, hc, pure_run]
    · simpa [remA, addrs] using sub
  | node a k v b l r ihl _ =>
    obtain ⟨f, rfl⟩ : ∃ f, fuel = f + 1 := ⟨fuel - 1, by omega⟩
    have hsubC : ∀ x ∈ (PTree.node a k v b l r).addrs, x ∈ A := fun x hx => sub.subset (by simp [hx])
    obtain ⟨o1, o2, o3⟩ := oc
    rw [ptr] at hc
    cases l with
    | nil =>
      refine ⟨it, .node a k v b .nil r, Qs, ?_, ⟨hc, hp, ⟨o1, o2, o3⟩, oq, by simpa [remA, addrs] using sub, hsubC, subQ⟩, rfl, hpos,
        rfl, rfl⟩
      simp only [ptr] at o1
      simp [HIter.descend, bind_run, HIter.self, hc, pure_run, HIter.node, o1]
    | node la lk lv lb ll lr =>
      simp only [erase, height] at hf
      obtain ⟨it', C', Qs', e1, e2, e3, e4, e5, e6⟩ := ihl (.node a k v b (.node la lk lv lb ll lr) r :: Qs)
        { it with paths := a :: it.paths, curr := some la, pos := 0 } f
        (by simp only [erase, height]; omega) rfl (by simp [ptr, hp]) o2
        (by intro Q hQ
            simp only [List.mem_cons] at hQ
            rcases hQ with rfl | hQ
            · exact ⟨o1, o2, o3⟩
            · exact oq Q hQ)
        (by simpa [addrs, remA] using sub)
        (by intro Q hQ
            simp only [List.mem_cons] at hQ
            rcases hQ with rfl | hQ
            · exact hsubC
            · exact subQ Q hQ) rfl
      refine ⟨it', C', Qs', ?_, e2, ?_, e4, e5, e6⟩
      · simp only [ptr] at o1
        rw [← e1]
        simp [HIter.descend, bind_run, HIter.self, hc, pure_run, HIter.node, o1, HIter.assign]
      · rw [← e3]
        simp only [erase, List.map_cons]
        rw [AvlIter.descend]
        simp

/-- The end loop. -/
theorem endLoop_sim (h : AHeap K V) (A : List Nat) (e : K) (Qs : List (PTree K V)) (C : PTree K V) (it : HIter K) (fuel : Nat)
    (hf : Qs.length < fuel) (R : IterRep h A it C Qs) (hne : C ≠ .nil) :
    (AvlIter.endLoop ops e (Qs.map erase) C.erase it.pos = some none →
      HIter.endLoop ops h e fuel it =
        ({ it with curr := none, paths := [], pos := if Qs.map erase = [] then it.pos else 0, stop := none }, some ())) ∧
    ∀ c p q, AvlIter.endLoop ops e (Qs.map erase) C.erase it.pos = some (some (c, p, q)) →
      ∃ C' Qs', c = C'.erase ∧ p = Qs'.map erase ∧ ∃ it', HIter.endLoop ops h e fuel it = (it', some ()) ∧ IterRep h A it' C' Qs' ∧
        it'.pos = q ∧ it'.start = it.start ∧ it'.stop = it.stop := by
  induction Qs generalizing C it fuel with
  | nil =>
    obtain ⟨f, rfl⟩ : ∃ f, fuel = f + 1 := ⟨fuel - 1, by omega⟩
    cases C with
    | nil => exact absurd rfl hne
    | node a k v b l r =>
      have hc := R.curr
      have hps := paths_nil R.paths
      have o1 := R.oc.1
      rw [ptr] at hc
      simp only [erase, List.map_nil]
      unfold AvlIter.endLoop
      rcases hcmp : ops.compare k e with - | c
      · simp [hcmp]
      · simp only [hcmp]
        by_cases hge : c ≥ 0
        · simp only [if_pos hge, reduceCtorEq, false_implies, implies_true, and_true, forall_const, Option.some.injEq]
          obtain ⟨ps, cu, po, st, sp⟩ := it
          simp only at hps hc
          subst hps hc
          simp [HIter.endLoop, bind_run, HIter.self, HIter.node, o1, HIter.compare, hcmp, hge, HIter.assign]
        · simp only [if_neg hge, reduceCtorEq, false_implies, true_and, Option.some.injEq, Prod.mk.injEq]
          rintro c' p' q' ⟨rfl, rfl, rfl⟩
          refine ⟨.node a k v b l r, [], rfl, rfl, it, ?_, R, rfl, rfl, rfl⟩
          simp [HIter.endLoop, bind_run, HIter.self, HIter.node, o1, HIter.compare, hcmp, hge, hc, pure_run]
  | cons Q Qs ih =>
    obtain ⟨f, rfl⟩ : ∃ f, fuel = f + 1 := ⟨fuel - 1, by omega⟩
    cases C with
    | nil => exact absurd rfl hne
    | node a k v b l r =>
      have hc := R.curr
      obtain ⟨qa, qk, qv, qb, ql, qr, qs, rfl, hps, hqs⟩ := paths_cons R.paths
      have o1 := R.oc.1
      rw [ptr] at hc
      simp only [erase, List.map_cons]
      rw [AvlIter.endLoop.eq_def]
      rcases hcmp : ops.compare k e with - | c
      · simp [hcmp]
      · simp only [hcmp]
        by_cases hge : c ≥ 0
        · simp only [if_pos hge]
          have R' : IterRep h A { it with curr := some qa, pos := 0, paths := qs } (.node qa qk qv qb ql qr) Qs :=
            ⟨rfl, hqs, R.oq _ (by simp), fun Q hQ => R.oq Q (by simp [hQ]),
              (List.sublist_append_right _ _).trans (by simpa [List.flatMap_cons] using R.sub), R.subQ _ (by simp),
              fun Q hQ => R.subQ Q (by simp [hQ])⟩
          obtain ⟨i1, i2⟩ := ih (.node qa qk qv qb ql qr) _ f (by simp only [List.length_cons] at hf; omega) R' (by simp)
          have hrun : HIter.endLoop ops h e (f + 1) it = HIter.endLoop ops h e f { it with curr := some qa, pos := 0, paths := qs } := by
            simp [HIter.endLoop, bind_run, HIter.self, HIter.node, o1, HIter.compare, hcmp, hge, HIter.assign, hc, hps]
          rw [hrun]
          refine ⟨fun hh => ?_, i2⟩
          rw [i1 hh]
          simp
        · simp only [if_neg hge, reduceCtorEq, false_implies, true_and, Option.some.injEq, Prod.mk.injEq]
          rintro c' p' q' ⟨rfl, rfl, rfl⟩
          refine ⟨.node a k v b l r, .node qa qk qv qb ql qr :: Qs, rfl, rfl, it, ?_, R, rfl, rfl, rfl⟩
          simp [HIter.endLoop, bind_run, HIter.self, HIter.node, o1, HIter.compare, hcmp, hge, hc, pure_run]

theorem paths_same {ps : List Nat} {Qs : List (PTree K V)} (h : ps.map some = Qs.map ptr) : ps.length = Qs.length := by
  simpa using congrArg List.length h

/-- The bounds, without a start key. -/
theorem bounds_sim (h : AHeap K V) (A : List Nat) (hA : A.Nodup) (hl : ∀ a ∈ A, a < h.length) (it : HIter K) (C : PTree K V)
    (Qs : List (PTree K V)) (R : IterRep h A it C Qs) (hst : it.start = none) (hne : C ≠ .nil) (fi : AvlIter K V)
    (hb : AvlIter.bounds ops (plainIter it C Qs) = some fi) :
    ∃ it' C' Qs', HIter.bounds ops h it = (it', some ()) ∧ IterRep h A it' C' Qs' ∧ plainIter it' C' Qs' = fi ∧ it'.start = none := by
  simp only [AvlIter.bounds, plainIter, hst] at hb
  have hrun : HIter.bounds ops h it = HIter.boundEnd ops h it := by
    simp [HIter.bounds, bind_run, HIter.self, hst]
  rw [hrun]
  rcases hsp : it.stop with - | e
  · simp only [AvlIter.boundEnd, hsp, Option.some.injEq] at hb
    subst hb
    exact ⟨it, C, Qs, by simp [HIter.boundEnd, bind_run, HIter.self, hsp, pure_run], R, by simp [plainIter, hst, hsp], hst⟩
  · have hrun : HIter.boundEnd ops h it = HIter.endLoop ops h e (it.paths.length + 1) it := by
      simp [HIter.boundEnd, bind_run, HIter.self, hsp]
    rw [hrun]
    obtain ⟨i1, i2⟩ := endLoop_sim (ops := ops) h A e Qs C it (it.paths.length + 1) (Nat.lt_succ_of_le (paths_same R.paths).ge) R hne
    simp only [AvlIter.boundEnd, hsp] at hb
    rcases hE : AvlIter.endLoop ops e (Qs.map erase) C.erase it.pos with - | - | ⟨c, p, q⟩
    · simp [hE] at hb
    · simp only [hE, Option.some.injEq] at hb
      subst hb
      refine ⟨_, .nil, [], i1 hE, ⟨rfl, rfl, trivial, by simp, by simp [remA], by simp [addrs], by simp⟩, ?_, hst⟩
      simp [plainIter, hst, erase]
    · simp only [hE, Option.some.injEq] at hb
      subst hb
      obtain ⟨C', Qs', rfl, rfl, it', j1, j2, j3, j4, j5⟩ := i2 _ _ _ hE
      exact ⟨it', C', Qs', j1, j2, by simp [plainIter, j3, j4, j5, hst, hsp], by rw [j4, hst]⟩

theorem step_sim (h : AHeap K V) (A : List Nat) (hA : A.Nodup) (hl : ∀ a ∈ A, a < h.length) (it : HIter K) (C : PTree K V)
    (Qs : List (PTree K V)) (R : IterRep h A it C Qs) (hst : it.start = none) (hne : C ≠ .nil) (fi : AvlIter K V)
    (hb : AvlIter.step ops (plainIter it C Qs) = some fi) :
    ∃ it' C' Qs', HIter.step ops h it = (it', some ()) ∧ IterRep h A it' C' Qs' ∧ plainIter it' C' Qs' = fi ∧ it'.start = none := by
  rcases hpos : it.pos with - | - | n
  · have hrun : HIter.step ops h it = HIter.bounds ops h it := by simp [HIter.step, bind_run, HIter.self, hpos]
    rw [hrun]
    simp only [AvlIter.step] at hb
    rw [show (plainIter it C Qs).pos = 0 from hpos] at hb
    exact bounds_sim h A hA hl it C Qs R hst hne fi hb
  · simp only [AvlIter.step] at hb
    rw [show (plainIter it C Qs).pos = 1 from hpos] at hb
    cases C with
    | nil => exact absurd rfl hne
    | node a k v b l r =>
      have hc := R.curr
      rw [ptr] at hc
      have o1 := R.oc.1
      have hsub := R.sub
      simp only [remA, List.cons_append] at hsub
      cases r with
      | nil =>
        cases Qs with
        | nil =>
          have hps := paths_nil R.paths
          simp only [plainIter, erase, List.map_nil, Option.some.injEq] at hb
          subst hb
          refine ⟨{ it with curr := none, start := none, stop := none }, .nil, [], ?_, ⟨rfl, by simp [hps], trivial, by simp, by simp [remA],
            by simp [addrs], by simp⟩, by simp [plainIter, erase, hpos], rfl⟩
          simp only [ptr] at o1
          simp [HIter.step, bind_run, HIter.self, hpos, HIter.node, hc, o1, hps, HIter.assign]
        | cons Q Qs =>
          obtain ⟨qa, qk, qv, qb, ql, qr, qs, rfl, hps, hqs⟩ := paths_cons R.paths
          simp only [plainIter, erase, List.map_cons] at hb
          have R' : IterRep h A { it with curr := some qa, pos := 0, paths := qs } (.node qa qk qv qb ql qr) Qs :=
            ⟨rfl, hqs, R.oq _ (by simp), fun Q hQ => R.oq Q (by simp [hQ]),
              (List.sublist_cons_self _ _).trans (by simpa [List.flatMap_cons, addrs] using hsub), R.subQ _ (by simp),
              fun Q hQ => R.subQ Q (by simp [hQ])⟩
          have hrun : HIter.step ops h it = HIter.bounds ops h { it with curr := some qa, pos := 0, paths := qs } := by
            simp only [ptr] at o1
            simp [HIter.step, bind_run, HIter.self, hpos, HIter.node, hc, o1, hps, HIter.assign]
          rw [hrun]
          exact bounds_sim h A hA hl _ _ Qs R' hst (by simp) fi hb
      | node ra rk rv rb rl rr =>
        have hsubr : ((PTree.node ra rk rv rb rl rr).addrs ++ Qs.flatMap remA).Sublist A := (List.sublist_cons_self _ _).trans hsub
        have hnd : (PTree.node ra rk rv rb rl rr).addrs.Nodup := hA.sublist ((List.sublist_append_left _ _).trans hsubr)
        obtain ⟨it', C', Qs', e1, e2, e3, e4, e5, e6⟩ := descend_sim h A (.node ra rk rv rb rl rr) Qs
          { it with curr := some ra, pos := 0 } (h.length + 1) (height_lt_fuel R.oc.2.2 hnd) rfl R.paths R.oc.2.2 R.oq hsubr R.subQ rfl
        have hrun : HIter.step ops h it = HIter.bounds ops h it' := by
          simp only [ptr] at o1
          simp [HIter.step, bind_run, HIter.self, hpos, HIter.node, hc, o1, HIter.assign, e1]
        rw [hrun]
        have hne' : C' ≠ .nil := by
          rintro rfl
          obtain ⟨k', v', b', r', ps, d1, -, -⟩ := descend_spec (PTree.node ra rk rv rb rl rr).erase (by simp [erase]) []
            (by simp)
          have : ∀ (t : Tree K V) (p q : List (Tree K V)), (AvlIter.descend t p).1 = (AvlIter.descend t q).1 := by
            intro t
            induction t with
            | nil => intro p q; rfl
            | node k v b l r ihl _ =>
              intro p q
              cases l with
              | nil => rfl
              | node lk lv lb ll lr => exact ihl (_ :: p) (_ :: q)
          have h2 := this (PTree.node ra rk rv rb rl rr).erase [] (Qs.map erase)
          rw [d1, e3] at h2
          simp [erase] at h2
        have hb2 : AvlIter.bounds ops (plainIter it' C' Qs') = some fi := by
          rw [← hb]
          simp only [plainIter, erase]
          rw [show Tree.node rk rv rb rl.erase rr.erase = (PTree.node ra rk rv rb rl rr).erase from rfl, e3]
          simp [e4, e5, e6]
        exact bounds_sim h A hA hl it' C' Qs' e2 (by rw [e5]; exact hst) hne' fi hb2
  · simp only [AvlIter.step] at hb
    rw [show (plainIter it C Qs).pos = n + 2 from hpos] at hb
    simp at hb

theorem advance_sim (h : AHeap K V) (A : List Nat) (hA : A.Nodup) (hl : ∀ a ∈ A, a < h.length) (it : HIter K) (C : PTree K V)
    (Qs : List (PTree K V)) (R : IterRep h A it C Qs) (hst : it.start = none) (fi : AvlIter K V)
    (hb : AvlIter.advance ops (plainIter it C Qs) = some fi) :
    ∃ it' C' Qs', HIter.advance ops h it = (it', some ()) ∧ IterRep h A it' C' Qs' ∧ plainIter it' C' Qs' = fi ∧ it'.start = none := by
  have hc := R.curr
  cases C with
  | nil =>
    rw [ptr] at hc
    cases Qs with
    | nil =>
      have hps := paths_nil R.paths
      simp only [AvlIter.advance, plainIter, erase, List.map_nil, Option.some.injEq] at hb
      subst hb
      exact ⟨it, .nil, [], by simp [HIter.advance, bind_run, HIter.self, hc, hps, pure_run], R, by simp [plainIter, erase], hst⟩
    | cons Q Qs =>
      obtain ⟨qa, qk, qv, qb, ql, qr, qs, rfl, hps, hqs⟩ := paths_cons R.paths
      have R' : IterRep h A { it with curr := some qa, pos := 0, paths := qs } (.node qa qk qv qb ql qr) Qs :=
        ⟨rfl, hqs, R.oq _ (by simp), fun Q hQ => R.oq Q (by simp [hQ]),
          (by simpa [List.flatMap_cons, remA] using R.sub), R.subQ _ (by simp),
          fun Q hQ => R.subQ Q (by simp [hQ])⟩
      have hrun : HIter.advance ops h it = HIter.step ops h { it with curr := some qa, pos := 0, paths := qs } := by
        simp [HIter.advance, bind_run, HIter.self, hc, hps, HIter.assign]
      rw [hrun]
      simp only [AvlIter.advance, plainIter, erase, List.map_cons] at hb
      exact step_sim h A hA hl _ _ Qs R' hst (by simp) fi hb
  | node a k v b l r =>
    rw [ptr] at hc
    have hrun : HIter.advance ops h it = HIter.step ops h it := by
      rcases hp : it.paths with - | ⟨p, ps⟩ <;> simp [HIter.advance, bind_run, HIter.self, hc, hp]
    rw [hrun]
    have : AvlIter.advance ops (plainIter it (.node a k v b l r) Qs) = AvlIter.step ops (plainIter it (.node a k v b l r) Qs) := by
      unfold AvlIter.advance
      simp only [plainIter, erase]
    rw [this] at hb
    exact step_sim h A hA hl _ _ Qs R hst (by simp) fi hb

/-- A call, without a start key and with lawful keys: the same as without addresses. -/
theorem sortedCall_sim (hops : LawfulKeys ops cmp) (ht : TotalKeys ops) (h : AHeap K V) (A : List Nat) (hA : A.Nodup)
    (hl : ∀ a ∈ A, a < h.length) (it : HIter K) (C : PTree K V)
    (Qs : List (PTree K V)) (R : IterRep h A it C Qs) (hst : it.start = none) (hw : WfIter cmp (plainIter it C Qs)) (c : IterCall) :
    ∃ it' C' Qs', HIter.sortedCall ops h it c = (it', (AvlIter.sortedCall ops (plainIter it C Qs) c).2) ∧ IterRep h A it' C' Qs' ∧
      plainIter it' C' Qs' = (AvlIter.sortedCall ops (plainIter it C Qs) c).1 ∧ it'.start = none := by
  have := hops.trans
  obtain ⟨fi, h1, -, -, h3⟩ := advance_spec hops ht _ hw
  obtain ⟨it', C', Qs', e1, e2, e3, e4⟩ := advance_sim h A hA hl it C Qs R hst fi h1
  subst e3
  have hc := e2.curr
  clear hw
  generalize plainIter it C Qs = f0 at h1 ⊢
  rcases h3 with ⟨d1, d2, -⟩ | ⟨k, v, b, l, r, d1, -, -, -⟩
  · have hC : C' = .nil := by
      cases C' with
      | nil => rfl
      | node => simp [plainIter, erase] at d1
    have hQ : Qs' = [] := by simpa [plainIter] using d2
    subst hC hQ
    have hps := paths_nil e2.paths
    rw [ptr] at hc
    simp only [plainIter, erase, List.map_nil] at h1
    refine ⟨it', .nil, [], ?_, e2, ?_, e4⟩
    · cases c <;> simp [HIter.sortedCall, HIter.call, bind_run, e1, HIter.self, hc, hps, pure_run, AvlIter.sortedCall, AvlIter.call,
        AvlIter.next, AvlIter.hasNext, AvlIter.peek, h1, plainIter, erase]
    · cases c <;> simp [AvlIter.sortedCall, AvlIter.call, AvlIter.next, AvlIter.hasNext, AvlIter.peek, h1, plainIter, erase]
  · cases C' with
    | nil => simp [plainIter, erase] at d1
    | node a k' v' b' l' r' =>
      rw [ptr] at hc
      have o1 := e2.oc.1
      simp only [plainIter, erase] at h1
      cases c with
      | next =>
        refine ⟨{ it' with pos := 1 }, .node a k' v' b' l' r', Qs', ?_, ⟨hc, e2.paths, e2.oc, e2.oq, e2.sub, e2.subC, e2.subQ⟩, ?_, e4⟩
        · rcases hp : it'.paths with - | ⟨p, ps⟩ <;>
          simp [HIter.sortedCall, HIter.call, bind_run, e1, HIter.self, hc, pure_run, AvlIter.sortedCall, AvlIter.call,
            AvlIter.next, AvlIter.hasNext, AvlIter.peek, h1, plainIter, erase, HIter.node, o1, HIter.assign, hp]
        · simp [AvlIter.sortedCall, AvlIter.call, AvlIter.next, h1, plainIter, erase]
      | hasNext =>
        refine ⟨it', .node a k' v' b' l' r', Qs', ?_, e2, ?_, e4⟩
        · rcases hp : it'.paths with - | ⟨p, ps⟩ <;>
          simp [HIter.sortedCall, HIter.call, bind_run, e1, HIter.self, hc, pure_run, AvlIter.sortedCall, AvlIter.call,
            AvlIter.next, AvlIter.hasNext, AvlIter.peek, h1, plainIter, erase, HIter.node, o1, HIter.assign, hp]
        · simp [AvlIter.sortedCall, AvlIter.call, AvlIter.hasNext, h1, plainIter, erase]
      | peek =>
        refine ⟨it', .node a k' v' b' l' r', Qs', ?_, e2, ?_, e4⟩
        · simp [HIter.sortedCall, HIter.call, bind_run, e1, HIter.self, hc, pure_run, AvlIter.sortedCall, AvlIter.call,
            AvlIter.next, AvlIter.hasNext, AvlIter.peek, h1, plainIter, erase, HIter.node, o1, HIter.assign]
        · simp [AvlIter.sortedCall, AvlIter.call, AvlIter.peek, h1, plainIter, erase]

/-- A new iterator. -/
theorem new_sim (h : AHeap K V) (P : PTree K V) (hp : Owns h P) (hn : P.addrs.Nodup) (stop : Option K) :
    ∃ it C Qs, HIter.new ops h P.ptr none stop = some it ∧ IterRep h P.addrs it C Qs ∧
      AvlIter.new ops P.erase none stop = some (plainIter it C Qs) ∧ it.start = none := by
  obtain ⟨it, C, Qs, e1, e2, e3, e4, e5, e6⟩ := descend_sim h P.addrs P [] ⟨[], P.ptr, 0, none, none⟩ (h.length + 1) (height_lt_fuel hp hn)
    rfl rfl hp (by simp) (by simp) (by simp) rfl
  refine ⟨{ it with start := none, stop := stop }, C, Qs, ?_, ⟨e2.curr, e2.paths, e2.oc, e2.oq, e2.sub, e2.subC, e2.subQ⟩, ?_, rfl⟩
  · simp [HIter.new, e1]
  · simp only [List.map_nil] at e3
    simp [AvlIter.new, e3, plainIter, e4]

end Poodle
