import Verif.Props.SortedHeap

/-
Property C222: sorted maps that are only read (/repo/src/collection/avl.go:22-33, :265-278, :358-500; sorted_map.go:11-75).
-/

namespace Poodle.Props
open Poodle Spec
variable {K V : Type}

/-! ### C222 Several goroutines may read sorted maps at once -/

/-- Calls that only read maps; an iterator is changed, but belongs to the goroutine that made it. -/
def OnlyReads : Cmd K V → Prop
  | .get .. | .size _ | .iter .. | .call .. => True
  | .newMap | .put .. | .remove .. => False

/-- Goroutines that share maps: the nodes and the maps, and the iterators of each goroutine. -/
structure Shared (K V : Type) where
  heap : AHeap K V
  maps : List HMap
  iters : Nat → List (HIter K)

/-- What a goroutine sees: all maps and its own iterators. -/
def Shared.view (s : Shared K V) (g : Nat) : World K V := ⟨s.heap, s.maps, s.iters g⟩

/-- A call by goroutine `g`. -/
def Shared.exec (s : Shared K V) (g : Nat) (ops : KeyOps K) (c : Cmd K V) : Shared K V × Out K V :=
  let (w, o) := (s.view g).exec ops c
  (⟨w.heap, w.maps, fun g' => if g' = g then w.iters else s.iters g'⟩, o)

/-- An interleaving of the calls of goroutines, with their results; the key operations may be different in each call. -/
def Shared.run (s : Shared K V) : List (Nat × KeyOps K × Cmd K V) → Shared K V × List (Nat × Out K V)
  | [] => (s, [])
  | (g, ops, c) :: l =>
    let r := s.exec g ops c
    ((r.1.run l).1, (g, r.2) :: (r.1.run l).2)

/-- The part of an interleaving that concerns goroutine `g`. -/
def ofGoroutine {α : Type} (g : Nat) (l : List (Nat × α)) : List α := l.filterMap fun x => if x.1 = g then some x.2 else none

/-- Code that changes no node. -/
def KeepsNodes {α : Type} (x : HM K V α) : Prop := ∀ h, (x h).1 = h

theorem keepsNodes_bind {α β : Type} {x : HM K V α} {f : α → HM K V β} (hx : KeepsNodes x) (hf : ∀ a, KeepsNodes (f a)) :
    KeepsNodes (x >>= f) := by
  intro h
  have h1 := hx h
  simp only [bind]
  split
  · next e => rw [e] at h1; exact h1
  · next h' a e => rw [e] at h1; exact (hf a h').trans h1

theorem keepsNodes_pure {α : Type} (a : α) : KeepsNodes (pure a : HM K V α) := fun _ => rfl

theorem keepsNodes_panic {α : Type} : KeepsNodes (PM.panic : HM K V α) := fun _ => rfl

theorem load_keeps (p : Ptr) : KeepsNodes (HM.load p : HM K V _) := by
  intro h
  unfold HM.load
  split <;> rfl

theorem compare_keeps (ops : KeyOps K) (a b : K) : KeepsNodes (HM.compare ops a b : HM K V _) := by
  intro h
  rfl

theorem getR_keeps (ops : KeyOps K) (k : K) : ∀ (fuel : Nat) (p : Ptr), KeepsNodes (HM.getR ops k fuel p : HM K V _)
  | 0, _ => keepsNodes_panic
  | _ + 1, none => keepsNodes_pure _
  | fuel + 1, some a => by
    unfold HM.getR
    refine keepsNodes_bind (load_keeps _) fun n => ?_
    split
    · exact keepsNodes_pure _
    · refine keepsNodes_bind (compare_keeps _ _ _) fun c => keepsNodes_bind ?_ fun q => getR_keeps ops k fuel q
      exact keepsNodes_bind (load_keeps _) fun n => keepsNodes_pure _

/-- A call that reads changes no node and no map. -/
theorem exec_reads (ops : KeyOps K) (w : World K V) (c : Cmd K V) (hc : OnlyReads c) :
    (w.exec ops c).1.heap = w.heap ∧ (w.exec ops c).1.maps = w.maps := by
  cases c with
  | newMap => exact hc.elim
  | put => exact hc.elim
  | remove => exact hc.elim
  | size i => simp only [World.exec]; split <;> exact ⟨rfl, rfl⟩
  | get i k =>
    simp only [World.exec]
    split
    · exact ⟨rfl, rfl⟩
    · next m e =>
      have := getR_keeps (V := V) ops k (w.heap.length + 1) m.root w.heap
      split
      · next e2 => simp only [HMap.get, Prod.mk.injEq] at e2; exact ⟨e2.1 ▸ this, rfl⟩
      · next e2 => simp only [HMap.get, Prod.mk.injEq] at e2; exact ⟨e2.1 ▸ this, rfl⟩
  | iter i a b => simp only [World.exec]; split <;> [skip; split] <;> exact ⟨rfl, rfl⟩
  | call j c => simp only [World.exec]; split <;> [skip; split] <;> exact ⟨rfl, rfl⟩

/-- C222: in every interleaving of calls that read, no node and no map is changed, every goroutine gets the results it gets if it is alone,
and its iterators are where they are then.  In every state of the maps, whatever the comparisons answer. -/
theorem C222_readers (s : Shared K V) (l : List (Nat × KeyOps K × Cmd K V)) (hl : ∀ x ∈ l, OnlyReads x.2.2) :
    (s.run l).1.heap = s.heap ∧ (s.run l).1.maps = s.maps ∧ ∀ g,
      ofGoroutine g (s.run l).2 = (runWith (s.view g) (ofGoroutine g l)).2 ∧
      (s.run l).1.view g = (runWith (s.view g) (ofGoroutine g l)).1 := by
  induction l generalizing s with
  | nil => exact ⟨rfl, rfl, fun g => ⟨rfl, rfl⟩⟩
  | cons x l ih =>
    obtain ⟨g0, ops, c⟩ := x
    have hc := exec_reads ops (s.view g0) c (hl _ List.mem_cons_self)
    obtain ⟨i1, i2, i3⟩ := ih (s.exec g0 ops c).1 (fun x hx => hl x (List.mem_cons_of_mem _ hx))
    have e1 : (s.exec g0 ops c).1.heap = s.heap := hc.1
    have e2 : (s.exec g0 ops c).1.maps = s.maps := hc.2
    refine ⟨i1.trans e1, i2.trans e2, fun g => ?_⟩
    obtain ⟨j1, j2⟩ := i3 g
    by_cases hg : g0 = g
    · subst hg
      have ev : (s.exec g0 ops c).1.view g0 = ((s.view g0).exec ops c).1 := by simp [Shared.exec, Shared.view]
      rw [ev] at j1 j2
      simp only [Shared.run, ofGoroutine, List.filterMap_cons, if_true, runWith]
      exact ⟨by rw [List.cons.injEq]; exact ⟨rfl, j1⟩, j2⟩
    · have ev : (s.exec g0 ops c).1.view g = s.view g := by
        have : g ≠ g0 := fun h => hg h.symm
        simp only [Shared.view, e1, e2]
        simp [Shared.exec, this]
      rw [ev] at j1 j2
      simp only [Shared.run, ofGoroutine, List.filterMap_cons, hg, if_false]
      exact ⟨j1, j2⟩

/-- Two maps made by a program; two goroutines look up keys and iterate at the same time. -/
def readEvents : List (Nat × KeyOps Int × Cmd Int Int) :=
  [(0, intOps, .get 0 1), (1, intOps, .iter 0 none none), (0, intOps, .iter 0 (some 2) none), (1, intOps, .call 0 .next), (0, intOps, .call 0 .next),
   (1, intOps, .call 0 .next), (0, intOps, .size 0)]

example := C222_readers ⟨(World.run intOps World.new [.newMap, .put 0 2 20, .put 0 1 10]).1.heap,
  (World.run intOps World.new [.newMap, .put 0 2 20, .put 0 1 10]).1.maps, fun _ => []⟩ readEvents (by simp [readEvents, OnlyReads])

example : ((⟨(World.run intOps World.new [.newMap, .put 0 2 20, .put 0 1 10]).1.heap,
    (World.run intOps World.new [.newMap, .put 0 2 20, .put 0 1 10]).1.maps, fun _ => []⟩ : Shared Int Int).run readEvents).2 =
    [(0, .val (some 10)), (1, .done), (0, .done), (1, .iter (.yield (1, 10))), (0, .iter (.yield (1, 10))), (1, .iter (.yield (2, 20))),
      (0, .size 2)] := by decide +kernel

end Poodle.Props
