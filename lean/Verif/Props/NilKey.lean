import Verif.Spec.NilKey
import Verif.Lemmas.AvlSafe
import Verif.Props.SortedMap

/-
C206: calls on a sorted map with nil keys.
-/

namespace Poodle.Props
open Poodle Poodle.Spec

variable {V : Type}

theorem pointer_absent {k : CmpObj} (h : NilPointer k) : k.isAbsent = false := by cases h <;> rfl

/-- `Equal` of an object with itself does not panic, so that the one `Compare` without `Equal` before it is modelled exactly. -/
theorem equal_self : ∀ k : CmpObj, k ≠ .absent → ∃ b, k.equal k = .ok b
  | .absent, h => absurd rfl h
  | .nilInts _, _ => ⟨false, by simp [CmpObj.equal, CmpObj.isAbsent]⟩
  | .nilObjs, _ => ⟨false, by simp [CmpObj.equal, CmpObj.isAbsent]⟩
  | .ints k s, _ => ⟨equalInts s s, by simp [CmpObj.equal]⟩
  | .objsNil, _ => ⟨true, by simp [CmpObj.equal]⟩
  | .objs l, _ => by
    have : ∀ l : List CmpObj, (∀ x ∈ l, x ≠ .absent → ∃ b, x.equal x = .ok b) → ∃ b, equalObjsLoop l l = .ok b := by
      intro l
      induction l with
      | nil => exact fun _ => ⟨true, by simp [equalObjsLoop]⟩
      | cons a l ih =>
        intro h
        obtain ⟨b, hb⟩ := ih fun x hx => h x (List.mem_cons_of_mem _ hx)
        simp only [equalObjsLoop, bne_self_eq_false, Bool.false_eq_true, if_false]
        by_cases ha : a.isAbsent = true
        · simp only [ha, if_true]; exact ⟨b, hb⟩
        · simp only [ha, Bool.false_eq_true, if_false]
          obtain ⟨c, hc⟩ := h a (List.mem_cons_self ..) (by rintro rfl; simp [CmpObj.isAbsent] at ha)
          cases c
          · exact ⟨false, by simp [hc]⟩
          · exact ⟨b, by simp [hc, hb]⟩
    obtain ⟨b, hb⟩ := this l fun x hx hn => equal_self x hn
    exact ⟨b, by simp [CmpObj.equal, hb]⟩
termination_by k => sizeOf k
decreasing_by
  have := List.sizeOf_lt_of_mem hx
  simp only [CmpObj.objs.sizeOf_spec]; omega

/-! ### Comparisons with nil keys -/

theorem proper_absent {a : CmpObj} (h : ProperKey a) : anyKeyOps.equal a .absent = false ∧ ∃ c, anyKeyOps.compare a .absent = some c ∧ ¬ c < 0 := by
  obtain ⟨h1, h2⟩ := h
  cases a with
  | absent => exact absurd rfl h1
  | nilInts k => exact absurd (.ints k) h2
  | nilObjs => exact absurd .objs h2
  | ints k s => cases s <;> exact ⟨by simp [anyKeyOps, CmpObj.equal], _, by simp [anyKeyOps, CmpObj.equal, CmpObj.compare, CmpObj.isNil]; rfl, by decide⟩
  | objsNil => exact ⟨by simp [anyKeyOps, CmpObj.equal], _, by simp [anyKeyOps, CmpObj.equal, CmpObj.compare, CmpObj.isNil]; rfl, by decide⟩
  | objs l => exact ⟨by simp [anyKeyOps, CmpObj.equal], _, by simp [anyKeyOps, CmpObj.equal, CmpObj.compare, CmpObj.isNil]; rfl, by decide⟩

theorem sameType_panics {k a : CmpObj} (h : SameType k a) : anyKeyOps.equal a k = false ∧ anyKeyOps.compare a k = none := by
  cases h <;> simp [anyKeyOps, CmpObj.equal]

theorem otherType {k a : CmpObj} (hk : NilPointer k) (ha : ProperKey a) (h : ¬ SameType k a) :
    anyKeyOps.equal a k = false ∧ ∃ c, anyKeyOps.compare a k = some c ∧ ¬ c < 0 := by
  obtain ⟨h1, h2⟩ := ha
  cases a with
  | absent => exact absurd rfl h1
  | nilInts k => exact absurd (.ints k) h2
  | nilObjs => exact absurd .objs h2
  | ints k' s =>
    have hne : ∀ x, k = .nilInts x → k' ≠ x := by
      rintro x rfl rfl
      exact h (.ints _ s)
    cases hk with
    | ints x =>
      have := hne x rfl
      cases s <;> exact ⟨by simp [anyKeyOps, CmpObj.equal, this], _, by simp [anyKeyOps, CmpObj.equal, CmpObj.compare, CmpObj.isNil, this]; rfl, by decide⟩
    | objs => cases s <;> exact ⟨by simp [anyKeyOps, CmpObj.equal], _, by simp [anyKeyOps, CmpObj.equal, CmpObj.compare, CmpObj.isNil]; rfl, by decide⟩
  | objsNil =>
    cases hk with
    | ints x => exact ⟨by simp [anyKeyOps, CmpObj.equal], _, by simp [anyKeyOps, CmpObj.equal, CmpObj.compare, CmpObj.isNil]; rfl, by decide⟩
    | objs => exact absurd .objsNil h
  | objs l =>
    cases hk with
    | ints x => exact ⟨by simp [anyKeyOps, CmpObj.equal], _, by simp [anyKeyOps, CmpObj.equal, CmpObj.compare, CmpObj.isNil]; rfl, by decide⟩
    | objs => exact absurd (.objs l) h

theorem pointer_stuck {a b : CmpObj} (ha : NilPointer a) (hb : b ≠ .absent) : anyKeyOps.equal a b = false ∧ anyKeyOps.compare a b = none := by
  cases ha <;> cases b <;> simp_all [anyKeyOps, CmpObj.equal, CmpObj.compare, CmpObj.isAbsent]

theorem pointer_found {a : CmpObj} (ha : NilPointer a) : anyKeyOps.equal a .absent = true := by
  cases ha <;> simp [anyKeyOps, CmpObj.equal, CmpObj.isAbsent]

/-! ### Trees -/

theorem balanced_put {m : SortedMap CmpObj V} (hb : Balanced m.root) (k : CmpObj) (v : V) :
    Balanced (m.putAny k v).1.root ∧ ∀ e ∈ entries (m.putAny k v).1.root, e = (k, v) ∨ e ∈ entries m.root := by
  unfold SortedMap.putAny
  split
  · exact ⟨hb, fun e he => .inr he⟩
  · have h := putR_shape (ops := anyKeyOps) k v m.root hb
    have h' := putR_entries (ops := anyKeyOps) k v m.root hb
    simp only [SortedMap.put, putNode_eq]
    rcases hx : m.root.putR anyKeyOps k v with ⟨T, - | ⟨old, d⟩⟩
    · rw [hx] at h' h
      have := h.1 rfl
      simp only [Prod.mk.injEq, and_true] at this
      subst this
      exact ⟨hb, h'⟩
    · rw [hx] at h'
      exact ⟨(h.2 _ _ _ hx).1, h'⟩

theorem balanced_remove {m : SortedMap CmpObj V} (hb : Balanced m.root) (k : CmpObj) :
    Balanced (m.removeAny k).1.root ∧ ∀ e ∈ entries (m.removeAny k).1.root, e ∈ entries m.root := by
  unfold SortedMap.removeAny
  split
  · exact ⟨hb, fun e he => he⟩
  · have h := removeR_shape (ops := anyKeyOps) k m.root hb
    have h' := removeR_entries (ops := anyKeyOps) k m.root hb
    simp only [SortedMap.remove, SortedMap.removeNode]
    rcases hx : m.root.removeR anyKeyOps k with ⟨T, - | ⟨old, d⟩⟩
    · rw [hx] at h'
      exact ⟨(h.1 _ hx).1, h'⟩
    · rw [hx] at h'
      exact ⟨(h.2 _ _ _ hx).1, h'⟩

theorem runAny_keys (P : CmpObj → Prop) (os : List (MapOp CmpObj V)) (hos : ∀ o ∈ os, P (anyCallKey o)) (m : SortedMap CmpObj V)
    (hb : Balanced m.root) (hm : ∀ e ∈ entries m.root, P e.1) :
    Balanced (runAny m os).1.root ∧ ∀ e ∈ entries (runAny m os).1.root, P e.1 := by
  induction os generalizing m with
  | nil => exact ⟨hb, hm⟩
  | cons o os ih =>
    have ho := hos o (List.mem_cons_self ..)
    have hr := fun o h => hos o (List.mem_cons_of_mem _ h)
    cases o with
    | put k v =>
      obtain ⟨h1, h2⟩ := balanced_put hb k v
      exact ih hr _ h1 fun e he => by
        rcases h2 e he with rfl | h
        · exact ho
        · exact hm e h
    | remove k =>
      obtain ⟨h1, h2⟩ := balanced_remove hb k
      exact ih hr _ h1 fun e he => hm e (h2 e he)

theorem getR_leftmost (k : CmpObj) (t : Tree CmpObj V)
    (h : ∀ e ∈ entries t, anyKeyOps.equal e.1 k = false ∧ ∃ c, anyKeyOps.compare e.1 k = some c ∧ ¬ c < 0) :
    ∃ n, t.getR anyKeyOps k = some (none, n) := by
  induction t with
  | nil => exact ⟨0, rfl⟩
  | node k0 v0 b l r ihl _ =>
    obtain ⟨h1, c, h2, h3⟩ := h (k0, v0) (by simp [entries])
    obtain ⟨n, hn⟩ := ihl fun e he => h e (by simp [entries, he])
    exact ⟨n + 1, by simp [Tree.getR, h1, h2, h3, hn]⟩

theorem putR_leftmost (k : CmpObj) (v : V) (t : Tree CmpObj V) (hb : Balanced t)
    (h : ∀ e ∈ entries t, anyKeyOps.equal e.1 k = false ∧ ∃ c, anyKeyOps.compare e.1 k = some c ∧ ¬ c < 0) :
    ∃ T d, t.putR anyKeyOps k v = (T, some (none, d)) ∧ entries T = (k, v) :: entries t := by
  induction t with
  | nil => exact ⟨_, _, rfl, rfl⟩
  | node k0 v0 b l r ihl _ =>
    obtain ⟨h1, c, h2, h3⟩ := h (k0, v0) (by simp [entries])
    obtain ⟨T, d, hT, hE⟩ := ihl hb.2.2.2.1 fun e he => h e (by simp [entries, he])
    have hs := (putR_shape (ops := anyKeyOps) k v l hb.2.2.2.1).2 _ _ _ hT
    obtain ⟨T', d', f1, f2, -⟩ := putFinish_false k0 v0 b l r T none d hb hs.1 hs.2
    exact ⟨T', d', by simp [Tree.putR, h1, h2, h3, hT, f1], by simp [f2, hE, entries]⟩

/-- A tree whose least entry cannot be compared with `k`, and whose others send `k` to the left. -/
theorem leftmost_panics (k a : CmpObj) (v w : V) (t : Tree CmpObj V) (es : List (CmpObj × V)) (he : entries t = (a, w) :: es)
    (ha : anyKeyOps.equal a k = false ∧ anyKeyOps.compare a k = none)
    (h : ∀ e ∈ es, anyKeyOps.equal e.1 k = false ∧ ∃ c, anyKeyOps.compare e.1 k = some c ∧ ¬ c < 0) :
    t.getR anyKeyOps k = none ∧ t.putR anyKeyOps k v = (t, none) ∧ t.removeR anyKeyOps k = (t, none) := by
  induction t generalizing es with
  | nil => simp [entries] at he
  | node k0 v0 b l r ihl _ =>
    cases hl : entries l with
    | nil =>
      simp only [entries, hl, List.nil_append, List.cons.injEq, Prod.mk.injEq] at he
      obtain ⟨⟨rfl, rfl⟩, rfl⟩ := he
      refine ⟨by simp [Tree.getR, ha], by simp [Tree.putR, ha], ?_⟩
      rw [Tree.removeR.eq_def]
      simp [ha]
    | cons x xs =>
      simp only [entries, hl, List.cons_append, List.cons.injEq] at he
      obtain ⟨rfl, rfl⟩ := he
      obtain ⟨h1, c, h2, h3⟩ := h (k0, v0) (by simp)
      obtain ⟨i1, i2, i3⟩ := ihl xs hl fun e he => h e (by simp [he])
      refine ⟨by simp [Tree.getR, h1, h2, h3, i1], by simp [Tree.putR, h1, h2, h3, i2], ?_⟩
      rw [Tree.removeR.eq_def]
      simp [h1, h2, h3, i3]

theorem panics_any {m : SortedMap CmpObj V} {k : CmpObj} (v : V)
    (h : m.root.getR anyKeyOps k = none ∧ m.root.putR anyKeyOps k v = (m.root, none) ∧ m.root.removeR anyKeyOps k = (m.root, none)) :
    m.getAny k = none ∧ m.putAny k v = (m, none) ∧ m.removeAny k = (m, none) := by
  obtain ⟨h1, h2, h3⟩ := h
  refine ⟨by simp [SortedMap.getAny, SortedMap.get, SortedMap.getNode, h1], ?_, ?_⟩
  · unfold SortedMap.putAny
    split
    · rfl
    · simp [SortedMap.put, putNode_eq, h2]
  · unfold SortedMap.removeAny
    split
    · rfl
    · simp [SortedMap.remove, SortedMap.removeNode, h3]

/-! ### C206 Calls with nil keys are refused -/

/-- The full claim C206 (false of the code): whatever was done before with keys that are not nil, calls with nil keys change nothing and do not
make later calls with other keys return anything else. -/
def NilKeysRefused : Prop := ∀ (os : List (MapOp CmpObj Nat)) (k : CmpObj), (∀ o ∈ os, ProperKey (anyCallKey o)) → ¬ ProperKey k →
  let m := (runAny SortedMap.new os).1
  ∀ (v : Nat) (rest : List (MapOp CmpObj Nat)), (∀ o ∈ rest, ProperKey (anyCallKey o)) →
    (runAny (m.putAny k v).1 rest).2 = (runAny m rest).2 ∧ (runAny (m.removeAny k).1 rest).2 = (runAny m rest).2

/-- C206 for keys that are nothing at all: after any calls with keys that are not nil pointers, `Put` and `Remove` panic without effect, and
`Get` finds nothing. -/
theorem C206_nothing_partial (os : List (MapOp CmpObj V)) (hos : ∀ o ∈ os, ¬ NilPointer (anyCallKey o)) (v : V) :
    let m := (runAny SortedMap.new os).1
    m.getAny .absent = some none ∧ m.putAny .absent v = (m, none) ∧ m.removeAny .absent = (m, none) := by
  intro m
  have hp : ∀ e ∈ entries m.root, ProperKey e.1 := by
    have key : ∀ (os : List (MapOp CmpObj V)), (∀ o ∈ os, ¬ NilPointer (anyCallKey o)) → ∀ m : SortedMap CmpObj V, Balanced m.root →
        (∀ e ∈ entries m.root, ProperKey e.1) → ∀ e ∈ entries (runAny m os).1.root, ProperKey e.1 := by
      intro os
      induction os with
      | nil => exact fun _ m _ h => h
      | cons o os ih =>
        intro ho m hb hm
        have h0 := ho o (List.mem_cons_self ..)
        have hr := fun o h => ho o (List.mem_cons_of_mem _ h)
        cases o with
        | put k v =>
          by_cases hk : k = .absent
          · subst hk
            have : m.putAny .absent v = (m, none) := rfl
            simp only [runAny, this]
            exact ih hr m hb hm
          · obtain ⟨h1, h2⟩ := balanced_put hb k v
            exact ih hr _ h1 fun e he => by
              rcases h2 e he with rfl | h
              · exact ⟨hk, h0⟩
              · exact hm e h
        | remove k =>
          obtain ⟨h1, h2⟩ := balanced_remove hb k
          exact ih hr _ h1 fun e he => hm e (h2 e he)
    exact key os hos SortedMap.new trivial (by simp [SortedMap.new, entries])
  obtain ⟨n, hn⟩ := getR_leftmost .absent m.root fun e he => proper_absent (hp e he)
  exact ⟨by simp [SortedMap.getAny, SortedMap.get, SortedMap.getNode, hn], rfl, rfl⟩

/-- C206 for a nil pointer and an empty map: it is accepted, and no `Put`, `Remove` or `Get` ever returns again, except that `Get` finds it
for the key that is nothing at all. -/
theorem C206_empty_partial (m : SortedMap CmpObj V) (hm : entries m.root = []) (k : CmpObj) (hk : NilPointer k) (v : V) :
    let m' := (m.putAny k v).1
    (m.putAny k v).2 = some none ∧ m'.size = m.size + 1 ∧
      (∀ os, runAny m' os = (m', os.map fun _ => none)) ∧
      (∀ x, x ≠ .absent → m'.getAny x = none) ∧ m'.getAny .absent = some (some v) := by
  intro m'
  have hroot : m.root = .nil := by
    cases h : m.root with
    | nil => rfl
    | node k0 v0 b l r => rw [h] at hm; simp [entries] at hm
  have hm' : m.putAny k v = (⟨.node k v 0 .nil .nil, m.size + 1⟩, some none) := by
    simp [SortedMap.putAny, pointer_absent hk, SortedMap.put, SortedMap.putNode, hroot]
  have e : m' = ⟨.node k v 0 .nil .nil, m.size + 1⟩ := by show (m.putAny k v).1 = _; rw [hm']
  have hst : ∀ (x : CmpObj) (w : V), x ≠ .absent → m'.getAny x = none ∧ m'.putAny x w = (m', none) ∧ m'.removeAny x = (m', none) := by
    intro x w hx
    refine panics_any w ?_
    rw [e]
    exact leftmost_panics x k w v _ [] rfl (pointer_stuck hk hx) (by simp)
  refine ⟨by rw [hm'], by rw [e], fun os => ?_, fun x hx => (hst x v hx).1, ?_⟩
  · induction os with
    | nil => rfl
    | cons o os ih =>
      have : ∀ x w, m'.putAny x w = (m', none) ∧ m'.removeAny x = (m', none) := by
        intro x w
        by_cases hx : x = .absent
        · subst hx; exact ⟨rfl, rfl⟩
        · exact (hst x w hx).2
      cases o with
      | put x w => simp only [runAny, (this x w).1, ih, List.map_cons]
      | remove x => simp only [runAny, (this x v).2, ih, List.map_cons]
  · rw [e]
    simp [SortedMap.getAny, SortedMap.get, SortedMap.getNode, Tree.getR, pointer_found hk]

/-- C206 for a nil pointer and a map that has keys, all of its type: every call with it panics without effect. -/
theorem C206_same_type_partial (os : List (MapOp CmpObj V)) (k : CmpObj) (hos : ∀ o ∈ os, SameType k (anyCallKey o)) (v : V) :
    let m := (runAny SortedMap.new os).1
    entries m.root ≠ [] → m.getAny k = none ∧ m.putAny k v = (m, none) ∧ m.removeAny k = (m, none) := by
  intro m hne
  obtain ⟨-, hp⟩ := runAny_keys (SameType k) os hos SortedMap.new trivial (by simp [SortedMap.new, entries])
  refine panics_any v ?_
  cases hm : m.root with
  | nil => rw [hm] at hne; simp [entries] at hne
  | node k0 v0 b l r =>
    obtain ⟨h1, h2⟩ := sameType_panics (hp (k0, v0) (by show _ ∈ entries m.root; rw [hm]; simp [entries]))
    refine ⟨by simp [Tree.getR, h1, h2], by simp [Tree.putR, h1, h2], ?_⟩
    rw [Tree.removeR.eq_def]
    simp [h1, h2]

/-- C206 for a nil pointer and a map none of whose keys have its type: `Get` and `Remove` find nothing, but `Put` accepts it as the first entry.
From then on every call with it panics without effect, so it cannot be found or removed. -/
theorem C206_other_type_partial (os : List (MapOp CmpObj V)) (k : CmpObj) (hk : NilPointer k)
    (hos : ∀ o ∈ os, ProperKey (anyCallKey o) ∧ ¬ SameType k (anyCallKey o)) (v w : V) :
    let m := (runAny SortedMap.new os).1
    let m' := (m.putAny k v).1
    m.getAny k = some none ∧ (m.putAny k v).2 = some none ∧ entries m'.root = (k, v) :: entries m.root ∧ m'.size = m.size + 1 ∧
      m'.getAny k = none ∧ m'.putAny k w = (m', none) ∧ m'.removeAny k = (m', none) := by
  intro m m'
  obtain ⟨hb, hp⟩ := runAny_keys (fun x => ProperKey x ∧ ¬ SameType k x) os hos SortedMap.new trivial (by simp [SortedMap.new, entries])
  have hc := fun e he => otherType hk (hp e he).1 (hp e he).2
  obtain ⟨n, hn⟩ := getR_leftmost k m.root hc
  obtain ⟨T, d, hT, hE⟩ := putR_leftmost k v m.root hb hc
  have hput : m.putAny k v = (⟨T, m.size + 1⟩, some none) := by
    simp [SortedMap.putAny, pointer_absent hk, SortedMap.put, putNode_eq, hT]
  have e : m' = ⟨T, m.size + 1⟩ := by show (m.putAny k v).1 = _; rw [hput]
  have hk' : k ≠ .absent := by rintro rfl; cases hk
  refine ⟨by simp [SortedMap.getAny, SortedMap.get, SortedMap.getNode, hn], by rw [hput], by rw [e]; exact hE, by rw [e], ?_⟩
  refine panics_any w ?_
  rw [e]
  exact leftmost_panics k k w v T _ hE (pointer_stuck hk hk') hc

/-- Three keys, of which the second is a nil pointer of another type. -/
def pointerBetween : List (MapOp CmpObj Nat) :=
  [.put (.ints .byte (some [2])) 2, .put (.nilInts .int8) 0, .put (.ints .byte (some [3])) 3]

/-- C206 is false: a nil pointer put into an empty map makes it unusable.  Put beside keys of another type, it makes the removal of a key with two
children panic after that key was lost, and the map is unusable from then on. -/
theorem C206_refuted : ¬ NilKeysRefused ∧
    (runAny SortedMap.new [.put (.nilInts .byte) 0, .put (.ints .byte (some [1])) 1]).2 = [some none, none] ∧
    (runAny SortedMap.new (pointerBetween ++ [.remove (.ints .byte (some [2])), .put (.ints .byte (some [2])) 4, .remove (.ints .byte (some [3]))])).2 =
      [some none, some none, some none, none, none, none] ∧
    (entries (runAny SortedMap.new (pointerBetween ++ [.remove (.ints .byte (some [2]))])).1.root).map Prod.snd = [0, 0, 3] := by
  have h1 : (runAny SortedMap.new [.put (.nilInts .byte) 0, .put (.ints .byte (some [1])) 1]).2 = [some none, none] := by decide +kernel
  refine ⟨fun h => ?_, h1, by decide +kernel, by decide +kernel⟩
  have := (h [] (.nilInts .byte) (by simp) (fun hp => hp.2 (.ints _)) 0 [.put (.ints .byte (some [1])) 1] (by
    intro o ho
    rw [List.mem_singleton.mp ho]
    exact ⟨by simp [anyCallKey], by simp only [anyCallKey]; intro h; cases h⟩)).1
  revert this
  decide +kernel

example : NilPointer (.nilInts .byte) ∧ SameType (.nilInts .byte) (anyCallKey (.put (.ints .byte (some [1])) (1 : Nat))) ∧
    entries (runAny SortedMap.new [.put (.ints .byte (some [1])) (1 : Nat)]).1.root ≠ [] :=
  ⟨.ints _, .ints _ _, by decide +kernel⟩

/-- Every call with the pointer panics without effect. -/
example : (runAny SortedMap.new [.put (.ints .byte (some [1])) (1 : Nat), .put (.nilInts .byte) 5, .put (.ints .byte (some [2])) 2,
    .remove (.nilInts .byte), .put .absent 7, .remove (.ints .byte (some [1]))]).2 = [some none, none, some none, none, none, some (some 1)] := by
  decide +kernel

example : ProperKey (anyCallKey (.put (.ints .byte (some [1])) (1 : Nat))) ∧ ¬ SameType (.nilInts .int8) (anyCallKey (.put (.ints .byte (some [1])) (1 : Nat))) :=
  ⟨⟨by simp [anyCallKey], by simp only [anyCallKey]; intro h; cases h⟩, by simp only [anyCallKey]; intro h; cases h⟩

example := C206_nothing_partial [.put (.ints .byte (some [1])) (1 : Nat), .put (.ints .byte (some [2])) 2]
  (by simp only [List.mem_cons, List.not_mem_nil, or_false]; rintro o (rfl | rfl) h <;> cases h) 7

example := C206_empty_partial (SortedMap.new : SortedMap CmpObj Nat) rfl (.nilInts .byte) (.ints _) 5

example := C206_same_type_partial [.put (.ints .byte (some [1])) (1 : Nat)] (.nilInts .byte)
  (by simp only [List.mem_cons, List.not_mem_nil, or_false]; rintro o rfl; exact .ints _ _) 5 (by decide +kernel)

example := C206_other_type_partial [.put (.ints .byte (some [1])) (1 : Nat)] (.nilInts .int8) (.ints _)
  (by
    simp only [List.mem_cons, List.not_mem_nil, or_false]
    rintro o rfl
    exact ⟨⟨by simp [anyCallKey], by simp only [anyCallKey]; intro h; cases h⟩, by simp only [anyCallKey]; intro h; cases h⟩) 5 6

end Poodle.Props
