import Verif.Model.NilBound
import Verif.Props.NilKey
import Verif.Lemmas.RangePanic

/-
Property C216: nil bounds of the range iterators of a sorted map (/repo/src/collection/avl.go:332-500, sorted_map.go:73-75, comparable.go).
-/

namespace Poodle.Props
open Poodle Poodle.Spec AvlIter

variable {V : Type}

/-- The kind of a result: a truth value, a panic, or something else. -/
def kindOf {α : Type} : IterRes α → Option (Option Bool)
  | .bool b => some (some b)
  | .crash => some none
  | _ => none

/-- The full claim C216 (false of the code): a bound that is nil, in whatever way, is no bound. -/
def NilIsNoBound : Prop := ∀ (os : List (MapOp CmpObj Nat)) (a b : CmpObj), (∀ o ∈ os, ProperKey (anyCallKey o)) → ¬ ProperKey a → ¬ ProperKey b →
  let m := (runAny SortedMap.new os).1
  ∀ cs, (m.rangeAny a b).map (fun it => runIter boundOps it cs) = (m.iterator boundOps).map (fun it => runIter boundOps it cs)

/-- C216 is refuted: with a nil pointer as end, an iterator returns nothing. -/
theorem C216_refuted : ¬ NilIsNoBound := by
  intro h
  have := h [.put (.ints .byte (some [97])) 1] .absent (.nilInts .byte)
    (by simp [anyCallKey, ProperKey]; intro h; cases h) (by simp [ProperKey]) (fun h => h.2 (.ints .byte)) [.hasNext]
  have h2 := congrArg (Option.map (List.map kindOf)) this
  revert h2
  decide +kernel

theorem iterator_any (m : SortedMap CmpObj V) : ∃ it, m.iterator boundOps = some it ∧
    ∀ cs, runIter boundOps it cs = runCalls (listCall .crash) (entries m.root) cs := by
  refine ⟨_, rfl, fun cs => ?_⟩
  obtain ⟨h1, h2, h3⟩ := new_fields (ops := boundOps) m.root none none _ rfl
  rw [← h3]
  exact all_entries _ _ rfl (new_shaped (ops := boundOps) m.root none none _ rfl) h1 h2 cs

/-- C216 for bounds that are nothing at all: they are no bounds.  The iterator returns all entries in the order of the tree without comparing
anything, also if nil pointers or keys of different types got into the map (C206, C201). -/
theorem C216_nothing (m : SortedMap CmpObj V) :
    ∃ it, m.rangeAny .absent .absent = some it ∧ ∀ cs, runIter boundOps it cs = runCalls (listCall .crash) (entries m.root) cs :=
  iterator_any m

/-- A nil pointer beside a key of another type. -/
example : let m := (runAny SortedMap.new [.put (.ints .byte (some [97])) 1, .put .nilObjs (2 : Nat)]).1
    (entries m.root).length = 2 ∧ (m.rangeAny .absent .absent).map (fun it => (runIter boundOps it [.next, .next, .hasNext]).length) = some 3 := by
  decide +kernel

theorem pointer_compare {a b : CmpObj} (ha : NilPointer a) : boundOps.compare a b = none := by
  cases ha <;> simp [boundOps, CmpObj.compare]

theorem boundOf_pointer {a : CmpObj} (ha : NilPointer a) : boundOf a = some a := by simp [boundOf, pointer_absent ha]

/-- C216 for a nil pointer as start: with an end that is not nothing at all, constructing the iterator panics; otherwise every call on it
panics, unless the map is empty. -/
theorem C216_start_partial (m : SortedMap CmpObj V) (a b : CmpObj) (ha : NilPointer a) :
    (b ≠ .absent → m.rangeAny a b = none) ∧
    (b = .absent → ∃ it, m.rangeAny a b = some it ∧
      (entries m.root ≠ [] → ∀ cs, runIter boundOps it cs = cs.map fun _ => .crash) ∧
      (entries m.root = [] → ∀ cs, runIter boundOps it cs = runCalls (listCall .crash) [] cs)) := by
  constructor
  · intro hb
    have hb' : boundOf b = some b := by
      cases b <;> simp_all [boundOf, CmpObj.isAbsent]
    simp [SortedMap.rangeAny, SortedMap.rangeIterator, AvlIter.new, boundOf_pointer ha, hb', pointer_compare ha]
  · rintro rfl
    have h0 : m.rangeAny a .absent = AvlIter.new boundOps m.root (some a) none := by
      simp [SortedMap.rangeAny, SortedMap.rangeIterator, boundOf_pointer ha, show boundOf .absent = none from rfl]
    rw [h0]
    refine ⟨_, rfl, fun he cs => ?_, fun he cs => ?_⟩
    all_goals
      obtain ⟨h1, h2, h3⟩ := new_fields (ops := boundOps) m.root (some a) none _ rfl
      have hs := new_shaped (ops := boundOps) m.root (some a) none _ rfl
      rcases advance_front _ hs with ⟨e1, q, s, e, e2⟩ | ⟨ps, k, v, c, l, r, e1, e2, e3⟩
    · exact absurd (h3.symm.trans e1) he
    · refine runIter_stuck _ ?_ cs
      rw [e3 boundOps, h1]
      simp only [bounds]
      unfold startLoop startSpine
      simp [pointer_compare ha]
    · exact runIter_done _ q s e (e2 boundOps) cs
    · rw [h3, he] at e2
      simp at e2

example : let m := (runAny SortedMap.new [.put (.ints .byte (some [97])) (1 : Nat)]).1
    (m.rangeAny (.nilInts .byte) .absent).map (fun it => (runIter boundOps it [.hasNext, .next]).map kindOf) = some [some none, some none] ∧
      (entries m.root).length = 1 := by
  decide +kernel

theorem proper_compare {a b : CmpObj} (ha : ProperKey a) (hb : NilPointer b) : ∃ c, boundOps.compare a b = some c ∧ 0 ≤ c := by
  obtain ⟨h1, h2⟩ := ha
  cases a with
  | absent => exact absurd rfl h1
  | nilInts k => exact absurd (.ints k) h2
  | nilObjs => exact absurd .objs h2
  | ints k s => cases s <;> cases hb <;> exact ⟨_, by simp [boundOps, CmpObj.compare, CmpObj.isNil]; rfl, by decide⟩
  | objsNil => cases hb <;> exact ⟨_, by simp [boundOps, CmpObj.compare, CmpObj.isNil]; rfl, by decide⟩
  | objs l => cases hb <;> exact ⟨_, by simp [boundOps, CmpObj.compare, CmpObj.isNil]; rfl, by decide⟩

theorem runAny_proper (os : List (MapOp CmpObj V)) (hos : ∀ o ∈ os, ProperKey (anyCallKey o)) :
    ∀ e ∈ entries (runAny SortedMap.new os).1.root, ProperKey e.1 :=
  (runAny_keys ProperKey os hos SortedMap.new trivial (by simp [SortedMap.new, entries])).2

/-- The walk up to a nil pointer passes all keys. -/
theorem endLoop_pointer (b : CmpObj) (hb : NilPointer b) (paths : List (Tree CmpObj V)) (k : CmpObj) (v : V) (c : Int) (l r : Tree CmpObj V) (q : Nat)
    (hp : ∀ p ∈ paths, p ≠ .nil) (hk : ∀ e ∈ (k, v) :: entries r ++ pathOut paths, ProperKey e.1) :
    endLoop boundOps b paths (.node k v c l r) q = some none := by
  induction paths generalizing k v c l r q with
  | nil =>
    obtain ⟨d, h1, h2⟩ := proper_compare (hk (k, v) (by simp)) hb
    unfold endLoop
    simp [h1, h2]
  | cons p ps ih =>
    obtain ⟨d, h1, h2⟩ := proper_compare (hk (k, v) (by simp)) hb
    unfold endLoop
    simp only [h1, ge_iff_le, h2, if_true]
    cases p with
    | nil => exact absurd rfl (hp .nil (by simp))
    | node pk pv pb pl pr =>
      refine ih pk pv pb pl pr 0 (fun x hx => hp x (by simp [hx])) fun e he => hk e ?_
      simp only [pathOut]
      simp only [List.mem_cons, List.mem_append, List.cons_append] at he ⊢
      tauto

/-- A slice that is itself nil. -/
inductive NilSlice : CmpObj → Prop
  | ints (k : ElemKind) : NilSlice (.ints k none)
  | objs : NilSlice .objsNil

theorem nilSlice_compare {a : CmpObj} (ha : NilSlice a) :
    (∀ b, NilPointer b → boundOps.compare a b = some 0) ∧ ∀ b, ProperKey b → boundOps.compare a b = some (-1) := by
  constructor
  · intro b hb
    cases ha <;> cases hb <;> simp [boundOps, CmpObj.compare, CmpObj.isNil]
  · rintro b ⟨h1, h2⟩
    cases b with
    | absent => exact absurd rfl h1
    | nilInts k => exact absurd (.ints k) h2
    | nilObjs => exact absurd .objs h2
    | _ => cases ha <;> simp [boundOps, CmpObj.compare, CmpObj.isNil]

theorem proper_slice {a : CmpObj} (ha : ProperKey a) (hn : ¬ NilSlice a) (b : CmpObj) (hb : NilPointer b) : boundOps.compare a b = some 1 := by
  obtain ⟨h1, h2⟩ := ha
  cases a with
  | absent => exact absurd rfl h1
  | nilInts k => exact absurd (.ints k) h2
  | nilObjs => exact absurd .objs h2
  | ints k s =>
    cases s with
    | none => exact absurd (.ints k) hn
    | some s => cases hb <;> simp [boundOps, CmpObj.compare, CmpObj.isNil]
  | objsNil => exact absurd .objs hn
  | objs l => cases hb <;> simp [boundOps, CmpObj.compare, CmpObj.isNil]

/-- The walk from a slice that is nil finds all keys greater. -/
theorem startSpine_nilSlice (a : CmpObj) (ha : NilSlice a) (k : CmpObj) (v : V) (c : Int) (l r : Tree CmpObj V)
    (hk : ∀ e ∈ (k, v) :: entries r, ProperKey e.1) : startSpine boundOps a (.node k v c l r) = some none := by
  have h := (nilSlice_compare ha).2
  induction r generalizing k v c l with
  | nil =>
    unfold startSpine
    simp [h k (hk (k, v) (by simp))]
  | node rk rv rb rl rr _ ih =>
    unfold startSpine
    simp only [h k (hk (k, v) (by simp)), show (-1 : Int) < 0 by decide, if_true]
    refine ih rk rv rb rl fun e he => hk e ?_
    simp only [entries, List.mem_cons, List.mem_append] at he ⊢
    tauto

theorem startLoop_nilSlice (a : CmpObj) (ha : NilSlice a) (paths : List (Tree CmpObj V)) (k : CmpObj) (v : V) (c : Int) (l r : Tree CmpObj V) (q : Nat)
    (hp : ∀ p ∈ paths, p ≠ .nil) (hk : ∀ e ∈ (k, v) :: entries r ++ pathOut paths, ProperKey e.1) :
    startLoop boundOps a paths (.node k v c l r) q = some none := by
  induction paths generalizing k v c l r q with
  | nil =>
    unfold startLoop
    rw [startSpine_nilSlice a ha k v c l r fun e he => hk e (by simpa [pathOut] using he)]
  | cons p ps ih =>
    unfold startLoop
    rw [startSpine_nilSlice a ha k v c l r fun e he => hk e (by
      simp only [List.mem_cons, List.mem_append, List.cons_append] at he ⊢
      tauto)]
    cases p with
    | nil => exact absurd rfl (hp .nil (by simp))
    | node pk pv pb pl pr =>
      refine ih pk pv pb pl pr 0 (fun x hx => hp x (by simp [hx])) fun e he => hk e ?_
      simp only [pathOut]
      simp only [List.mem_cons, List.mem_append, List.cons_append] at he ⊢
      tauto

/-- C216 for a nil pointer as end, after any calls with keys that are not nil: without a start, and with a start that is a nil slice, the
iterator is at its end from the beginning; with any other start, constructing it panics. -/
theorem C216_end_partial (os : List (MapOp CmpObj V)) (hos : ∀ o ∈ os, ProperKey (anyCallKey o)) (a b : CmpObj) (hb : NilPointer b)
    (ha : ¬ NilPointer a) :
    let m := (runAny SortedMap.new os).1
    ((a = .absent ∨ NilSlice a) → ∃ it, m.rangeAny a b = some it ∧ ∀ cs, runIter boundOps it cs = runCalls (listCall .crash) [] cs) ∧
    (¬ (a = .absent ∨ NilSlice a) → m.rangeAny a b = none) := by
  intro m
  have hk := runAny_proper os hos
  constructor
  · intro h
    have h0 : m.rangeAny a b = some ⟨(descend m.root []).2, (descend m.root []).1, 0, boundOf a, some b⟩ := by
      simp only [SortedMap.rangeAny, SortedMap.rangeIterator, boundOf_pointer hb]
      rcases h with rfl | h
      · rfl
      · have : boundOf a = some a := by cases h <;> rfl
        simp [AvlIter.new, this, (nilSlice_compare h).1 b hb]
    refine ⟨_, h0, fun cs => ?_⟩
    rw [SortedMap.rangeAny, SortedMap.rangeIterator, boundOf_pointer hb] at h0
    obtain ⟨h1, h2, h3⟩ := new_fields _ _ _ _ h0
    have hs := new_shaped _ _ _ _ h0
    rcases advance_front _ hs with ⟨e1, q, s, e, e2⟩ | ⟨ps, k, v, c, l, r, e1, e2, e3⟩
    · exact runIter_done _ q s e (e2 boundOps) cs
    · rw [← h3, e2] at hk
      have e4 := e3 boundOps
      rcases h with rfl | h
      · simp only [show boundOf .absent = none from rfl, bounds, boundEnd, endLoop_pointer b hb ps k v c l r 0 e1 hk] at e4
        exact runIter_done _ _ _ _ e4 cs
      · have : boundOf a = some a := by cases h <;> rfl
        simp only [this, bounds, startLoop_nilSlice a h ps k v c l r 0 e1 hk] at e4
        simp only [this]
        exact runIter_done _ _ _ _ e4 cs
  · intro h
    have hp : ProperKey a := ⟨fun h' => h (.inl h'), ha⟩
    have h1 : boundOf a = some a := by
      cases a <;> simp_all [boundOf, CmpObj.isAbsent]
    simp [SortedMap.rangeAny, SortedMap.rangeIterator, boundOf_pointer hb, AvlIter.new, h1, proper_slice hp (fun h' => h (.inr h')) b hb]

example : let m := (runAny SortedMap.new [.put (.ints .byte (some [97])) 1, .put (.ints .byte (some [98])) (2 : Nat)]).1
    (m.rangeAny .absent (.nilInts .int8)).map (fun it => (runIter boundOps it [.hasNext, .next]).map kindOf) = some [some (some false), some none] ∧
    (m.rangeAny (.ints .byte none) (.nilInts .byte)).map (fun it => (runIter boundOps it [.hasNext]).map kindOf) = some [some (some false)] ∧
    (m.rangeAny (.ints .byte (some [])) (.nilInts .byte)).isNone = true := by decide +kernel

example : ∀ o ∈ ([.put (.ints .byte (some [97])) 1, .remove (.objs [])] : List (MapOp CmpObj Nat)), ProperKey (anyCallKey o) := by
  intro o ho
  simp only [List.mem_cons, List.not_mem_nil, or_false] at ho
  rcases ho with rfl | rfl <;> exact ⟨by simp [anyCallKey], fun h => by cases h⟩

end Poodle.Props
