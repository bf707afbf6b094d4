import Verif.Model.NilTime
import Mathlib.Tactic.SplitIfs

/-
C207: comparisons of times of which some are nil.
-/

namespace Poodle.Props
open Poodle

/-- A kind of time. -/
inductive TimeKind where
  | ledger | raft
deriving DecidableEq, Repr

/-- The variable has a time of the kind, or a nil pointer to one. -/
inductive OfKind : TimeVar → TimeKind → Prop
  | nilLedger : OfKind .nilLedger .ledger
  | nilRaft : OfKind .nilRaft .raft
  | ledger (e : UInt32) : OfKind (.time (.ledger e)) .ledger
  | raft (t m n : UInt32) : OfKind (.time (.raft t m n)) .raft

/-- The variable has a time. -/
def HasTime (v : TimeVar) : Prop := ∃ t, v = .time t

/-! ### C207 Times can be compared whatever the variables hold -/

/-- The full claim C207 (false of the code). -/
def ComparisonsReturn : Prop := ∀ (c : TimeCmp) (a b : TimeVar), a ≠ .nothing → c.call a b ≠ .panic

/-- C207 is false: asking whether a time is later than a nil pointer panics. -/
theorem C207_refuted : ¬ ComparisonsReturn ∧ TimeCmp.gt.call (.time (.ledger 1)) .nilLedger = .panic ∧
    TimeCmp.gt.call (.time (.ledger 1)) .nothing = .err ∧ TimeCmp.gt.call (.time (.ledger 1)) .nilRaft = .err :=
  ⟨fun h => h .gt (.time (.ledger 1)) .nilLedger (by simp) (by decide), by decide, by decide, by decide⟩

/-- C207 exactly: a comparison of two times of a kind returns an answer; if one of two variables of a kind is a nil pointer, the comparison panics;
variables of different kinds, or nothing as the argument, are an error. -/
theorem C207_exact_partial (c : TimeCmp) (a b : TimeVar) (ha : a ≠ .nothing) :
    ((∃ r, c.call a b = .ok r) ↔ HasTime a ∧ HasTime b ∧ ∃ k, OfKind a k ∧ OfKind b k) ∧
      (c.call a b = .panic ↔ (∃ k, OfKind a k ∧ OfKind b k) ∧ ¬ (HasTime a ∧ HasTime b)) ∧
      (c.call a b = .err ↔ ¬ ∃ k, OfKind a k ∧ OfKind b k) := by
  have k1 : ∀ k, OfKind .nilLedger k ↔ k = .ledger := fun k => ⟨fun h => by cases h; rfl, by rintro rfl; exact .nilLedger⟩
  have k2 : ∀ k, OfKind .nilRaft k ↔ k = .raft := fun k => ⟨fun h => by cases h; rfl, by rintro rfl; exact .nilRaft⟩
  have k3 : ∀ k e, OfKind (.time (.ledger e)) k ↔ k = .ledger := fun k e => ⟨fun h => by cases h; rfl, by rintro rfl; exact .ledger e⟩
  have k4 : ∀ k t m n, OfKind (.time (.raft t m n)) k ↔ k = .raft := fun k t m n => ⟨fun h => by cases h; rfl, by rintro rfl; exact .raft t m n⟩
  have k5 : ∀ k, ¬ OfKind .nothing k := fun k h => by cases h
  have r1 : ∀ e e', ∃ r, c.run (.ledger e) (some (.ledger e')) = .ok r := by
    intro e e'
    cases c <;> exact ⟨_, rfl⟩
  have r2 : ∀ t m n t' m' n', ∃ r, c.run (.raft t m n) (some (.raft t' m' n')) = .ok r := by
    intro t m n t' m' n'
    cases c <;> simp only [TimeCmp.run, CTime.gt, CTime.ge, CTime.eq, CTime.ne, CTime.lt, CTime.le] <;> split_ifs <;> exact ⟨_, rfl⟩
  rcases a with - | - | - | (e | ⟨t, m, n⟩)
  · exact absurd rfl ha
  all_goals rcases b with - | - | - | (e' | ⟨t', m', n'⟩)
  all_goals simp [TimeCmp.call, TimeVar.isLedger, TimeVar.isRaft, HasTime, k1, k2, k3, k4, k5]
  · obtain ⟨r, h⟩ := r1 e e'
    simp [h]
  · obtain ⟨r, h⟩ := r2 t m n t' m' n'
    simp [h]

/-- C207: the answer for two times is that of C57 and C58. -/
theorem C207_answer (c : TimeCmp) (a b : CTime) : c.call (.time a) (.time b) = c.run a (some b) := by
  cases a <;> cases b <;> cases c <;> rfl

example : TimeCmp.lt.call (.time (.ledger 1)) (.time (.ledger 2)) = .ok true ∧ TimeCmp.lt.call (.time (.ledger 1)) (.time (.raft 1 2 3)) = .err ∧
    TimeCmp.ge.call .nilRaft (.time (.raft 1 2 3)) = .panic ∧ TimeCmp.eq.call .nilRaft .nilLedger = .err := by decide

example := C207_exact_partial .ge .nilRaft (.time (.raft 1 2 3)) (by decide)

end Poodle.Props
