import Verif.Spec.Logger

/-
Property C190: the log.
-/

namespace Poodle.Props
open Poodle Poodle.Spec

/-- C190: every message is written where the last call that succeeded said. -/
def LogsAll : Prop := ∀ es : List LogEvent, (LogState.start.run es).2 = (returnsAll [] es, wantedAll [] es)

/-- C190 does not hold: after the second call, messages are lost. -/
theorem C190_refuted : ¬ LogsAll := by
  intro h
  have := h [.setFile true, .setFile true, .message 1]
  revert this
  decide

theorem fileCalls_pos (es : List LogEvent) : 0 < fileCalls es ↔ .setFile true ∈ es := by
  induction es with
  | nil => simp [fileCalls]
  | cons e es ih =>
    cases e with
    | setStdout => simp [fileCalls, ih]
    | message m => simp [fileCalls, ih]
    | setFile o =>
      cases o
      · by_cases h : 0 < fileCalls es
        · simp [fileCalls, h, ih.mp h]
        · have := mt ih.mpr h
          simp [fileCalls, h, this]
      · simp [fileCalls]

/-- The state by the events before it. -/
def stateAfter (before : List LogEvent) : LogState :=
  ⟨decide (0 < fileCalls before), if wanted before = .file ∧ 1 < fileCalls before then .nilFile else wanted before⟩

theorem wanted_ne (before : List LogEvent) : wanted before ≠ .nilFile := by
  induction before with
  | nil => simp [wanted]
  | cons e es ih =>
    cases e with
    | setStdout => simp [wanted]
    | message m => simpa [wanted] using ih
    | setFile o =>
      cases o
      · rw [wanted]; split
        · simp
        · exact ih
      · simp [wanted]

theorem step_state (before : List LogEvent) (e : LogEvent) : ((stateAfter before).step e).1 = stateAfter (e :: before) := by
  have hp := fileCalls_pos before
  cases e with
  | setStdout => rfl
  | message m => rfl
  | setFile o =>
    by_cases h : 0 < fileCalls before
    · have h1 : (stateAfter before).opened = true := by simp [stateAfter, h]
      have h2 : 1 < fileCalls before + 1 := by omega
      cases o
      · simp [LogState.step, LogState.setFile, stateAfter, wanted, fileCalls, h, hp.mp h]
      · simp [LogState.step, LogState.setFile, stateAfter, wanted, fileCalls, h]
    · have h1 : (stateAfter before).opened = false := by simp [stateAfter, h]
      have h0 : fileCalls before = 0 := by omega
      cases o
      · have hn : LogEvent.setFile true ∉ before := fun hm => h (hp.mpr hm)
        simp only [LogState.step, LogState.setFile, h1, Bool.false_eq_true, if_false]
        simp [stateAfter, wanted, fileCalls, h0, hn]
      · simp [LogState.step, LogState.setFile, stateAfter, wanted, fileCalls, h0]

/-- C190, exactly: messages go where they are to go, but for those for the file after it was asked for a second time, which are lost without
an error. -/
theorem C190_partial (es : List LogEvent) : (LogState.start.run es).2 = (returnsAll [] es, lostAll [] es) := by
  suffices h : ∀ (es before : List LogEvent), ((stateAfter before).run es).2 = (returnsAll before es, lostAll before es) from h es []
  intro es
  induction es with
  | nil => intro before; rfl
  | cons e es ih =>
    intro before
    rw [LogState.run, step_state, ih]
    have hp := fileCalls_pos before
    cases e with
    | setStdout => simp [LogState.step, lostAll, returnsAll]
    | setFile o =>
      refine Prod.ext ?_ (by simp [LogState.step, lostAll])
      simp only [LogState.step, returnsAll]
      congr 2
      by_cases h : 0 < fileCalls before
      · simp [LogState.setFile, stateAfter, h, hp.mp h]
      · have hn : LogEvent.setFile true ∉ before := fun hm => h (hp.mpr hm)
        cases o <;> simp [LogState.setFile, stateAfter, h, hn]
    | message m =>
      refine Prod.ext (by simp [LogState.step, returnsAll]) ?_
      simp only [LogState.step, lostAll]
      congr 1
      by_cases h : wanted before = .file ∧ 1 < fileCalls before
      · have e : (stateAfter before).dest = .nilFile := if_pos h
        rw [if_pos e, if_pos h]
      · have e : (stateAfter before).dest = wanted before := if_neg h
        simp only [e, wanted_ne before, if_false, if_neg h]

/-- C190, what holds: if the log is sent to the file at most once, every message is written where it is to go. -/
theorem C190_once (es : List LogEvent) (h : fileCalls es.reverse ≤ 1) : (LogState.start.run es).2 = (returnsAll [] es, wantedAll [] es) := by
  rw [C190_partial]
  refine Prod.ext rfl ?_
  suffices hh : ∀ (es before : List LogEvent), fileCalls (es.reverse ++ before) ≤ 1 → lostAll before es = wantedAll before es from
    hh es [] (by simpa using h)
  clear h
  have mono : ∀ a b : List LogEvent, fileCalls b ≤ fileCalls (a ++ b) := by
    intro a b
    induction a with
    | nil => simp
    | cons e a ih =>
      refine Nat.le_trans ih ?_
      cases e with
      | setStdout => simp [fileCalls]
      | message m => simp [fileCalls]
      | setFile o =>
        rw [List.cons_append, fileCalls]
        split <;> omega
  intro es
  induction es with
  | nil => intro before _; rfl
  | cons e es ih =>
    intro before h
    have h' : fileCalls (es.reverse ++ e :: before) ≤ 1 := by simpa using h
    have hb := mono es.reverse (e :: before)
    cases e with
    | setStdout => simp only [lostAll, wantedAll]; exact ih _ h'
    | setFile o => simp only [lostAll, wantedAll]; exact ih _ h'
    | message m =>
      simp only [lostAll, wantedAll]
      have : ¬ (wanted before = .file ∧ 1 < fileCalls before) := by
        rintro ⟨-, h1⟩
        simp only [fileCalls] at hb
        omega
      rw [if_neg this, ih _ h']
      rfl

example : fileCalls [LogEvent.message 1, .setFile true, .message 2, .setStdout, .message 3].reverse ≤ 1 ∧
    (LogState.start.run [.message 1, .setFile true, .message 2, .setStdout, .message 3]).2.2 =
      [(.stderr, 1), (.file, 2), (.stdout, 3)] := by decide

end Poodle.Props
