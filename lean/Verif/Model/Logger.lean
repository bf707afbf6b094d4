import Verif.Model.Basic

/-
Model of the choice of the log, /repo/src/util/lc_util.go:70-92, in one process.

Simplified: the file, once open, can be written; the flags (what is written before each message) are left out.
-/

namespace Poodle

/-- What `log.SetOutput` was given: at first standard error; a nil `*os.File` is an `io.Writer` whose `Write` returns an error, which the
`log` package drops.  (Go library; /repo/src/util/lc_util.go:73, :89.) -/
inductive LogDest where
  | stderr
  | stdout
  | file
  | nilFile
deriving DecidableEq, Repr

/-- The variable `log_file`, /repo/src/util/lc_util.go:70 (whether it is set), and the output of the `log` package. -/
structure LogState where
  opened : Bool
  dest : LogDest
deriving DecidableEq, Repr

/-- The start of a process, /repo/src/util/lc_util.go:70. -/
def LogState.start : LogState := ⟨false, .stderr⟩

/-- `LCSetLoggerStdout`, /repo/src/util/lc_util.go:72-76. -/
def LogState.setStdout (s : LogState) : LogState := { s with dest := .stdout }

/-- `LCSetLoggerFileTmp`, /repo/src/util/lc_util.go:78-92; `opens` is whether `os.OpenFile` would succeed.  If the file is open already, the
local variable `file` is still nil at line 89. -/
def LogState.setFile (s : LogState) (opens : Bool) : LogState × Bool :=
  if s.opened then ({ s with dest := .nilFile }, true)
  else if opens then ({ opened := true, dest := .file }, true)
  else (s, false)

/-- What happens in a process, as far as the log is concerned, /repo/src/util/lc_util.go:72-92. -/
inductive LogEvent where
  | setStdout
  | setFile (opens : Bool)
  | message (m : Nat)
deriving DecidableEq, Repr

/-- One event: the state afterwards, the error or not of the call (`none` for messages), and where a message went (`none`: nowhere).
/repo/src/util/lc_util.go:72-92. -/
def LogState.step (s : LogState) : LogEvent → LogState × Option Bool × List (LogDest × Nat)
  | .setStdout => (s.setStdout, some true, [])
  | .setFile opens => ((s.setFile opens).1, some (s.setFile opens).2, [])
  | .message m => (s, none, if s.dest = .nilFile then [] else [(s.dest, m)])

/-- A run: the state at the end, what the calls returned (whether nil), and everything written, in order.
/repo/src/util/lc_util.go:72-92. -/
def LogState.run (s : LogState) : List LogEvent → LogState × List (Option Bool) × List (LogDest × Nat)
  | [] => (s, [], [])
  | e :: es =>
    (((s.step e).1.run es).1, (s.step e).2.1 :: ((s.step e).1.run es).2.1, (s.step e).2.2 ++ ((s.step e).1.run es).2.2)

end Poodle
