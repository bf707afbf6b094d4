import Verif.Model.Logger

/-
Specification of a log: where a message is to go, by what happened before it.
-/

namespace Poodle.Spec
open Poodle

/-- Where messages are to go after these events (the last first): where the last call that succeeded said. -/
def wanted : List LogEvent → LogDest
  | [] => .stderr
  | .setStdout :: _ => .stdout
  | .setFile true :: _ => .file
  | .setFile false :: es => if .setFile true ∈ es then .file else wanted es
  | .message _ :: es => wanted es

/-- The calls to log to a file that returned without error (the last first). -/
def fileCalls : List LogEvent → Nat
  | [] => 0
  | .setFile opens :: es => if opens ∨ 0 < fileCalls es then fileCalls es + 1 else fileCalls es
  | _ :: es => fileCalls es

/-- Where the messages of a history are to go. -/
def wantedAll (before : List LogEvent) : List LogEvent → List (LogDest × Nat)
  | [] => []
  | .message m :: es => (wanted before, m) :: wantedAll (.message m :: before) es
  | e :: es => wantedAll (e :: before) es

/-- The messages that are lost: those for the file after it was asked for more than once. -/
def lostAll (before : List LogEvent) : List LogEvent → List (LogDest × Nat)
  | [] => []
  | .message m :: es =>
    (if wanted before = .file ∧ 1 < fileCalls before then [] else [(wanted before, m)]) ++ lostAll (.message m :: before) es
  | e :: es => lostAll (e :: before) es

/-- What the calls return: no error, but if the file cannot be opened and never was. -/
def returnsAll (before : List LogEvent) : List LogEvent → List (Option Bool)
  | [] => []
  | e :: es =>
    (match e with
      | .setStdout => some true
      | .setFile opens => some (opens || decide (.setFile true ∈ before))
      | .message _ => none) :: returnsAll (e :: before) es

end Poodle.Spec
