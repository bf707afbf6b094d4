import Verif.Model.Basic

/-
Specification of logs: encodings written one after the other, and read from the front until nothing is left or reading fails.
-/

namespace Poodle.Spec

/-- How reading a log ends: nothing is left, an error, or a panic. -/
inductive LogEnd where
  | complete
  | failed
  | crashed
deriving DecidableEq, Repr

/-- A program reads a log with the decoder `dec`: as long as there are bytes left it decodes an item and goes on behind the bytes
consumed. -/
inductive ReadsLog {α : Type} (dec : Bytes → Res (α × Nat)) : Bytes → List α → LogEnd → Prop
  | complete : ReadsLog dec [] [] .complete
  | item {buf : Bytes} {x : α} {n : Nat} {xs : List α} {e : LogEnd} : buf ≠ [] → dec buf = .ok (x, n) →
      ReadsLog dec (buf.drop n) xs e → ReadsLog dec buf (x :: xs) e
  | failed {buf : Bytes} : buf ≠ [] → dec buf = .err → ReadsLog dec buf [] .failed
  | crashed {buf : Bytes} : buf ≠ [] → dec buf = .panic → ReadsLog dec buf [] .crashed

/-- How many of the encodings `ws`, written one after the other, lie in the first `n` bytes as a whole. -/
def wholeItems : Nat → List Bytes → Nat
  | _, [] => 0
  | n, w :: ws => if w.length ≤ n then wholeItems (n - w.length) ws + 1 else 0

/-- The first `n` bytes of the encodings `ws` end with an encoding. -/
def CutBetween (n : Nat) (ws : List Bytes) : Prop := ∃ i, ws.flatten.take n = (ws.take i).flatten

end Poodle.Spec
