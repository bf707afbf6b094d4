import Verif.Spec.Iter

/-
Specification of iterators of which the calls at the end may panic.
-/

namespace Poodle.Spec
open Poodle

/-- A call on an iterator that has the entries `l` ahead; at the end `Next` and `Peek` panic, and if `bad` so does `HasNext`. -/
def tailCall {α : Type} (bad : Bool) (l : List α) (c : IterCall) : List α × IterRes α :=
  if bad && l.isEmpty then ([], .crash) else listCall .crash l c

/-- The result is no entry: a panic, or the answer that there is no further entry. -/
def NoEntry {α : Type} (r : IterRes α) : Prop := r = .crash ∨ r = .bool false

end Poodle.Spec
