import Verif.Model.AvlIter
import Verif.Spec.Map

/-
Specification of iteration: an iterator is a list of the entries still to come.
-/

namespace Poodle.Spec
open Poodle

/-- A call on an iterator that has the entries `l` ahead.  `HasNext` and `Peek` do not consume; at the end `Next` and `Peek`
give `atEnd`. -/
def listCall {α : Type} (atEnd : IterRes α) (l : List α) : IterCall → List α × IterRes α
  | .next => match l with
    | [] => ([], atEnd)
    | x :: xs => (xs, .yield x)
  | .hasNext => (l, .bool (!l.isEmpty))
  | .peek => match l with
    | [] => ([], atEnd)
    | x :: _ => (l, .yield x)

/-- Results of a sequence of calls on an iterator with state type `σ`. -/
def runCalls {σ α : Type} (call : σ → IterCall → σ × IterRes α) (s : σ) : List IterCall → List (IterRes α)
  | [] => []
  | c :: cs => let (s', r) := call s c; r :: runCalls call s' cs

/-- `l` lists the entries of the finite map `f`, in increasing key order, each once. -/
def Lists {K V : Type} (cmp : K → K → Ordering) (f : FMap K V) (l : List (K × V)) : Prop :=
  Increasing cmp l ∧ ∀ k v, f k = some v ↔ ∃ k', (k', v) ∈ l ∧ cmp k k' = .eq

/-- `start <= k < stop`, a missing bound is no bound. -/
def InRange {K : Type} (cmp : K → K → Ordering) (start stop : Option K) (k : K) : Bool :=
  (match start with
    | none => true
    | some s => cmp s k != .gt) &&
  (match stop with
    | none => true
    | some e => cmp k e == .lt)

end Poodle.Spec
