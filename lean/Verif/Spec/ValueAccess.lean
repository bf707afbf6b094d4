import Verif.Model.ValueHeap
import Verif.Spec.Value

/-
Specification of element access: what the i-th of several consecutive encoded items is, independent of caching.
-/

namespace Poodle.Spec

/-- The `i`-th item of a sequence of encoded items: skip `i` items, decode one.  `dec` returns an item and its size. -/
def elemOf {α : Type} (dec : Bytes → Res (α × Nat)) : Bytes → Nat → Res α
  | c, 0 => do
    let (x, _) ← dec c
    .ok x
  | c, i + 1 => do
    let (_, n) ← dec c
    elemOf dec (c.drop n) i

/-- An access to any decoded object. -/
inductive Access where
  | value (id idx : Nat)
  | record (id idx : Nat)

/-- The heap after an access, whatever its outcome. -/
def Access.run (h : Heap) : Access → Heap
  | .value id idx => (h.valueAt id idx).1
  | .record id idx => (h.recordAt id idx).1

/-- The heap after a history of accesses. -/
def history (h : Heap) (l : List Access) : Heap := l.foldl Access.run h

/-- `ValueAt` along an index path; using a nil pointer on the way panics. -/
def walk : Heap → Nat → List Nat → Heap × Res (Option Nat)
  | h, id, [] => (h, .ok (some id))
  | h, id, i :: p =>
    match h.valueAt id i with
    | (h', .ok (some q)) => walk h' q p
    | (h', .ok none) => (h', if p.isEmpty then .ok none else .panic)
    | (h', .err) => (h', .err)
    | (h', .panic) => (h', .panic)

/-- A decoded value `q` shows the same as the constructed value `u`: the same `Size()` and the same bytes in `Value()`. -/
def Shows (h : Heap) (q : Nat) (u : CVal) : Prop :=
  ∃ d sl, h[q]? = some (.val d sl) ∧ d.size = u.size ∧ d.value.bytes = u.value.bytes

/-- Decoding `w` gives a value that, after any accesses, shows the same as `v` at every index path, and an error where `v` has
nothing. -/
def RoundTrips (v : CVal) (w : Bytes) : Prop :=
  ∀ rest : Bytes, ∃ h id, allocStd [] (w ++ rest) = (h, .ok id) ∧ ∀ (l : List Access) (p : List Nat),
    (∀ u, pathAt v p = some u → ∃ h' q, walk (history h l) id p = (h', .ok (some q)) ∧ Shows h' q u) ∧
    (pathAt v p = none → (walk (history h l) id p).2 = .err)

end Poodle.Spec
