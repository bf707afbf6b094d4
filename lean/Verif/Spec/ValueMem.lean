import Verif.Model.ValueMem
import Verif.Spec.Sharing
import Verif.Spec.ValueAccess

/-
Specification of access to decoded values while bytes are assigned: programs that do both, and what they see.
-/

namespace Poodle.Spec

/-- What an object shows. -/
def viewObj (m : Mem) : WObj → Obj
  | .val d sl => .val (viewStd m d) sl
  | .record r v s => .record (viewInfo m r) v s

/-- All of them. -/
def viewHeap (m : Mem) (h : MHeap) : Heap := h.map (viewObj m)

/-- The result of a call, and what is shown then. -/
def viewCall {α : Type} (m : Mem) (r : MHeap × α) : Heap × α := (viewHeap m r.1, r.2)

/-- A step of a program: an access to any decoded object, or the assignment of a byte anywhere. -/
inductive MAct where
  | value (id idx : Nat)
  | record (id idx : Nat)
  | write (a i : Nat) (b : UInt8)
deriving DecidableEq, Repr

/-- The state after a step, whatever its outcome. -/
def MAct.run (s : Mem × MHeap) : MAct → Mem × MHeap
  | .value id idx => (s.1, (valueAtM s.1 s.2 id idx).1)
  | .record id idx => (s.1, (recordAtM s.1 s.2 id idx).1)
  | .write a i b => (s.1.write a i b, s.2)

/-- The state after a program. -/
def MAct.runs (s : Mem × MHeap) (l : List MAct) : Mem × MHeap := l.foldl MAct.run s

/-- The accesses of a program. -/
def MAct.accesses : List MAct → List Access
  | [] => []
  | .value id idx :: l => .value id idx :: accesses l
  | .record id idx :: l => .record id idx :: accesses l
  | .write _ _ _ :: l => accesses l

/-- All assignments of a program are outside the slice. -/
def MAct.Avoids (s : Sl) (l : List MAct) : Prop := ∀ a i b, MAct.write a i b ∈ l → ¬ covers s a i

/-- The program only assigns. -/
def MAct.OnlyWrites (l : List MAct) : Prop := ∀ x ∈ l, ∃ a i b, x = MAct.write a i b

/-- Everything about an object that is not bytes: the kind, the count, and where its bytes are. -/
def SameShape : WObj → WObj → Prop
  | .val d _, .val d' _ => d = d'
  | .record r v s, .record r' v' s' => r = r' ∧ v = v' ∧ s = s'
  | _, _ => False

/-- The first slice ends where the second one begins. -/
def adjacent (x y : Sl) : Prop := x.arr = y.arr ∧ x.off + x.len = y.off

end Poodle.Spec
