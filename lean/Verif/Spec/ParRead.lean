import Verif.Model.ParRead
import Verif.Spec.ValueAccess

/- Specification for calls by several goroutines. -/

namespace Poodle.Spec

/-- The element of an object that a call is about to access, and whether it writes it. -/
def nextAccess (t : ReadTask) : Option (Nat × Nat × Bool) :=
  match t.pc with
  | .check | .hit | .last => some (t.id, t.idx, false)
  | .test i _ | .advance i _ => some (t.id, i, false)
  | .store i _ _ => some (t.id, i, true)
  | .done _ => none

/-- A data race: two calls are about to access the same element, and one of them writes it. -/
def Racing (w : ReadWorld) : Prop :=
  ∃ (j k : Nat) (t u : ReadTask) (id i : Nat) (b : Bool), j ≠ k ∧ w.tasks[j]? = some t ∧ w.tasks[k]? = some u ∧ nextAccess t = some (id, i, true) ∧ nextAccess u = some (id, i, b)

/-- What is to be read: a value or a record with its value and scheme. -/
abbrev Element := StdValue ⊕ RecInfo

/-- The element that starts with the first byte, as a function of the bytes. -/
def decodeElement (record : Bool) (c : Bytes) : Res (Element × Nat) :=
  if record then (do let (r, n) ← decodeRecord c; .ok (.inr r, n)) else (do let (d, n) ← decodeStd c; .ok (.inl d, n))

/-- Object `p` shows the element. -/
def ShowsElement (h : Heap) (p : Nat) : Element → Prop
  | .inl d => ∃ sl, h[p]? = some (.val d sl)
  | .inr r => ∃ (v s : Nat) (sl sl' : List Slot), h[p]? = some (.record r v s) ∧ h[v]? = some (.val r.value sl) ∧ h[s]? = some (.val r.scheme sl')

/-- Call `k` has ended with this result. -/
def Ended (w : ReadWorld) (k : Nat) (record : Bool) (id idx : Nat) (r : Res Slot) : Prop :=
  w.tasks[k]? = some ⟨record, id, idx, .done r⟩

/-- Object `id` is an array, or a list of records, of which element `idx` is in range and well formed. -/
def GoodCall (h : Heap) (record : Bool) (id idx : Nat) (e : Element) : Prop :=
  ∃ d sl, h[id]? = some (.val d sl) ∧ d.kind = (if record then .records else .array) ∧ idx < d.size ∧
    elemOf (decodeElement record) d.content idx = .ok e

/-- How often call `k` was given a step. -/
def stepsOf (k : Nat) (l : List ReadEvent) : Nat := l.countP (fun e => e = .step k)

/-- The result of a call, as an interface. -/
def asSlot : Res (Option Nat) → Res Slot
  | .ok (some p) => .ok (.obj p)
  | .ok none => .ok .typedNil
  | .err => .err
  | .panic => .panic

/-- The call made alone, by the model of single calls. -/
def callAlone (h : Heap) (record : Bool) (id idx : Nat) : Heap × Res (Option Nat) :=
  if record then h.recordAt id idx else h.valueAt id idx

end Poodle.Spec
