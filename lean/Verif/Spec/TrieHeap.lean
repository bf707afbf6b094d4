import Verif.Model.TrieHeap
import Verif.Spec.Map
import Verif.Spec.Codec

/-
Specification of trie nodes as objects that are linked by the caller.
-/

namespace Poodle.Spec
variable {α : Type}

/-- A node: what it was created with, its value, its children by key, its offset, and the bytes of the last `Encode`. -/
structure ANode (α : Type) where
  parent : Option Nat
  key : Slice
  data : Option α
  kids : FMap Bytes Nat
  offset : UInt32
  buf : Option Bytes

/-- The bytes of a node: key, offset of the parent, value, number of children. -/
inductive NodeBytes (key : Bytes) (offset : Nat) (value : Bytes) (size : Nat) : Bytes → Prop
  | intro (p q r : Bytes) : IsUvarint p key.length → IsUvarint q offset → IsUvarint r size →
      NodeBytes key offset value size (p ++ key ++ q ++ value ++ r)

/-- What a completed call other than `Encode` does to the nodes. -/
def ANode.step (s : List (ANode α)) : TOp α → List (ANode α)
  | .new parent k d => s ++ [⟨parent, if parent = none then none else k, d, FMap.empty, 0, none⟩]
  | .put n k c => s.modify n fun a => { a with kids := a.kids.put compare k c }
  | .remove n k => s.modify n fun a => { a with kids := a.kids.remove compare k }
  | .setValue n d => s.modify n fun a => { a with data := d }
  | .setOffset n o => s.modify n fun a => { a with offset := o }
  | .encode _ => s
  | .copy n => match s[n]? with
    | none => s
    | some a => s ++ [{ a with offset := 0, buf := none }]

/-- A completed call turns the nodes `s` into `s'`. -/
def ANode.Completes (enc : α → Res Bytes) (s : List (ANode α)) (o : TOp α) (s' : List (ANode α)) : Prop :=
  match o with
  | .encode n => ∃ a pi p d b size bytes, s[n]? = some a ∧ a.parent = some pi ∧ s[pi]? = some p ∧ a.data = some d ∧ enc d = .ok b ∧
      a.kids.HasSize compare size ∧ NodeBytes a.key.bytes p.offset.toNat b size bytes ∧
      s' = s.set n { a with buf := some bytes }
  | o => s' = ANode.step s o

/-- Histories: a call that does not complete changes nothing. -/
inductive ANode.Runs (enc : α → Res Bytes) : List (ANode α) → List (TOp α) → List (Res Unit) → List (ANode α) → Prop
  | nil (s) : Runs enc s [] [] s
  | fail (s o os r rs s') : r ≠ .ok () → Runs enc s os rs s' → Runs enc s (o :: os) (r :: rs) s'
  | ok (s s1 o os rs s') : ANode.Completes enc s o s1 → Runs enc s1 os rs s' → Runs enc s (o :: os) (.ok () :: rs) s'

/-- A key of a child that strictly continues `k`: the comparison with it panics. -/
def Blocked (a : ANode α) (k : Bytes) : Prop := ∃ e, (a.kids e).isSome ∧ k <+: e ∧ k ≠ e

/-- The node a call is made on, as far as it may change it. -/
def _root_.Poodle.TOp.target : TOp α → Option Nat
  | .new _ _ _ => none
  | .put n _ _ => some n
  | .remove n _ => some n
  | .setValue n _ => some n
  | .setOffset n _ => some n
  | .encode n => some n
  | .copy _ => none

end Poodle.Spec
