import Verif.Model.LoadedNodes
import Verif.Spec.KeyWire
import Verif.Spec.Map

/-
Specification of trie nodes that are loaded one by one: which bytes name a node below another one, and what the nodes have as children
after a history of calls.
-/

namespace Poodle.Spec
open Poodle

/-- `buf` starts with the number `v`, which is at most that of the bytes behind it (or so large that the sum overflows), and `rest` follows.
Where nothing is left, 0 is read. -/
inductive WireNumber : Bytes → Nat → Bytes → Prop
  | absent : WireNumber [] 0 []
  | present (p rest : Bytes) (v : Nat) : IsUvarint p v → p.length ≤ 10 → v < 2 ^ 64 → (v ≤ rest.length ∨ 2 ^ 63 ≤ p.length + v) →
      WireNumber (p ++ rest) v rest

/-- The bytes of a node without content. -/
def BlankBytes (buf : Bytes) : Prop := ∃ rest, WireNumber buf 0 rest

/-- The bytes of a node with the key `key` below the one at offset `po`: a mark, the key, the offset, and a value. -/
def EntryBytes (buf key : Bytes) (po : Nat) : Prop :=
  ∃ mark b1 b2 b3 d rest, WireNumber buf mark b1 ∧ mark ≠ 0 ∧ WireString b1 key b2 ∧ key ≠ [] ∧ WireNumber b2 po b3 ∧ WireString b3 d rest

/-- A loaded node: its bytes and offset, the parent it was given, and its children by key (a copy has none). -/
structure ALoaded where
  bytes : Bytes
  offset : Nat
  given : Option Nat
  kids : Option (FMap Bytes Nat)

/-- The loaded nodes and those that are known by offset. -/
structure ATable where
  nodes : List ALoaded
  known : Nat → Option Nat

/-- With another node. -/
def ATable.push (s : ATable) (a : ALoaded) : ATable := { s with nodes := s.nodes ++ [a] }

/-- With a node known at an offset. -/
def ATable.know (s : ATable) (offset n : Nat) : ATable := { s with known := fun o => if o = offset then some n else s.known o }

/-- With the node `n` as child of `p`. -/
def ATable.adopt (s : ATable) (p : Nat) (key : Bytes) (n : Nat) : ATable :=
  { s with nodes := s.nodes.modify p fun a => { a with kids := a.kids.map fun f => f.put compare key n } }

/-- The bytes of node `n` name the key `key` below the node `p`. -/
def ATable.Names (s : ATable) (n : Nat) (key : Bytes) (p : Nat) : Prop :=
  ∃ a po, s.nodes[n]? = some a ∧ EntryBytes a.bytes key po ∧ s.known (po % 2 ^ 32) = some p

/-- What reading the bytes of the node `n` does: if they name a place, it is put there and known from then on; otherwise nothing. -/
inductive ATable.Read (s : ATable) (n : Nat) : ATable → Prop
  | entry (a : ALoaded) (key : Bytes) (p : Nat) : s.nodes[n]? = some a → s.Names n key p → ATable.Read s n ((s.adopt p key n).know a.offset n)
  | other : (¬ ∃ key p, s.Names n key p) → ATable.Read s n s

/-- A completed call turns `s` into `s'`. -/
def ATable.Completes (s : ATable) (o : LOp) (s' : ATable) : Prop :=
  match o with
  | .load parent buf offset => (s.push ⟨buf, offset, parent, some FMap.empty⟩).Read s.nodes.length s'
  | .know offset n => s' = s.know offset n
  | .again n => s.Read n s'
  | .copy n => ∃ a, s.nodes[n]? = some a ∧ (s.push ⟨a.bytes, a.offset, none, none⟩).Read s.nodes.length s'
  | .unsupported _ => False

/-- Histories: a call that does not complete changes nothing. -/
inductive ATable.Runs : ATable → List LOp → List (Res Unit) → ATable → Prop
  | nil (s) : Runs s [] [] s
  | fail (s o os r rs s') : r ≠ .ok () → Runs s os rs s' → Runs s (o :: os) (r :: rs) s'
  | ok (s s1 o os rs s') : ATable.Completes s o s1 → Runs s1 os rs s' → Runs s (o :: os) (.ok () :: rs) s'

/-- The keys at which asking about `k` may panic: those that strictly continue it. -/
def Continued (f : FMap Bytes Nat) (k : Bytes) : Prop := ∃ e, (f e).isSome ∧ k <+: e ∧ k ≠ e

/-- What a node answers about its children. -/
def KidsAnswer (t : LNode) : Option (FMap Bytes Nat) → Prop
  | none => t.getChildren = .ok none ∧ t.childSize = .ok 0 ∧ ∀ k, t.getChild k = .ok none
  | some f => (∃ l, t.getChildren = .ok (some l) ∧ t.childSize = .ok l.length ∧ Increasing compare l ∧ ∀ k c, (k, c) ∈ l ↔ f k = some c) ∧
      ∀ k, (∀ c, t.getChild k = .ok c → c ≠ none ∧ f k = c) ∧ t.getChild k ≠ .err ∧
        (¬ Continued f k → ∀ c, f k = some c → t.getChild k = .ok (some c))

/-- What a node answers: its bytes and its offset always; all the rest only if it is without content. -/
def NodeAnswers (t : LNode) (a : ALoaded) : Prop :=
  t.fixed = (a.bytes, a.bytes.length, true, a.offset) ∧
  (BlankBytes a.bytes → t.isDecoded = true ∧ t.key = .ok none ∧ t.value = .ok none ∧ t.getParent = .ok a.given ∧ KidsAnswer t a.kids) ∧
  (¬ BlankBytes a.bytes → t.isDecoded = false ∧ t.key = .panic ∧ t.value = .panic ∧ t.getParent = .panic ∧ t.getChildren = .panic ∧
    t.childSize = .panic ∧ ∀ k, t.getChild k = .panic)

/-- The bytes given to a call fit into memory. -/
def _root_.Poodle.LOp.Fits : LOp → Prop
  | .load _ buf _ => buf.length < 2 ^ 63
  | _ => True

/-- No node. -/
def ATable.start : ATable := ⟨[], fun _ => none⟩

end Poodle.Spec
