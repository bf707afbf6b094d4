import Verif.Model.ObjCopy
import Mathlib.Logic.Relation

/-
Specification for objects that refer to each other: what an object contains, histories of calls.
-/

namespace Poodle.Spec
open Poodle

/-- A key without its encoding and size estimate. -/
def bareKey : KeyObj → KeyObj
  | .key k => .key { encoded := false, keys := k.keys, buf := none, estBufSize := 0 }
  | k => k

/-- What an object contains: a value or a record. -/
abbrev Content := CVal ⊕ CRec

/-- The encoding of what an object contains. -/
def contentEncode : Content → Res Bytes
  | .inl v => v.encode
  | .inr r => r.encode

/-- An optional part, if it contains a value. -/
def unfoldPart (u : Nat → Option Content) : Option Nat → Option (Option CVal)
  | none => some none
  | some i => ((u i).bind Sum.getLeft?).map some

/-- All elements that have to be values, or records. -/
def unfoldAll {α : Type} (u : Nat → Option α) : List Nat → Option (List α)
  | [] => some []
  | i :: l => (u i).bind fun a => (unfoldAll u l).map (a :: ·)

/-- What an object contains, provided that references are nested no deeper than the first argument. -/
def unfold : Nat → VHeap → Nat → Option Content
  | 0, _, _ => none
  | f + 1, h, i =>
    match h[i]? with
    | none => none
    | some (.prim d _ _) => some (.inl (.prim d))
    | some (.array l _ _ _) => (unfoldAll (fun j => (unfold f h j).bind Sum.getLeft?) l).map (.inl <| .array ·)
    | some (.list l _ _ _) => (unfoldAll (fun j => (unfold f h j).bind Sum.getRight?) l).map (.inl <| .records ·)
    | some (.record r) =>
      (unfoldPart (unfold f h) r.value).bind fun v =>
        (unfoldPart (unfold f h) r.scheme).map fun s => .inr (.record (r.key.map bareKey) v s r.timestamp r.sigR r.sigS)
    | some (.mappedSimple c b) => some (.inl (.simple c b))
    | some (.mappedStd d) => some (.inl (.std d))
    | some (.mappedRec r) => some (.inr (.mapped r))

/-- Object `i` contains `c`. -/
def Contains (h : VHeap) (i : Nat) (c : Content) : Prop := ∃ f, unfold f h i = some c

/-- The objects that an object refers to. -/
def VNode.refs : VNode → List Nat
  | .array l _ _ _ => l
  | .list l _ _ _ => l
  | .record r => r.value.toList ++ r.scheme.toList
  | _ => []

/-- Object `j` is an element, the value or the scheme of object `i`. -/
def Refers (h : VHeap) (i j : Nat) : Prop := ∃ n, h[i]? = some n ∧ j ∈ VNode.refs n

/-- Object `j` is object `i` or nested in it. -/
def Inside (h : VHeap) : Nat → Nat → Prop := Relation.ReflTransGen (Refers h)

/-- Object `j` is nested in object `i`. -/
def StrictlyInside (h : VHeap) : Nat → Nat → Prop := Relation.TransGen (Refers h)

/-- The object is a primitive, value array, record list or record made by the program, not one mapped to a buffer. -/
def VNode.constructed : VNode → Bool
  | .mappedSimple _ _ => false
  | .mappedStd _ => false
  | .mappedRec _ => false
  | _ => true

/-- A call. -/
inductive VOp where
  | new (o : NewObj)
  | append (id i : Nat)
  | deleteAt (id idx : Nat)
  | setKey (id : Nat) (k : KeyObj)
  | setValue (id i : Nat)
  | setScheme (id i : Nat)
  | setTimestamp (id : Nat) (t : Option Int)
  | setSignature (id : Nat) (r s : Option Int)
  | encode (id depth : Nat)
  | copy (id depth : Nat)

/-- The effect of a call. -/
def VOp.run (h : VHeap) : VOp → VHeap
  | .new o => h ++ [o.node]
  | .append id i => h.append id i
  | .deleteAt id idx => (h.deleteAt id idx).1
  | .setKey id k => h.setKey id k
  | .setValue id i => h.setValue id i
  | .setScheme id i => h.setScheme id i
  | .setTimestamp id t => h.setTimestamp id t
  | .setSignature id r s => h.setSignature id r s
  | .encode id depth => (h.encode depth id).1
  | .copy id depth => (h.copy depth id).1

/-- The object that a call changes: not the one a call of `Encode` encodes. -/
def VOp.changes : VOp → Option Nat
  | .new _ => none
  | .append id _ => some id
  | .deleteAt id _ => some id
  | .setKey id _ => some id
  | .setValue id _ => some id
  | .setScheme id _ => some id
  | .setTimestamp id _ => some id
  | .setSignature id _ _ => some id
  | .encode _ _ => none
  | .copy _ _ => none

/-- The objects after a history of calls. -/
def valueHistory (ops : List VOp) : VHeap := ops.foldl VOp.run []

/-- The object is encoded, and `Buf()` is the encoding of what it contains. -/
def Current (h : VHeap) (i : Nat) : Prop :=
  ∃ n c w, h[i]? = some n ∧ Contains h i c ∧ contentEncode c = .ok w ∧ n.isEncoded = true ∧ n.getBuf = .ok w

end Poodle.Spec
