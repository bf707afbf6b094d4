import Verif.Model.Value

/-
Specification of what the encodings of values and records distinguish.
-/

namespace Poodle.Spec
open Poodle

mutual
/-- What an encoded value shows: an empty value, bytes, a number of elements and those of them that are not nil, or records. -/
inductive Shown where
  | empty
  | bytes (d : Bytes)
  | array (count : Nat) (elems : List Shown)
  | records (recs : List ShownRec)

/-- What an encoded record shows: the sub keys, the value, the scheme, the time modulo 2^64, and the two halves of the signature as 256-bit
numbers, each of them if it is there. -/
inductive ShownRec where
  | mk (key : Option (List Bytes)) (value scheme : Option Shown) (time : Option Nat) (signature : Option (Nat × Nat))
end

/-- The sub keys, if there are any. -/
def shownKey : Option KeyObj → Option (List Bytes)
  | some (.key k) => if k.keys = [] then none else some (k.keys.map Slice.bytes)
  | _ => none

/-- Two numbers of 256 bits, if there are a time and both numbers. -/
def shownSignature : Option Int → Option Int → Option Int → Option (Nat × Nat)
  | some _, some r, some s => some (r.natAbs % 2 ^ 256, s.natAbs % 2 ^ 256)
  | _, _, _ => none

mutual
/-- What is seen of a constructed value; nothing of a nil primitive. -/
def shownVal : CVal → Option Shown
  | .prim none => none
  | .prim (some d) => some (if d = [] then .empty else .bytes d)
  | .array es => some (if es = [] then .empty else .array es.length (showns es))
  | .records rs => some (if rs = [] then .empty else .records (shownRecs rs))
  | .simple _ _ => none
  | .std _ => none

/-- The elements that are not nil. -/
def showns : List CVal → List Shown
  | [] => []
  | v :: l => (shownVal v).toList ++ showns l

/-- A value or scheme of a record, if there is one and it is not empty. -/
def shownPart : Option CVal → Option Shown
  | none => none
  | some v => if v.isNil then none else shownVal v

/-- What is seen of a constructed record. -/
def shownRec : CRec → ShownRec
  | .record key value scheme t r s =>
    .mk (shownKey key) (shownPart value) (shownPart scheme) (t.map fun t => (t % 2 ^ 64).toNat) (shownSignature t r s)
  | .mapped _ => .mk none none none none none

/-- What is seen of a list of records. -/
def shownRecs : List CRec → List ShownRec
  | [] => []
  | r :: l => shownRec r :: shownRecs l
end

/-- The key is none, or empty, or a constructed one. -/
def ownKey : Option KeyObj → Bool
  | some (.mapped _) => false
  | _ => true

mutual
/-- No key in the value is a decoded one. -/
def ownKeys : CVal → Bool
  | .array es => ownKeysAll es
  | .records rs => ownKeysRecs rs
  | _ => true

/-- No key in the values is a decoded one. -/
def ownKeysAll : List CVal → Bool
  | [] => true
  | v :: l => ownKeys v && ownKeysAll l

/-- No key in the part of a record is a decoded one. -/
def ownKeysPart : Option CVal → Bool
  | none => true
  | some v => ownKeys v

/-- No key in the record is a decoded one. -/
def ownKeysRec : CRec → Bool
  | .record key value scheme _ _ _ => ownKey key && ownKeysPart value && ownKeysPart scheme
  | .mapped _ => true

/-- No key in the records is a decoded one. -/
def ownKeysRecs : List CRec → Bool
  | [] => true
  | r :: l => ownKeysRec r && ownKeysRecs l
end

end Poodle.Spec
