import Verif.Model.ValueCopy
import Verif.Spec.Codec

/-
Specification of copies of values and records.
-/

namespace Poodle.Spec

/-- A key that can occur in a program: mapped keys come from decoding. -/
def realKey (k : Option KeyObj) : Prop := ∀ m, k = some (.mapped m) → ∃ buf n, newMappedKey buf = .ok (m, n)

/-- A key without empty sub keys, unless it was decoded. -/
def copyableKey (k : Option KeyObj) : Prop := ∀ c, k = some (.key c) → ∀ s ∈ c.keys, s.bytes ≠ []

/-- A decoded record whose key count ends within the bytes of the record. -/
def copyableRec (r : RecInfo) : Prop := ∃ p q, r.buf.drop 1 = p ++ q ∧ IsUvarint p 0 ∧ p.length ≤ 10

mutual
/-- A value that can occur in a program: mapped values, records and keys come from decoding. -/
def realVal : CVal → Prop
  | .prim _ => True
  | .array es => realVals es
  | .records rs => realRecs rs
  | .simple content buf => ∃ b n, b.length < 2 ^ 63 ∧ decodeSimple b = .ok (content, buf, n)
  | .std d => ∃ b n, decodeStd b = .ok (d, n)

/-- All of them are real. -/
def realVals : List CVal → Prop
  | [] => True
  | v :: l => realVal v ∧ realVals l

/-- An optional value is real. -/
def realPart : Option CVal → Prop
  | none => True
  | some v => realVal v

/-- A record that can occur in a program. -/
def realRec : CRec → Prop
  | .record key value scheme _ _ _ => realKey key ∧ realPart value ∧ realPart scheme
  | .mapped r => ∃ b n, b.length < 2 ^ 63 ∧ decodeRecord b = .ok (r, n)

/-- All of them are real. -/
def realRecs : List CRec → Prop
  | [] => True
  | r :: l => realRec r ∧ realRecs l
end

mutual
/-- No key with an empty sub key, and no decoded record with a key count that reaches beyond the record, anywhere. -/
def copyable : CVal → Prop
  | .prim _ => True
  | .array es => copyables es
  | .records rs => copyableRecs rs
  | .simple _ _ => True
  | .std _ => True

/-- All of them. -/
def copyables : List CVal → Prop
  | [] => True
  | v :: l => copyable v ∧ copyables l

/-- An optional value. -/
def copyablePart : Option CVal → Prop
  | none => True
  | some v => copyable v

/-- The same for a record. -/
def copyableR : CRec → Prop
  | .record key value scheme _ _ _ => copyableKey key ∧ copyablePart value ∧ copyablePart scheme
  | .mapped r => copyableRec r

/-- All of them. -/
def copyableRecs : List CRec → Prop
  | [] => True
  | r :: l => copyableR r ∧ copyableRecs l
end

/-- Equal up to the bytes that a decoded key keeps from behind its record. -/
def SameMapped (r c : RecInfo) : Prop :=
  c.buf = r.buf ∧ c.key.keys = r.key.keys ∧ c.value = r.value ∧ c.scheme = r.scheme ∧ c.timestamp = r.timestamp ∧
    c.signature = r.signature

mutual
/-- The same shape and the same contents; constructed keys are compared by their sub keys. -/
def sameVal : CVal → CVal → Prop
  | .prim a, v => v = .prim a
  | .array es, v => ∃ l, v = .array l ∧ sameVals es l
  | .records rs, v => ∃ l, v = .records l ∧ sameRecs rs l
  | .simple c b, v => v = .simple c b
  | .std d, v => v = .std d

/-- Element by element. -/
def sameVals : List CVal → List CVal → Prop
  | [], l => l = []
  | v :: l, m => ∃ v' l', m = v' :: l' ∧ sameVal v v' ∧ sameVals l l'

/-- The same optional value. -/
def samePart : Option CVal → Option CVal → Prop
  | none, o => o = none
  | some v, o => ∃ v', o = some v' ∧ sameVal v v'

/-- The same contents of records. -/
def sameRec : CRec → CRec → Prop
  | .record k v s t a b, c => ∃ k' v' s', c = .record k' v' s' t a b ∧ k'.map KeyObj.subKeys = k.map KeyObj.subKeys ∧
      samePart v v' ∧ samePart s s'
  | .mapped r, c => ∃ r', c = .mapped r' ∧ SameMapped r r'

/-- Element by element. -/
def sameRecs : List CRec → List CRec → Prop
  | [], l => l = []
  | r :: l, m => ∃ r' l', m = r' :: l' ∧ sameRec r r' ∧ sameRecs l l'
end

end Poodle.Spec
