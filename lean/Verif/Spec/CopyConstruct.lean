import Verif.Model.CopyConstruct
import Verif.Spec.Decoded

/-
Specification of `CopyConstruct` of values that may contain decoded parts.
-/

namespace Poodle.Spec

/-- The key is not a decoded one. -/
def builtKey (k : Option KeyObj) : Prop := ∀ m, k ≠ some (.mapped m)

mutual
/-- Nothing in the value is decoded. -/
def built : CVal → Prop
  | .prim _ => True
  | .array es => builts es
  | .records rs => builtRecs rs
  | .simple _ _ => False
  | .std _ => False

/-- All of them. -/
def builts : List CVal → Prop
  | [] => True
  | v :: l => built v ∧ builts l

/-- An optional value. -/
def builtPart : Option CVal → Prop
  | none => True
  | some v => built v

/-- The same for a record. -/
def builtRec : CRec → Prop
  | .record key value scheme _ _ _ => builtKey key ∧ builtPart value ∧ builtPart scheme
  | .mapped _ => False

/-- All of them. -/
def builtRecs : List CRec → Prop
  | [] => True
  | r :: l => builtRec r ∧ builtRecs l
end

mutual
/-- `u` is `v` with every decoded value and record replaced by what it says, all of it being well formed, and every decoded key by one
with the same sub keys. -/
def rebuilt : CVal → CVal → Prop
  | .prim a, u => u = .prim a
  | .array es, u => ∃ l, u = .array l ∧ rebuilts es l
  | .records rs, u => ∃ l, u = .records l ∧ rebuiltRecs rs l
  | .simple c _, u => u = .prim (some c)
  | .std d, u => Reads u d

/-- Element by element. -/
def rebuilts : List CVal → List CVal → Prop
  | [], l => l = []
  | v :: l, m => ∃ v' l', m = v' :: l' ∧ rebuilt v v' ∧ rebuilts l l'

/-- An optional value. -/
def rebuiltPart : Option CVal → Option CVal → Prop
  | none, o => o = none
  | some v, o => ∃ v', o = some v' ∧ rebuilt v v'

/-- The same for records. -/
def rebuiltRec : CRec → CRec → Prop
  | .record k v s t a b, c => ∃ k' v' s', c = .record k' v' s' t a b ∧ builtKey k' ∧ k'.map KeyObj.subKeys = k.map KeyObj.subKeys ∧
      rebuiltPart v v' ∧ rebuiltPart s s'
  | .mapped r, c => ReadsRec c r

/-- Element by element. -/
def rebuiltRecs : List CRec → List CRec → Prop
  | [], l => l = []
  | r :: l, m => ∃ r' l', m = r' :: l' ∧ rebuiltRec r r' ∧ rebuiltRecs l l'
end

/-- A key without empty sub keys. -/
def fullKey (k : Option KeyObj) : Prop := ∀ c, k = some c → ∀ s ∈ c.subKeys, s.bytes ≠ []

mutual
/-- No key with an empty sub key in the records of a value. -/
def fullKeys : CVal → Prop
  | .array es => fullKeysVals es
  | .records rs => fullKeysRecs rs
  | .prim _ => True
  | .simple _ _ => True
  | .std _ => True

/-- All of them. -/
def fullKeysVals : List CVal → Prop
  | [] => True
  | v :: l => fullKeys v ∧ fullKeysVals l

/-- An optional value. -/
def fullKeysPart : Option CVal → Prop
  | none => True
  | some v => fullKeys v

/-- The same for a record. -/
def fullKeysRec : CRec → Prop
  | .record key value scheme _ _ _ => fullKey key ∧ fullKeysPart value ∧ fullKeysPart scheme
  | .mapped _ => True

/-- All of them. -/
def fullKeysRecs : List CRec → Prop
  | [] => True
  | r :: l => fullKeysRec r ∧ fullKeysRecs l
end

end Poodle.Spec
