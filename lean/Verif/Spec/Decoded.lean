import Verif.Spec.ValueAccess

/-
Specification of what a decoded value stands for: everything in it read at once, without caches.
-/

namespace Poodle.Spec

mutual
/-- All of the decoded value `d` is well formed, and `u` is what it says. -/
def Reads : CVal → StdValue → Prop
  | .prim s, d => d.kind = .prim ∧ s = some d.content
  | .array us, d => d.kind = .array ∧ us.length = d.size ∧ ReadsVals us d.content 0
  | .records us, d => d.kind = .records ∧ us.length = d.size ∧ ReadsRecs us d.content 0
  | .simple _ _, _ => False
  | .std _, _ => False

/-- The values of an encoded sequence, from the `i`-th on. -/
def ReadsVals : List CVal → Bytes → Nat → Prop
  | [], _, _ => True
  | u :: us, c, i => (∃ e, elemOf decodeStd c i = .ok e ∧ Reads u e) ∧ ReadsVals us c (i + 1)

/-- An optional value. -/
def ReadsPart : Option CVal → StdValue → Prop
  | none, _ => False
  | some u, d => Reads u d

/-- The same for a decoded record; its key is empty. -/
def ReadsRec : CRec → RecInfo → Prop
  | .record k v s t a b, r => k = some (.key newKey) ∧ ReadsPart v r.value ∧ ReadsPart s r.scheme ∧ t = r.timestamp ∧
      a = r.signature.map Prod.fst ∧ b = r.signature.map Prod.snd
  | .mapped _, _ => False

/-- The records of an encoded sequence, from the `i`-th on. -/
def ReadsRecs : List CRec → Bytes → Nat → Prop
  | [], _, _ => True
  | u :: us, c, i => (∃ e, elemOf decodeRecord c i = .ok e ∧ ReadsRec u e) ∧ ReadsRecs us c (i + 1)
end

end Poodle.Spec
