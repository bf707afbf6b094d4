import Verif.Model.Value

/-
Specification of the wire format of values, and of sizes of constructed values.
-/

namespace Poodle.Spec

/-- An optional big endian number of one or two bytes, as announced by two bits of a magic byte. -/
inductive IsCount : UInt8 → Option Nat → Bytes → Prop
  | none : IsCount 0 none []
  | one (b : UInt8) : IsCount 1 (some b.toNat) [b]
  | two (hi lo : UInt8) : IsCount 2 (some (hi.toNat * 256 + lo.toNat)) [hi, lo]

/-- `w` is a value of the given kind, element count and content: a magic byte, the element count of a value array (bits 7-6), the
element count of a record list (bits 5-4), the content length (bits 1-0) and the content; bits 3 and 2 are zero. -/
inductive IsStdWire : Bytes → VKind → Nat → Bytes → Prop
  | prim (m : UInt8) (len : Option Nat) (l content : Bytes) :
      (m >>> 6) &&& 3 = 0 → (m >>> 4) &&& 3 = 0 → m &&& 12 = 0 → IsCount (m &&& 3) len l → content.length = len.getD 0 →
      IsStdWire (m :: (l ++ content)) .prim 0 content
  | array (m : UInt8) (size : Nat) (len : Option Nat) (c l content : Bytes) :
      IsCount ((m >>> 6) &&& 3) (some size) c → (m >>> 4) &&& 3 = 0 → m &&& 12 = 0 → IsCount (m &&& 3) len l →
      content.length = len.getD 0 → IsStdWire (m :: (c ++ l ++ content)) .array size content
  | records (m : UInt8) (size : Nat) (len : Option Nat) (c l content : Bytes) :
      (m >>> 6) &&& 3 = 0 → IsCount ((m >>> 4) &&& 3) (some size) c → m &&& 12 = 0 → IsCount (m &&& 3) len l →
      content.length = len.getD 0 → IsStdWire (m :: (c ++ l ++ content)) .records size content

/-! ### Constructed values -/

mutual
/-- Built from primitives and value arrays only. -/
def isPlain : CVal → Bool
  | .prim _ => true
  | .array es => allPlain es
  | _ => false

/-- All of them are plain. -/
def allPlain : List CVal → Bool
  | [] => true
  | v :: l => isPlain v && allPlain l
end

mutual
/-- No primitive holding a nil slice anywhere. -/
def noNil : CVal → Bool
  | .prim none => false
  | .prim (some _) => true
  | .array es => allNoNil es
  | _ => true

/-- None of them contains a nil primitive. -/
def allNoNil : List CVal → Bool
  | [] => true
  | v :: l => noNil v && allNoNil l
end

/-- Bytes needed for a length or count field. -/
def fieldSize (n : Nat) : Nat := if n = 0 then 0 else if n < 256 then 1 else 2

mutual
/-- The number of bytes a plain value needs. -/
def wireSize : CVal → Nat
  | .prim none => 0
  | .prim (some d) => 1 + fieldSize d.length + d.length
  | .array es => 1 + fieldSize es.length + fieldSize (wireSizes es) + wireSizes es
  | _ => 0

/-- The number of bytes several plain values need. -/
def wireSizes : List CVal → Nat
  | [] => 0
  | v :: l => wireSize v + wireSizes l
end

mutual
/-- Every payload and every element count fits 16 bits. -/
def fits16 : CVal → Bool
  | .prim none => true
  | .prim (some d) => d.length < 65536
  | .array es => es.length < 65536 && wireSizes es < 65536 && allFit16 es
  | _ => false

/-- All of them fit. -/
def allFit16 : List CVal → Bool
  | [] => true
  | v :: l => fits16 v && allFit16 l
end

/-- The value at an index path of a constructed value. -/
def pathAt : CVal → List Nat → Option CVal
  | v, [] => some v
  | .array es, i :: p =>
    match es[i]? with
    | some e => pathAt e p
    | none => none
  | _, _ :: _ => none

end Poodle.Spec
