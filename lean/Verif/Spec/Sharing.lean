import Verif.Model.Sharing

/-
Specification of the sharing of bytes: what objects show of the memory, and which bytes they depend on.
-/

namespace Poodle.Spec

/-- The slice contains position `i` of the array `a`. -/
def covers (s : Sl) (a i : Nat) : Prop := s.arr = a ∧ s.off ≤ i ∧ i < s.off + s.len

/-- The slice lies in an array of the memory. -/
def inside (m : Mem) (s : Sl) : Prop := ∃ l, m[s.arr]? = some l ∧ s.off + s.len ≤ l.length

/-- All of them do. -/
def AllIn (m : Mem) (l : List Sl) : Prop := ∀ s ∈ l, inside m s

/-- The byte at position `i` of the array `a`. -/
def byteAt (m : Mem) (a i : Nat) : Option UInt8 := (m[a]?.getD [])[i]?

/-- Several assignments: array, position, byte. -/
def writes (m : Mem) (l : List (Nat × Nat × UInt8)) : Mem := l.foldl (fun m w => m.write w.1 w.2.1 w.2.2) m

/-! ### What an object shows -/

/-- A decoded key. -/
def viewMapped (m : Mem) (k : SMapped) : MappedKey := { keys := k.keys.map m.get, buf := m.read k.buf }

/-- A constructed key. -/
def viewK (m : Mem) (k : SKey) : Key := { encoded := k.encoded, keys := k.keys.map m.get, buf := m.get k.buf, estBufSize := k.estBufSize }

/-- A key. -/
def viewKey (m : Mem) : SKeyObj → KeyObj
  | .empty => .empty
  | .mapped k => .mapped (viewMapped m k)
  | .key k => .key (viewK m k)

/-- A decoded value. -/
def viewStd (m : Mem) (d : SStd) : StdValue := { buf := m.read d.buf, kind := d.kind, size := d.size, content := m.read d.content }

/-- A decoded record. -/
def viewInfo (m : Mem) (r : SRecInfo) : RecInfo :=
  { buf := m.read r.buf, key := viewMapped m r.key, value := viewStd m r.value, scheme := viewStd m r.scheme, timestamp := r.timestamp,
    signature := r.signature }

mutual
/-- A value. -/
def viewVal (m : Mem) : SVal → CVal
  | .prim s => .prim (m.get s)
  | .array l => .array (viewVals m l)
  | .records l => .records (viewRecs m l)
  | .simple c b => .simple (m.read c) (m.read b)
  | .std d => .std (viewStd m d)

/-- All of them. -/
def viewVals (m : Mem) : List SVal → List CVal
  | [] => []
  | v :: l => viewVal m v :: viewVals m l

/-- An optional value. -/
def viewPart (m : Mem) : Option SVal → Option CVal
  | none => none
  | some v => some (viewVal m v)

/-- A record. -/
def viewRec (m : Mem) : SRec → CRec
  | .record k v s t a b => .record (k.map (viewKey m)) (viewPart m v) (viewPart m s) t a b
  | .mapped r => .mapped (viewInfo m r)

/-- All of them. -/
def viewRecs (m : Mem) : List SRec → List CRec
  | [] => []
  | r :: l => viewRec m r :: viewRecs m l
end

/-- A scheme. -/
def viewScheme (m : Mem) (s : SScheme) : Scheme :=
  { domain := m.get s.domain, tablet := m.get s.tablet, buckets := s.buckets.map fun l => l.map m.get }

/-! ### The slices of an object -/

/-- The slices that are not nil. -/
def slicesIn : List (Option Sl) → List Sl
  | [] => []
  | none :: l => slicesIn l
  | some s :: l => s :: slicesIn l

/-- Of a decoded key. -/
def slicesMapped (k : SMapped) : List Sl := slicesIn k.keys ++ [k.buf]

/-- Of a key. -/
def slicesKey : SKeyObj → List Sl
  | .empty => []
  | .mapped k => slicesMapped k
  | .key k => slicesIn k.keys ++ slicesIn [k.buf]

/-- Of an optional key. -/
def slicesKeyPart : Option SKeyObj → List Sl
  | none => []
  | some k => slicesKey k

/-- Of a decoded value. -/
def slicesStd (d : SStd) : List Sl := [d.buf, d.content]

/-- Of a decoded record. -/
def slicesInfo (r : SRecInfo) : List Sl := r.buf :: (slicesMapped r.key ++ slicesStd r.value ++ slicesStd r.scheme)

mutual
/-- Of a value. -/
def slicesVal : SVal → List Sl
  | .prim s => slicesIn [s]
  | .array l => slicesVals l
  | .records l => slicesRecs l
  | .simple c b => [c, b]
  | .std d => slicesStd d

/-- Of all of them. -/
def slicesVals : List SVal → List Sl
  | [] => []
  | v :: l => slicesVal v ++ slicesVals l

/-- Of an optional value. -/
def slicesPart : Option SVal → List Sl
  | none => []
  | some v => slicesVal v

/-- Of a record. -/
def slicesRec : SRec → List Sl
  | .record k v s _ _ _ => slicesKeyPart k ++ slicesPart v ++ slicesPart s
  | .mapped r => slicesInfo r

/-- Of all of them. -/
def slicesRecs : List SRec → List Sl
  | [] => []
  | r :: l => slicesRec r ++ slicesRecs l
end

/-- Of a scheme. -/
def slicesScheme (s : SScheme) : List Sl := slicesIn [s.domain, s.tablet] ++ slicesIn (s.buckets.getD [])

/-! ### What a copy has in common with its original -/

/-- The slices of a key that its `Copy` uses as well: the buffer of a decoded key, or the sub keys. -/
def keptKey : SKeyObj → List Sl
  | .empty => []
  | .mapped k => [k.buf]
  | .key k => slicesIn k.keys

/-- The same for `CopyConstruct`: the sub keys. -/
def subKeysOf : SKeyObj → List Sl
  | .empty => []
  | .mapped k => slicesIn k.keys
  | .key k => slicesIn k.keys

mutual
/-- The slices of keys in a value, given by `f` for each key of a constructed record. -/
def keysVal (f : SKeyObj → List Sl) : SVal → List Sl
  | .prim _ => []
  | .array l => keysVals f l
  | .records l => keysRecs f l
  | .simple _ _ => []
  | .std _ => []

/-- All of them. -/
def keysVals (f : SKeyObj → List Sl) : List SVal → List Sl
  | [] => []
  | v :: l => keysVal f v ++ keysVals f l

/-- An optional value. -/
def keysPart (f : SKeyObj → List Sl) : Option SVal → List Sl
  | none => []
  | some v => keysVal f v

/-- A record. -/
def keysRec (f : SKeyObj → List Sl) : SRec → List Sl
  | .record k v s _ _ _ => (k.map f).getD [] ++ keysPart f v ++ keysPart f s
  | .mapped _ => []

/-- All of them. -/
def keysRecs (f : SKeyObj → List Sl) : List SRec → List Sl
  | [] => []
  | r :: l => keysRec f r ++ keysRecs f l
end

/-- What `Copy` of a value uses as well. -/
def keptVal : SVal → List Sl := keysVal keptKey

/-- What `Copy` of a record uses as well. -/
def keptRec : SRec → List Sl := keysRec keptKey

/-- What `CopyConstruct` of a value uses as well. -/
def reusedVal : SVal → List Sl := keysVal subKeysOf

/-- What `CopyConstruct` of a record uses as well. -/
def reusedRec : SRec → List Sl := keysRec subKeysOf

end Poodle.Spec
