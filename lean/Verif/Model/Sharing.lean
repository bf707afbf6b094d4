import Verif.Model.Value
import Verif.Model.Scheme

/-
Model of which bytes the objects of /repo/src/util share: keys, values, records and schemes hold slices, which are windows into byte
arrays in memory.  Decoding, `Copy` and `CopyConstruct` of key_util.go, value_util.go, record_util.go and scheme_util.go, and `Encode`
of `Key`.

What the functions compute from the bytes is taken from the models of the same functions on byte strings; here is modelled where the
bytes of the results are.  Simplifications: the capacity of slices is left out (nothing is appended in place); the caches of decoded
arrays and lists are left out (their elements are windows into the content of the value); the fields `encoded` and `buf` of constructed
values and records are left out, as copies do not take them over.
-/

namespace Poodle

/-- A `[]byte` that is not nil: the array, where the slice begins in it, and its length.  (Go language; no file in /repo.) -/
structure Sl where
  arr : Nat
  off : Nat
  len : Nat
deriving DecidableEq, Repr

/-- All byte arrays.  (Go runtime; no file in /repo.) -/
abbrev Mem := List Bytes

/-- The bytes of a slice.  (Go language; no file in /repo.) -/
def Mem.read (m : Mem) (s : Sl) : Bytes := ((m[s.arr]?.getD []).drop s.off).take s.len

/-- The bytes of a slice that may be nil.  (Go language; no file in /repo.) -/
def Mem.get (m : Mem) (s : Option Sl) : Slice := s.map m.read

/-- Assignment of a byte, at position `i` of the array `a`.  (Go language; no file in /repo.) -/
def Mem.write (m : Mem) (a i : Nat) (b : UInt8) : Mem := m.set a ((m[a]?.getD []).set i b)

/-- `buf := make([]byte, len(x)); copy(buf, x)`, e.g. /repo/src/util/value_util.go:167-168, with the bytes of `x`. -/
def Mem.make (m : Mem) (l : Bytes) : Mem × Sl := (m ++ [l], { arr := m.length, off := 0, len := l.length })

/-- `s[lo : lo+len]`.  (Go language; no file in /repo.) -/
def Sl.sub (s : Sl) (lo len : Nat) : Sl := { arr := s.arr, off := s.off + lo, len := len }

/-- `s[lo:]`.  (Go language; no file in /repo.) -/
def Sl.rest (s : Sl) (lo : Nat) : Sl := { arr := s.arr, off := s.off + lo, len := s.len - lo }

/-! ### Keys -/

/-- `DecodeVarchar`, /repo/src/util/misc_util.go:112-130: the result is the last part of what was read (:129).  An empty result is a
window without bytes. -/
def varcharAt (m : Mem) (s : Sl) : Res (Sl × Nat) := do
  let (d, n) ← decodeVarchar (m.read s)
  .ok (s.sub (n - d.length) d.length, n)

/-- The sub key loop of `MappedKey.Decode`, /repo/src/util/key_util.go:231-237. -/
def subKeysAt (m : Mem) : Nat → Sl → Res (List (Option Sl) × Nat)
  | 0, _ => .ok ([], 0)
  | n + 1, s => do
    let (d, len) ← varcharAt m s
    let (ds, k) ← subKeysAt m n (s.rest len)
    .ok (some d :: ds, len + k)

/-- `MappedKey`, /repo/src/util/key_util.go:137-142. -/
structure SMapped where
  keys : List (Option Sl)
  buf : Sl
deriving DecidableEq, Repr

/-- `NewMappedKey` and `MappedKey.Decode`, /repo/src/util/key_util.go:147-157 and :219-242: the key keeps the buffer. -/
def mappedKeyAt (m : Mem) (s : Sl) : Res (SMapped × Nat) := do
  let (n, len) ← decodeUvarint64 (m.read s)
  if n > maxMake24 then .panic
  else do
    let (ks, k) ← subKeysAt m n (s.rest len)
    .ok ({ keys := ks, buf := s }, len + k)

/-- `Key`, /repo/src/util/key_util.go:351-356. -/
structure SKey where
  encoded : Bool
  keys : List (Option Sl)
  buf : Option Sl
  estBufSize : Nat
deriving DecidableEq, Repr

/-- The implementations of `IKey`, /repo/src/util/key_util.go:15-29. -/
inductive SKeyObj where
  | empty
  | mapped (k : SMapped)
  | key (k : SKey)
deriving DecidableEq, Repr

/-- `NewKey`, /repo/src/util/key_util.go:358-360. -/
def newSKey : SKey := { encoded := false, keys := [], buf := none, estBufSize := 1 }

/-- `Key.Add`, /repo/src/util/key_util.go:545-554: the slice handed in is kept. -/
def SKey.add (k : SKey) (s : Option Sl) : Res SKey :=
  if (s.map Sl.len).getD 0 = 0 then .panic
  else .ok { k with keys := k.keys ++ [s], estBufSize := k.estBufSize + (1 + (s.map Sl.len).getD 0) }

/-- The copy loop, /repo/src/util/key_util.go:257-259, :444-446, :455-457. -/
def addAllS (k : SKey) : List (Option Sl) → Res SKey
  | [] => .ok k
  | s :: ss => do
    let k' ← k.add s
    addAllS k' ss

/-- `Copy` of each implementation, /repo/src/util/key_util.go:81-83, :244-251, :440-449: a decoded key is decoded again from its own
buffer, and sub keys are kept. -/
def SKeyObj.copy (m : Mem) : SKeyObj → Res SKeyObj
  | .empty => .ok .empty
  | .mapped k => match mappedKeyAt m k.buf with
    | .ok (k', _) => .ok (.mapped k')
    | .err => .panic
    | .panic => .panic
  | .key k => do
    let k' ← addAllS newSKey k.keys
    .ok (.key k')

/-- `CopyConstruct` of each implementation, /repo/src/util/key_util.go:85-87, :253-262, :451-460. -/
def SKeyObj.copyConstruct : SKeyObj → Res SKeyObj
  | .empty => .ok .empty
  | .mapped k => do
    let k' ← addAllS newSKey k.keys
    .ok (.key k')
  | .key k => do
    let k' ← addAllS newSKey k.keys
    .ok (.key k')

/-- `Key.Encode`, /repo/src/util/key_util.go:403-430: the bytes are appended to a new slice (:405).  The memory, the new state and
whether the returned error is nil. -/
def SKey.encode (k : SKey) (m : Mem) : Mem × SKey × Bool :=
  let c := encodeUvarint64 k.keys.length
  if c.length > maxKeyLength then (m, k, false)
  else match encodeSubKeys (k.keys.map m.get) c with
    | none => (m, k, false)
    | some buf => ((m.make buf).1, { k with buf := some (m.make buf).2, estBufSize := buf.length, encoded := true }, true)

/-! ### Values and records -/

/-- `StandardMappedValue`, /repo/src/util/value_util.go:189-200. -/
structure SStd where
  buf : Sl
  kind : VKind
  size : Nat
  content : Sl
deriving DecidableEq, Repr

/-- Where the parts of a decoded value are: `d.content = d.buf[pos-content_length : pos]` and `d.buf = d.buf[:pos]`,
/repo/src/util/value_util.go:506-507; `s` is the buffer handed in. -/
def placeStd (s : Sl) (d : StdValue) : SStd :=
  { buf := s.sub 0 d.buf.length, kind := d.kind, size := d.size,
    content := s.sub (d.buf.length - d.content.length) d.content.length }

/-- `NewStandardMappedValue` and `Decode`, /repo/src/util/value_util.go:205-220 and :396-511. -/
def stdAt (m : Mem) (s : Sl) : Res (SStd × Nat) := do
  let (d, n) ← decodeStd (m.read s)
  .ok (placeStd s d, n)

/-- `MappedRecord`, /repo/src/util/record_util.go:38-49. -/
structure SRecInfo where
  buf : Sl
  key : SMapped
  value : SStd
  scheme : SStd
  timestamp : Option Int
  signature : Option (Int × Int)
deriving DecidableEq, Repr

/-- `NewMappedRecord` and `MappedRecord.Decode`, /repo/src/util/record_util.go:54-70 and :157-250: the parts are decoded from the rest
of the buffer (:169, :186, :203), one after the other; the timestamp and the signature are read and not kept as bytes. -/
def recordAt (m : Mem) (s : Sl) : Res (SRecInfo × Nat) := do
  let (r, n) ← decodeRecord (m.read s)
  let (k, _) ← mappedKeyAt m (s.rest 1)
  .ok ({ buf := s.sub 0 r.buf.length, key := k, value := placeStd (s.rest (1 + r.key.getBuf.length)) r.value,
         scheme := placeStd (s.rest (1 + r.key.getBuf.length + r.value.buf.length)) r.scheme, timestamp := r.timestamp,
         signature := r.signature }, n)

mutual
/-- The implementations of `IValue`: `Primitive` (/repo/src/util/value_util.go:591-598), `ValueArray` (:772-779), `RecordList`
(:1011-1018), `SimpleMappedValue` (:55-61) and `StandardMappedValue` (:189-200). -/
inductive SVal where
  | prim (data : Option Sl)
  | array (elems : List SVal)
  | records (recs : List SRec)
  | simple (content buf : Sl)
  | std (d : SStd)

/-- The implementations of `IRecord`: `Record` (/repo/src/util/record_util.go:299-313) and `MappedRecord` (:38-49). -/
inductive SRec where
  | record (key : Option SKeyObj) (value scheme : Option SVal) (timestamp : Option Int) (r s : Option Int)
  | mapped (r : SRecInfo)
end

/-- `NewSimpleMappedValue` and `Decode`, /repo/src/util/value_util.go:66-75 and :147-160: content, buffer and length. -/
def simpleAt (m : Mem) (s : Sl) : Res (Sl × Sl × Nat) := do
  let (d, n) ← varcharAt m s
  .ok (d, s.sub 0 n, n)

/-- `SimpleMappedValue.Copy`, /repo/src/util/value_util.go:165-175. -/
def copySimpleS (m : Mem) (buf : Sl) : Res (Mem × SVal) :=
  match simpleAt (m.make (m.read buf)).1 (m.make (m.read buf)).2 with
  | .ok (c, b, _) => .ok ((m.make (m.read buf)).1, .simple c b)
  | _ => .panic

/-- `StandardMappedValue.Copy`, /repo/src/util/value_util.go:516-526. -/
def copyStdS (m : Mem) (d : SStd) : Res (Mem × SVal) :=
  match stdAt (m.make (m.read d.buf)).1 (m.make (m.read d.buf)).2 with
  | .ok (d', _) => .ok ((m.make (m.read d.buf)).1, .std d')
  | _ => .panic

/-- `MappedRecord.Copy`, /repo/src/util/record_util.go:255-264. -/
def copyRecS (m : Mem) (r : SRecInfo) : Res (Mem × SRec) :=
  match recordAt (m.make (m.read r.buf)).1 (m.make (m.read r.buf)).2 with
  | .ok (r', _) => .ok ((m.make (m.read r.buf)).1, .mapped r')
  | _ => .panic

/-- The key in `Record.Copy`, /repo/src/util/record_util.go:484-487. -/
def copyKeyS (m : Mem) : Option SKeyObj → Res (Option SKeyObj)
  | none => .ok none
  | some k => do
    let k ← k.copy m
    .ok (some k)

/-- The key in `Record.CopyConstruct`, /repo/src/util/record_util.go:509-516. -/
def constructKeyS : Option SKeyObj → Res (Option SKeyObj)
  | none => .ok none
  | some k => do
    let k ← k.copyConstruct
    .ok (some k)

mutual
/-- `Copy` of each implementation of `IValue`, /repo/src/util/value_util.go:165-175, :516-526, :749-761, :949-963, :1185-1199. -/
def SVal.copy : SVal → Mem → Res (Mem × SVal)
  | .prim none, m => .ok (m, .prim none)
  | .prim (some s), m => .ok ((m.make (m.read s)).1, .prim (some (m.make (m.read s)).2))
  | .array elems, m => do
    let (m, l) ← copyValsS elems m
    .ok (m, .array l)
  | .records recs, m => do
    let (m, l) ← copyRecsS recs m
    .ok (m, .records l)
  | .simple _ buf, m => copySimpleS m buf
  | .std d, m => copyStdS m d

/-- The loop of `ValueArray.Copy`, /repo/src/util/value_util.go:958-960. -/
def copyValsS : List SVal → Mem → Res (Mem × List SVal)
  | [], m => .ok (m, [])
  | v :: l, m => do
    let (m, v) ← v.copy m
    let (m, l) ← copyValsS l m
    .ok (m, v :: l)

/-- The value or scheme in `Record.Copy`, /repo/src/util/record_util.go:489-492 and :494-497. -/
def copyPartS : Option SVal → Mem → Res (Mem × Option SVal)
  | none, m => .ok (m, none)
  | some v, m => do
    let (m, v) ← v.copy m
    .ok (m, some v)

/-- `Copy` of each implementation of `IRecord`, /repo/src/util/record_util.go:255-264 and :481-504. -/
def SRec.copy : SRec → Mem → Res (Mem × SRec)
  | .record key value scheme timestamp r s, m => do
    let key ← copyKeyS m key
    let (m, value) ← copyPartS value m
    let (m, scheme) ← copyPartS scheme m
    .ok (m, .record key value scheme timestamp r s)
  | .mapped r, m => copyRecS m r

/-- The loop of `RecordList.Copy`, /repo/src/util/value_util.go:1194-1196. -/
def copyRecsS : List SRec → Mem → Res (Mem × List SRec)
  | [], m => .ok (m, [])
  | r :: l, m => do
    let (m, r) ← r.copy m
    let (m, l) ← copyRecsS l m
    .ok (m, r :: l)
end

/-- The loop of `StandardMappedValue.CopyConstruct`, /repo/src/util/value_util.go:543-556 and :564-577, over `n` elements at the
beginning of the slice; `copyAt` decodes and copies the first element and returns the length of its buffer. -/
def constructElemsS {α : Type} (copyAt : Mem → Sl → Res (Mem × α × Nat)) : Nat → Mem → Sl → Res (Mem × List α)
  | 0, m, _ => .ok (m, [])
  | n + 1, m, s => do
    let (m, v, k) ← copyAt m s
    let (m, l) ← constructElemsS copyAt n m (s.rest k)
    .ok (m, v :: l)

/-- An error in `MappedRecord.CopyConstruct`: the result is a nil interface and the type assertion in the next line panics,
/repo/src/util/record_util.go:271-287. -/
def orPanic {α : Type} : Res α → Res α
  | .ok a => .ok a
  | _ => .panic

mutual
/-- `StandardMappedValue.CopyConstruct`, /repo/src/util/value_util.go:528-585: the bytes of primitives are copied (:532-533).  `fuel`
bounds the depth of nesting. -/
def constructStdS : Nat → Mem → SStd → Res (Mem × SVal)
  | 0, _, _ => .panic
  | fuel + 1, m, d =>
    match d.kind with
    | .prim => .ok ((m.make (m.read d.content)).1, .prim (some (m.make (m.read d.content)).2))
    | .array => do
      let (m, l) ← constructElemsS (fun m s => do
        let (e, _) ← stdAt m s
        let (m, v) ← constructStdS fuel m e
        .ok (m, v, e.buf.len)) d.size m d.content
      .ok (m, .array l)
    | .records => do
      let (m, l) ← constructElemsS (fun m s => do
        let (e, _) ← recordAt m s
        let (m, v) ← constructRecS fuel m e
        .ok (m, v, e.buf.len)) d.size m d.content
      .ok (m, .records l)

/-- `MappedRecord.CopyConstruct`, /repo/src/util/record_util.go:266-293. -/
def constructRecS : Nat → Mem → SRecInfo → Res (Mem × SRec)
  | 0, _, _ => .panic
  | fuel + 1, m, r => do
    let k ← orPanic (SKeyObj.mapped r.key).copyConstruct
    let (m, v) ← orPanic (constructStdS fuel m r.value)
    let (m, s) ← orPanic (constructStdS fuel m r.scheme)
    .ok (m, .record (some k) (some v) (some s) r.timestamp (r.signature.map Prod.fst) (r.signature.map Prod.snd))
end

mutual
/-- `CopyConstruct` of each implementation of `IValue`, /repo/src/util/value_util.go:177-183, :528-585, :763-766, :965-984, :1201-1220.
Every level of nesting takes a byte of the buffer, so the bound on the depth is never reached. -/
def SVal.copyConstruct : SVal → Mem → Res (Mem × SVal)
  | .prim none, m => .ok (m, .prim none)
  | .prim (some s), m => .ok ((m.make (m.read s)).1, .prim (some (m.make (m.read s)).2))
  | .array elems, m => do
    let (m, l) ← constructValsS elems m
    .ok (m, .array l)
  | .records recs, m => do
    let (m, l) ← constructRecsS recs m
    .ok (m, .records l)
  | .simple content _, m => .ok ((m.make (m.read content)).1, .prim (some (m.make (m.read content)).2))
  | .std d, m => constructStdS (d.buf.len + 1) m d

/-- The loop of `ValueArray.CopyConstruct`, /repo/src/util/value_util.go:974-981. -/
def constructValsS : List SVal → Mem → Res (Mem × List SVal)
  | [], m => .ok (m, [])
  | v :: l, m => do
    let (m, v) ← v.copyConstruct m
    let (m, l) ← constructValsS l m
    .ok (m, v :: l)

/-- The value or scheme in `Record.CopyConstruct`, /repo/src/util/record_util.go:518-525 and :527-534. -/
def constructPartS : Option SVal → Mem → Res (Mem × Option SVal)
  | none, m => .ok (m, none)
  | some v, m => do
    let (m, v) ← v.copyConstruct m
    .ok (m, some v)

/-- `CopyConstruct` of each implementation of `IRecord`, /repo/src/util/record_util.go:266-293 and :506-542. -/
def SRec.copyConstruct : SRec → Mem → Res (Mem × SRec)
  | .record key value scheme timestamp r s, m => do
    let key ← constructKeyS key
    let (m, value) ← constructPartS value m
    let (m, scheme) ← constructPartS scheme m
    .ok (m, .record key value scheme timestamp r s)
  | .mapped r, m => constructRecS (r.buf.len + 2) m r

/-- The loop of `RecordList.CopyConstruct`, /repo/src/util/value_util.go:1210-1217. -/
def constructRecsS : List SRec → Mem → Res (Mem × List SRec)
  | [], m => .ok (m, [])
  | r :: l, m => do
    let (m, r) ← r.copyConstruct m
    let (m, l) ← constructRecsS l m
    .ok (m, r :: l)
end

/-! ### Schemes -/

/-- The content of `Scheme` and `MappedScheme`, /repo/src/util/scheme_util.go:232-240 and :34-42. -/
structure SScheme where
  domain : Option Sl
  tablet : Option Sl
  buckets : Option (List (Option Sl))
deriving DecidableEq, Repr

/-- `MappedScheme.Decode`, /repo/src/util/scheme_util.go:154-198. -/
def schemeAt (m : Mem) (s : Sl) : Res (SScheme × Nat) :=
  if s.len = 0 then .panic
  else do
    let (d, n1) ← varcharAt m (s.rest 1)
    let (t, n2) ← varcharAt m ((s.rest 1).rest n1)
    let (n, n3) ← decodeUvarint64 (m.read (((s.rest 1).rest n1).rest n2))
    if n > maxMake24 then .panic
    else do
      let (bs, n4) ← subKeysAt m n ((((s.rest 1).rest n1).rest n2).rest n3)
      .ok ({ domain := some d, tablet := some t, buckets := some bs }, 1 + n1 + n2 + n3 + n4)

/-- `Copy` of `MappedScheme`, /repo/src/util/scheme_util.go:203-221, and of `Scheme`, :383-401; `CopyConstruct` is the same. -/
def SScheme.copy (s : SScheme) : SScheme :=
  let c : SScheme := { domain := none, tablet := none, buckets := none }
  let c := match s.domain with
    | none => c
    | some d => { c with domain := some d }
  let c := match s.tablet with
    | none => c
    | some t => { c with tablet := some t }
  match s.buckets with
  | none => c
  | some bs => { c with buckets := some bs }

end Poodle
