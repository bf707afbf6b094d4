import Verif.Model.Codec
import Verif.Model.Slice

/-
Model of /repo/src/util/key_util.go: `EmptyKey`, `MappedKey`, `Key`.

Simplifications: the field `keys` of `Key` and `MappedKey` is never nil for objects made by the constructors
(NewKey, NewSimpleKey, NewStringKey, NewMappedKey), so it is a list; `MappedKey` objects exist only after a successful
`Decode` (the constructor discards the others), so the flag `decoded` is not represented and the "not decoded" panics
are unreachable.  Comparison and equality are modelled for non-nil `IKey` arguments.
-/

namespace Poodle

/-- `MAX_KEY_LENGTH`, /repo/src/util/const_util.go:19. -/
def maxKeyLength : Nat := 4096

/-- `Key`, /repo/src/util/key_util.go:351-356.  A sub key may be the nil slice (`NewSimpleKey(nil)`). -/
structure Key where
  encoded : Bool
  keys : List Slice
  buf : Slice
  estBufSize : Nat
deriving DecidableEq, Repr

/-- `MappedKey`, /repo/src/util/key_util.go:137-142. -/
structure MappedKey where
  keys : List Slice
  buf : Bytes
deriving DecidableEq, Repr

/-- The implementations of `IKey`, /repo/src/util/key_util.go:15-29. -/
inductive KeyObj where
  | empty : KeyObj
  | mapped (m : MappedKey) : KeyObj
  | key (k : Key) : KeyObj
deriving DecidableEq, Repr

/-- `NewKey`, /repo/src/util/key_util.go:358-360. -/
def newKey : Key := { encoded := false, keys := [], buf := none, estBufSize := 1 }

/-- `NewSimpleKey`, /repo/src/util/key_util.go:362-364 (`NewStringKey`, :366-368, is `newSimpleKey (some bytes)`). -/
def newSimpleKey (s : Slice) : Key :=
  { encoded := false, keys := [s], buf := none, estBufSize := 2 + s.bytes.length }

/-- `Key.Add`, /repo/src/util/key_util.go:545-554; panics on an empty sub key.  Note that `encoded` is not reset. -/
def Key.add (k : Key) (s : Slice) : Res Key :=
  if s.bytes.length = 0 then .panic
  else .ok { k with keys := k.keys ++ [s], estBufSize := k.estBufSize + (1 + s.bytes.length) }

/-- The sub key loop of `Key.Encode`, /repo/src/util/key_util.go:414-421 (`none`: error return). -/
def encodeSubKeys : List Slice → Bytes → Option Bytes
  | [], buf => some buf
  | s :: ss, buf =>
    let buf' := buf ++ encodeVarchar s.bytes
    if buf'.length > maxKeyLength then none else encodeSubKeys ss buf'

/-- `Key.Encode`, /repo/src/util/key_util.go:403-430: the new state and whether the returned error is nil. -/
def Key.encode (k : Key) : Key × Bool :=
  let buf := encodeUvarint64 k.keys.length
  if buf.length > maxKeyLength then (k, false)
  else match encodeSubKeys k.keys buf with
    | none => (k, false)
    | some buf => ({ k with buf := some buf, estBufSize := buf.length, encoded := true }, true)

/-- `Key.Buf`, /repo/src/util/key_util.go:387-393; panics if not encoded. -/
def Key.getBuf (k : Key) : Res Bytes := if k.encoded then .ok k.buf.bytes else .panic

/-- Largest length for which `make([][]byte, n)` does not panic on a 64-bit platform: an element takes 24 bytes and an
allocation is limited to 2^48 bytes.  (Go runtime; used at /repo/src/util/key_util.go:230.) -/
def maxMake24 : Nat := 2 ^ 48 / 24

/-- The sub key loop of `MappedKey.Decode`, /repo/src/util/key_util.go:231-237, on the remaining buffer `k.buf[pos:]`. -/
def decodeSubKeys : Nat → Bytes → Res (List Slice × Nat)
  | 0, _ => .ok ([], 0)
  | n + 1, buf => do
    let (d, len) ← decodeVarchar buf
    let (ds, m) ← decodeSubKeys n (buf.drop len)
    .ok (some d :: ds, len + m)

/-- `MappedKey.Decode` / `NewMappedKey`, /repo/src/util/key_util.go:219-242 and :147-157.  The object keeps the whole
input buffer, not only the consumed part. -/
def newMappedKey (buf : Bytes) : Res (MappedKey × Nat) := do
  let (n, len) ← decodeUvarint64 buf
  if n > maxMake24 then .panic
  else do
    let (ks, m) ← decodeSubKeys n (buf.drop len)
    .ok ({ keys := ks, buf := buf }, len + m)

/-- `MappedKey.IsEmpty`, /repo/src/util/key_util.go:159-169. -/
def MappedKey.isEmpty (m : MappedKey) : Bool := m.buf.isEmpty || m.keys.isEmpty

/-- `MappedKey.Buf`, /repo/src/util/key_util.go:193-198. -/
def MappedKey.getBuf (m : MappedKey) : Bytes := if m.isEmpty then [0x00] else m.buf

/-- `Key()` of each implementation, /repo/src/util/key_util.go:47-49, :171-178, :375-377. -/
def KeyObj.subKeys : KeyObj → List Slice
  | .empty => []
  | .mapped m => m.keys
  | .key k => k.keys

/-- `IsEmpty`, /repo/src/util/key_util.go:42-44, :159-169, :370-372. -/
def KeyObj.isEmpty : KeyObj → Bool
  | .empty => true
  | .mapped m => m.isEmpty
  | .key k => k.keys.isEmpty

/-- `SubKeyAt`, /repo/src/util/key_util.go:51-53, :180-191, :379-385 (`none`: panics). -/
def KeyObj.subKeyAt (o : KeyObj) (idx : Nat) : Option Slice :=
  match o with
  | .empty => none
  | .mapped m => m.keys[idx]?
  | .key k => k.keys[idx]?

/-- `Buf`, /repo/src/util/key_util.go:55-59, :193-198, :387-393. -/
def KeyObj.getBuf : KeyObj → Res Bytes
  | .empty => .ok [0x00]
  | .mapped m => .ok m.getBuf
  | .key k => k.getBuf

/-- `EstBufSize`, /repo/src/util/key_util.go:61-63, :200-205, :395-397. -/
def KeyObj.estBufSize : KeyObj → Nat
  | .empty => 1
  | .mapped m => if m.isEmpty then 1 else m.buf.length
  | .key k => k.estBufSize

/-- `IsEncoded`, /repo/src/util/key_util.go:65-67, :207-209, :399-401. -/
def KeyObj.isEncoded : KeyObj → Bool
  | .empty => true
  | .mapped _ => true
  | .key k => k.encoded

/-- `Encode`, /repo/src/util/key_util.go:69-71, :211-213, :403-430. -/
def KeyObj.encode : KeyObj → KeyObj × Bool
  | .empty => (.empty, true)
  | .mapped m => (.mapped m, true)
  | .key k => let (k', ok) := k.encode; (.key k', ok)

/-- The element loop of `Equal`, /repo/src/util/key_util.go:278-282 and :484-488, at index `i` (`rest` is `k.keys[i:]`);
`none` is the panic of `SubKeyAt`. -/
def keyEqualLoop (o : KeyObj) : List Slice → Nat → Option Bool
  | [], _ => some true
  | s :: rest, i =>
    match o.subKeyAt i with
    | none => none
    | some t => if equalByteSlice s t then keyEqualLoop o rest (i + 1) else some false

/-- `Equal` of each implementation on an `IKey` argument, /repo/src/util/key_util.go:89-100, :264-285, :470-491
(`none`: panics). -/
def KeyObj.equal? (k o : KeyObj) : Option Bool :=
  match k with
  | .empty => some (o.subKeys.length == 0)
  | .mapped m => if m.keys.length ≠ o.subKeys.length then some false else keyEqualLoop o m.keys 0
  | .key k => if k.keys.length ≠ o.subKeys.length then some false else keyEqualLoop o k.keys 0

/-- The loop of `Compare`, /repo/src/util/key_util.go:298-315 and :504-521, at index `idx` (`rest` is `k.Key()[idx:]`, `len`
is `len(k.Key())`). -/
def keyCompareLoop (len : Nat) (t : KeyObj) : List Slice → Nat → Res Int
  | [], _ => if t.subKeys.length > len then .ok (-1) else .ok 0
  | s :: rest, idx =>
    if t.subKeys.length < idx then .ok 1
    else match t.subKeyAt idx with
      | none => .panic
      | some u =>
        match compareByteSlice s u with
        | .ok r => if r ≠ 0 then .ok r else keyCompareLoop len t rest (idx + 1)
        | .err => .err
        | .panic => .panic

/-- `Compare` of each implementation on a non-nil `IKey` argument, /repo/src/util/key_util.go:102-118, :287-316, :493-522. -/
def KeyObj.compare (k t : KeyObj) : Res Int :=
  match k with
  | .empty => if t.subKeys.length = 0 then .ok 0 else .ok (-1)
  | .mapped m => keyCompareLoop m.keys.length t m.keys 0
  | .key k => keyCompareLoop k.keys.length t k.keys 0

/-- `HashUint32` of each implementation, /repo/src/util/key_util.go:120-123, :318-324, :462-468. -/
def KeyObj.hash (f : Slice → UInt32) (k : KeyObj) : UInt32 :=
  match k with
  | .empty => 0
  | .mapped m => m.keys.foldl (fun h s => h ^^^ f s) 0
  | .key k => k.keys.foldl (fun h s => h ^^^ f s) 0

/-- The copy loop `for key := range keys { result.Add(key) }`, /repo/src/util/key_util.go:257-259, :444-446, :455-457. -/
def addAll (k : Key) : List Slice → Res Key
  | [] => .ok k
  | s :: ss => do
    let k' ← k.add s
    addAll k' ss

/-- `Copy` of each implementation, /repo/src/util/key_util.go:81-83, :244-251 (an error becomes a panic), :440-449. -/
def KeyObj.copy : KeyObj → Res KeyObj
  | .empty => .ok .empty
  | .mapped m => match newMappedKey m.buf with
    | .ok (m', _) => .ok (.mapped m')
    | .err => .panic
    | .panic => .panic
  | .key k => do
    let k' ← addAll newKey k.keys
    .ok (.key k')

/-- `CopyConstruct` of each implementation, /repo/src/util/key_util.go:85-87, :253-262, :451-460. -/
def KeyObj.copyConstruct : KeyObj → Res KeyObj
  | .empty => .ok .empty
  | .mapped m => do
    let k' ← addAll newKey m.keys
    .ok (.key k')
  | .key k => do
    let k' ← addAll newKey k.keys
    .ok (.key k')

end Poodle
