import Verif.Model.SchemeObj
import Verif.Model.TrieHeap

/-
Model of the objects of /repo/src/util that implement `IEncodable` (/repo/src/util/encodable.go:10-51) and are not modelled as objects
elsewhere: constructed schemes (`Scheme`), tries (`Trie`), loaded tries (`MappedTrie`), and copies of loaded nodes (`MappedTrieNode`).

Simplified: bytes handed in or out are not changed by the program.  Not modelled are the calls whose body is one return of an error:
`MappedTrieNode.PutChild`, `RemoveChild`, `SetValue`, `SetOffset`, `Encode`, `CopyConstruct`, and what is printed.
-/

namespace Poodle

/-! ### Schemes -/

/-- `Scheme`, /repo/src/util/scheme_util.go:232-240. -/
structure BScheme where
  encoded : Bool
  buf : Slice
  parts : Scheme
deriving DecidableEq, Repr

/-- A `Scheme` with these parts that was not encoded: `NewScheme`, /repo/src/util/scheme_util.go:242-244, and what `Copy` of a scheme of
either kind returns, :203-221 and :383-401. -/
def newBScheme (parts : Scheme) : BScheme := { encoded := false, buf := none, parts := parts }

/-- `Encode`, /repo/src/util/scheme_util.go:324-370: the object is changed at the end only (:366-367). -/
def BScheme.encode (s : BScheme) : BScheme × Res Unit :=
  match s.parts.encode with
  | .ok b => ({ s with buf := some b, encoded := true }, .ok ())
  | .err => (s, .err)
  | .panic => (s, .panic)

/-- `Buf`, /repo/src/util/scheme_util.go:294-301. -/
def BScheme.getBuf (s : BScheme) : Res Slice := if s.encoded then .ok s.buf else .panic

/-- `SchemeMagic`, /repo/src/util/scheme_util.go:285-292. -/
def BScheme.magic (s : BScheme) : Res UInt8 :=
  if s.encoded then
    match s.buf with
    | some (b :: _) => .ok b
    | _ => .panic
  else .panic

/-- `BucketAt`, /repo/src/util/scheme_util.go:274-280; an index out of range panics. -/
def BScheme.bucketAt (s : BScheme) (idx : Int) : Res Slice :=
  match s.parts.buckets with
  | none => .panic
  | some bs =>
    if idx < 0 then .panic
    else match bs[idx.toNat]? with
      | none => .panic
      | some b => .ok b

/-- A call of `IScheme` on a `Scheme`: the object afterwards and what is returned, /repo/src/util/scheme_util.go:246-406 (`Domain` and
`Tablet` with their names :246-268, `Buckets` :270-272, `EstBufSize` :303-318, `IsEncoded` :320-322, `IsDecoded` :372-374, `Decode`
:376-378, `Copy` and `CopyConstruct` :383-406). -/
def BScheme.call (s : BScheme) : SchemeCall → BScheme × Res SchemeOut
  | .decode => (s, .err)
  | .isDecoded => (s, .ok (.flag true))
  | .isEncoded => (s, .ok (.flag s.encoded))
  | .encode => (s.encode.1, s.encode.2.bind fun _ => .ok (.number 0))
  | .domain => (s, .ok (.slice s.parts.domain))
  | .domainName => (s, .ok (.slice (some (match s.parts.domain with
    | none => []
    | some d => d))))
  | .tablet => (s, .ok (.slice s.parts.tablet))
  | .tabletName => (s, .ok (.slice (some (match s.parts.tablet with
    | none => []
    | some d => d))))
  | .buckets => (s, .ok (.slices s.parts.buckets))
  | .bucketAt i => (s, (s.bucketAt i).bind fun d => .ok (.slice d))
  | .magic => (s, s.magic.bind fun b => .ok (.number b.toNat))
  | .buf => (s, s.getBuf.bind fun b => .ok (.slice b))
  | .copy => (s, .ok (.scheme s.parts.copy))
  | .est => (s, .ok (.number s.parts.estBufSize))

/-- A history of calls: the object afterwards and what each call returned (a panic is recovered by the caller).  (No file in /repo.) -/
def BScheme.calls (s : BScheme) : List SchemeCall → BScheme × List (Res SchemeOut)
  | [] => (s, [])
  | c :: cs => (((s.call c).1.calls cs).1, (s.call c).2 :: ((s.call c).1.calls cs).2)

/-! ### Loaded tries -/

/-- `MappedTrie`, /repo/src/util/trie_util.go:74-83, without `size`, which nothing sets; no node is the nil `root`. -/
structure LTrie where
  decoded : Bool
  buf : Bytes
  trie : MTrie

/-- `MappedTrie.Decode`, /repo/src/util/trie_util.go:190-226, on an object.  An error would leave other nodes behind; this is not
modelled as the objects that exist were decoded before (:88-98) or have no bytes. -/
def LTrie.decode (s : LTrie) : LTrie × Res Nat :=
  match newMappedTrie s.buf with
  | .ok (t, n) => ({ s with decoded := true, trie := t }, .ok n)
  | .err => (s, .err)
  | .panic => (s, .panic)

/-- `&MappedTrie{}` with bytes, /repo/src/util/trie_util.go:90. -/
def rawLTrie (buf : Bytes) : LTrie := { decoded := false, buf := buf, trie := { nodes := [], known := [] } }

/-- `NewMappedTrie`, /repo/src/util/trie_util.go:88-98. -/
def loadTrie (buf : Bytes) : Res (LTrie × Nat) :=
  match (rawLTrie buf).decode with
  | (t, .ok n) => .ok (t, n)
  | (_, .err) => .err
  | (_, .panic) => .panic

/-- `MappedTrie.Copy`, /repo/src/util/trie_util.go:231-241, and `Trie.Copy`, :738-748, on the bytes of the object: an error is a panic. -/
def copyTrie (buf : Slice) : Res LTrie :=
  match loadTrie buf.bytes with
  | .ok (t, _) => .ok t
  | _ => .panic

/-- The calls on a trie of either kind, /repo/src/util/trie_util.go:103-245 and :552-752 (`Put`, `Remove` and `Entries` of `ITrie`, :22-25,
are not implemented). -/
inductive TrieCall (α : Type) where
  | get (k : KeyObj) | set (k : KeyObj) (v : Option α) | iterator | keyIterator (k : KeyObj) | rangeIterator
  | isEncoded | encode | isDecoded | decode | copy | copyConstruct | buf | est

/-- What a call returns: the result types in /repo/src/util/trie_util.go:19-53 and /repo/src/util/encodable.go:10-51; `α` are the values of
the trie. -/
inductive TrieOut (α : Type) where
  | value (v : Option α)
  | iter (i : TrieIter)
  | flag (b : Bool)
  | number (n : Nat)
  | trie (t : LTrie)
  | bytes (b : Bytes)
  | done

/-- A call on a `MappedTrie`: the object afterwards and what is returned, /repo/src/util/trie_util.go:103-245 (`Set` :131-133, the
iterators :135-165, of which the range iterator starts with the same check as the others, :1135-1142, `Buf` and `EstBufSize` :170-176,
`IsEncoded` :178-180, `Encode` :182-184, `IsDecoded` :186-188, `CopyConstruct` :243-245). -/
def LTrie.call (s : LTrie) : TrieCall Bytes → LTrie × Res (TrieOut Bytes)
  | .get k => (s, if s.decoded then (s.trie.get k).bind fun v => .ok (.value v) else .panic)
  | .set _ _ => (s, .panic)
  | .iterator => (s, s.trie.iterator.bind fun i => .ok (.iter i))
  | .keyIterator k => (s, if s.decoded then (s.trie.keyIterator k).bind fun i => .ok (.iter i) else .panic)
  | .rangeIterator => (s, if s.decoded then s.trie.iterator.bind fun i => .ok (.iter i) else .panic)
  | .isEncoded => (s, .ok (.flag true))
  | .encode => (s, .err)
  | .isDecoded => (s, .ok (.flag s.decoded))
  | .decode => (s.decode.1, s.decode.2.bind fun n => .ok (.number n))
  | .copy => (s, (copyTrie (some s.buf)).bind fun t => .ok (.trie t))
  | .copyConstruct => (s, .err)
  | .buf => (s, .ok (.bytes s.buf))
  | .est => (s, .ok (.number s.buf.length))

/-- A history of calls: the object afterwards and what each call returned (a panic is recovered by the caller).  (No file in /repo.) -/
def LTrie.calls (s : LTrie) : List (TrieCall Bytes) → LTrie × List (Res (TrieOut Bytes))
  | [] => (s, [])
  | c :: cs => (((s.call c).1.calls cs).1, (s.call c).2 :: ((s.call c).1.calls cs).2)

/-! ### Constructed tries -/

/-- `Trie`, /repo/src/util/trie_util.go:535-542. -/
structure CTrie (α : Type) where
  root : TrieNode α
  encoded : Bool
  buf : Slice
  estBufSize : Int

variable {α : Type}

/-- `NewTrie`, /repo/src/util/trie_util.go:544-549. -/
def newCTrie : CTrie α := { root := newTrie, encoded := false, buf := none, estBufSize := 1 }

/-- `Trie.Encode`, /repo/src/util/trie_util.go:667-725: the root is encoded first (:674).  What follows the root is not modelled as this
never returns (see `C79_always_panics_partial`); at the end the bytes are kept (:723) and the object is not marked as encoded. -/
def CTrie.encode (enc : α → Res Bytes) (s : CTrie α) : CTrie α × Res Unit :=
  match s.root.encodeTrie enc with
  | .ok b => ({ s with buf := some b }, .ok ())
  | .err => (s, .err)
  | .panic => (s, .panic)

/-- A call on a `Trie`: the object afterwards and what is returned, /repo/src/util/trie_util.go:552-752 (`Buf` :647-653, `EstBufSize`
:655-661, `IsEncoded` :663-665, `IsDecoded` :727-729, `Decode` :731-733, `Copy` and `CopyConstruct` :738-752). -/
def CTrie.call (enc : α → Res Bytes) (s : CTrie α) : TrieCall α → CTrie α × Res (TrieOut α)
  | .get k => (s, (s.root.get k).bind fun v => .ok (.value v))
  | .set k v => ({ s with root := (s.root.set k v).1 }, (s.root.set k v).2.bind fun v => .ok (.value v))
  | .iterator => (s, s.root.iterator.bind fun i => .ok (.iter i))
  | .keyIterator k => (s, (s.root.keyIterator k).bind fun i => .ok (.iter i))
  | .rangeIterator => (s, s.root.iterator.bind fun i => .ok (.iter i))
  | .isEncoded => (s, .ok (.flag s.encoded))
  | .encode => ((s.encode enc).1, (s.encode enc).2.bind fun _ => .ok .done)
  | .isDecoded => (s, .ok (.flag true))
  | .decode => (s, .err)
  | .copy => (s, (copyTrie s.buf).bind fun t => .ok (.trie t))
  | .copyConstruct => (s, (copyTrie s.buf).bind fun t => .ok (.trie t))
  | .buf => (s, if s.encoded then .ok (.bytes s.buf.bytes) else .panic)
  | .est => (s, .ok (.number (if s.estBufSize > 0 then s.estBufSize.toNat else 1)))

/-- A history of calls: the object afterwards and what each call returned (a panic is recovered by the caller).  (No file in /repo.) -/
def CTrie.calls (enc : α → Res Bytes) (s : CTrie α) : List (TrieCall α) → CTrie α × List (Res (TrieOut α))
  | [] => (s, [])
  | c :: cs => (((s.call enc c).1.calls enc cs).1, (s.call enc c).2 :: ((s.call enc c).1.calls enc cs).2)

/-! ### Copies of loaded nodes -/

/-- `MappedTrieNode.Copy`, /repo/src/util/trie_util.go:492-504, of a node with this offset and these bytes: the nodes afterwards and the
copy.  The literal (:497) has no parent and no children, and the known nodes are those of the original. -/
def MTrie.copyNode (t : MTrie) (offset : Nat) (buf : Bytes) : Res (MTrie × Nat) :=
  match t.decodeNode t.nodes.length (newMTrieNode none offset) buf with
  | .ok (t', tn, _) => .ok ({ t' with nodes := t'.nodes ++ [tn] }, t.nodes.length)
  | _ => .panic

end Poodle
