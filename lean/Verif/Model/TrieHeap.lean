import Verif.Model.Trie

/-
Model of the nodes of /repo/src/util/trie_util.go as objects: constructed nodes (`TrieNode`) that are linked by the caller, and nodes
loaded one by one (`NewMappedTrieNode`).  Nodes are named by their index.

Simplified: parents and children are nodes of the same kind (not other implementations of the interface), `PutChild` is not called with
a nil node, keys of children are not nil, and a key slice is not changed after it was given to a call.
-/

namespace Poodle

/-- `ComparableByteSlice` of non-nil slices as keys of children, /repo/src/util/trie_util.go:840, :844, :849. -/
def childOps : KeyOps Bytes where
  equal a b := sliceOps.equal (some a) (some b)
  compare a b := sliceOps.compare (some a) (some b)

/-- `TrieNode`, /repo/src/util/trie_util.go:775-785; `α` are the objects used as values. -/
structure TNode (α : Type) where
  parent : Option Nat
  nodeKey : Slice
  data : Option α
  children : SortedMap Bytes Nat
  encoded : Bool
  buf : Slice
  offset : UInt32

/-- All nodes.  (No file in /repo.) -/
abbrev TMem (α : Type) := List (TNode α)

variable {α : Type}

/-- `NewTrieNode`, /repo/src/util/trie_util.go:787-803. -/
def freshNode (parent : Option Nat) (nodeKey : Slice) (data : Option α) : TNode α :=
  { parent := parent, nodeKey := if parent.isNone then none else nodeKey, data := data, children := .new, encoded := false, buf := none,
    offset := 0 }

/-- The node keys gathered by `TrieNode.FullKey`, /repo/src/util/trie_util.go:809-813: from a node up to one without parent.  The number
bounds the steps; it never runs out (`chain_enough`), as a parent is older than its children. -/
def TMem.chain (h : TMem α) : Nat → Option Nat → List Slice
  | _, none => []
  | 0, some _ => []
  | f + 1, some n => match h[n]? with
    | none => []
    | some t => h.chain f t.parent ++ [t.nodeKey]

/-- `TrieNode.FullKey`, /repo/src/util/trie_util.go:807-821. -/
def TMem.fullKey (h : TMem α) (n : Nat) : Res Key := addAll newKey (h.chain h.length (some n))

/-- `TrieNode.GetChild`, /repo/src/util/trie_util.go:839-841: the type assertion on the nil of a missing child panics. -/
def TMem.getChild (h : TMem α) (n : Nat) (k : Bytes) : Res Nat :=
  match h[n]? with
  | none => .panic
  | some t => match t.children.get childOps k with
    | none => .panic
    | some none => .panic
    | some (some c) => .ok c

/-- `TrieNode.PutChild`, /repo/src/util/trie_util.go:843-846. -/
def TMem.putChild (h : TMem α) (n : Nat) (k : Bytes) (c : Nat) : TMem α × Res Unit :=
  match h[n]? with
  | none => (h, .panic)
  | some t => match t.children.put childOps k c with
    | (m, none) => (h.set n { t with children := m }, .panic)
    | (m, some _) => (h.set n { t with children := m }, .ok ())

/-- `TrieNode.RemoveChild`, /repo/src/util/trie_util.go:848-851. -/
def TMem.removeChild (h : TMem α) (n : Nat) (k : Bytes) : TMem α × Res Unit :=
  match h[n]? with
  | none => (h, .panic)
  | some t => match t.children.remove childOps k with
    | (m, none) => (h.set n { t with children := m }, .panic)
    | (m, some _) => (h.set n { t with children := m }, .ok ())

/-- `TrieNode.ChildSize`, /repo/src/util/trie_util.go:835-837. -/
def TNode.childSize (t : TNode α) : Int := t.children.size

/-- `TrieNode.SetValue`, /repo/src/util/trie_util.go:857-860. -/
def TMem.setValue (h : TMem α) (n : Nat) (d : Option α) : TMem α × Res Unit :=
  match h[n]? with
  | none => (h, .panic)
  | some t => (h.set n { t with data := d }, .ok ())

/-- `TrieNode.SetOffset`, /repo/src/util/trie_util.go:926-929. -/
def TMem.setOffset (h : TMem α) (n : Nat) (o : UInt32) : TMem α × Res Unit :=
  match h[n]? with
  | none => (h, .panic)
  | some t => (h.set n { t with offset := o }, .ok ())

/-- `TrieNode.Buf`, /repo/src/util/trie_util.go:865-871. -/
def TNode.getBuf (t : TNode α) : Res Slice := if t.encoded then .ok t.buf else .panic

/-- `TrieNode.EstBufSize`, /repo/src/util/trie_util.go:873-875, with `estimateValueBufSize`, /repo/src/util/value_util.go:1248-1254. -/
def TNode.est (estValue : α → Nat) (t : TNode α) : Nat :=
  4 + 1 + t.nodeKey.bytes.length + (match t.data with
    | none => 1
    | some d => estValue d)

/-- `TrieNode.Encode`, /repo/src/util/trie_util.go:881-912: a node without parent or without value dereferences nil; `enc` is `Encode` and
`Buf` of a value. -/
def TMem.encode (enc : α → Res Bytes) (h : TMem α) (n : Nat) : TMem α × Res Unit :=
  match h[n]? with
  | none => (h, .panic)
  | some t =>
    match t.parent.bind (h[·]?) with
    | none => (h, .panic)
    | some p =>
      match t.data with
      | none => (h, .panic)
      | some d =>
        match enc d with
        | .err => (h, .err)
        | .panic => (h, .panic)
        | .ok b =>
          let bytes := encodeVarchar t.nodeKey.bytes ++ encodeUvarint64 p.offset.toNat ++ b ++ encodeUvarint64 t.childSize.toNat
          (h.set n { t with encoded := true, buf := some bytes }, .ok ())

/-- The loop of `TrieNode.Copy`, /repo/src/util/trie_util.go:940-943, on the entries the iterator returns. -/
def putEntries (m : SortedMap Bytes Nat) : List (Bytes × Nat) → Res (SortedMap Bytes Nat)
  | [] => .ok m
  | (k, c) :: es => match m.put childOps k c with
    | (_, none) => .panic
    | (m', some _) => putEntries m' es

/-- The entries of a tree in the order of its iterator, /repo/src/collection/avl.go:425-470 (see C20). -/
def treeEntries {K V : Type} : Tree K V → List (K × V)
  | .nil => []
  | .node k v _ l r => treeEntries l ++ (k, v) :: treeEntries r

/-- `TrieNode.Copy`, /repo/src/util/trie_util.go:934-946 (`CopyConstruct`, :948-950, is the same). -/
def TMem.copy (h : TMem α) (n : Nat) : TMem α × Res Unit :=
  match h[n]? with
  | none => (h, .panic)
  | some t =>
    match putEntries .new (treeEntries t.children.root) with
    | .ok m => (h ++ [{ freshNode t.parent t.nodeKey t.data with children := m }], .ok ())
    | _ => (h, .panic)

/-- A call that may change nodes; a new node gets the next index.  (No file in /repo.) -/
inductive TOp (α : Type) where
  | new (parent : Option Nat) (nodeKey : Slice) (data : Option α)
  | put (n : Nat) (k : Bytes) (c : Nat)
  | remove (n : Nat) (k : Bytes)
  | setValue (n : Nat) (d : Option α)
  | setOffset (n : Nat) (o : UInt32)
  | encode (n : Nat)
  | copy (n : Nat)

/-- A call, /repo/src/util/trie_util.go:787-950; a name that is no node (there is none in Go) has no effect. -/
def TMem.exec (enc : α → Res Bytes) (h : TMem α) : TOp α → TMem α × Res Unit
  | .new parent k d =>
    match parent with
    | some p => if p < h.length then (h ++ [freshNode parent k d], .ok ()) else (h, .panic)
    | none => (h ++ [freshNode none k d], .ok ())
  | .put n k c => if c < h.length then h.putChild n k c else (h, .panic)
  | .remove n k => h.removeChild n k
  | .setValue n d => h.setValue n d
  | .setOffset n o => h.setOffset n o
  | .encode n => h.encode enc n
  | .copy n => h.copy n

/-- A history of calls, of which those that panic are recovered; with the result of each.  (No file in /repo.) -/
def TMem.run (enc : α → Res Bytes) (h : TMem α) : List (TOp α) → TMem α × List (Res Unit)
  | [] => (h, [])
  | o :: os =>
    let (h1, r) := h.exec enc o
    let (h2, rs) := TMem.run enc h1 os
    (h2, r :: rs)

/-! ### Nodes loaded one by one -/

/-- `NewMappedTrieNode`, /repo/src/util/trie_util.go:287-297: the nodes afterwards, the new node and the length; the error of `Decode` is
dropped and the length 0 returned (a decoder that fails has changed at most `nodeKey`, `parent` and `nodeValue` of the new node, which no
call shows as it is not marked as decoded; this is not modelled). -/
def MTrie.newMappedNode (t : MTrie) (parent : Option Nat) (buf : Bytes) (offset : Nat) : Res (MTrie × Nat × Nat) :=
  let id := t.nodes.length
  let tn := { newMTrieNode parent offset with children := some .new }
  match t.decodeNode id tn buf with
  | .ok (t', tn', n) => .ok ({ t' with nodes := t'.nodes ++ [tn'] }, id, n)
  | .err => .ok ({ t with nodes := t.nodes ++ [tn] }, id, 0)
  | .panic => .panic

/-- `MappedTrieNode.NodeKey`, /repo/src/util/trie_util.go:321-328. -/
def MTrieNode.key (n : MTrieNode) : Res Bytes := if n.decoded then .ok n.nodeKey else .panic

/-- `MappedTrieNode.Parent`, /repo/src/util/trie_util.go:330-337. -/
def MTrieNode.getParent (n : MTrieNode) : Res (Option Nat) := if n.decoded then .ok n.parent else .panic

/-- `MappedTrieNode.ChildSize`, /repo/src/util/trie_util.go:348-359. -/
def MTrieNode.childSize (n : MTrieNode) : Res Int :=
  if ¬ n.decoded then .panic else match n.children with
    | none => .ok 0
    | some m => .ok m.size

end Poodle
