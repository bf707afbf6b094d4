import Verif.Model.Avl
import Verif.Model.Slice
import Verif.Model.Key
import Verif.Model.Value

/-
Model of /repo/src/util/trie_util.go: constructed tries, loaded tries and key iterators.
-/

namespace Poodle

/-- `ComparableByteSlice` as tree key, /repo/src/collection/comparable.go:120-161. -/
def sliceOps : KeyOps Slice where
  equal := comparableByteSliceEqual
  compare a b := match comparableByteSliceCompare a b with
    | .ok c => some c
    | _ => none

/-! ### Constructed tries -/

/-- `TrieNode`, /repo/src/util/trie_util.go:775-785, without the parent pointer (the tree gives it) and the buffer. -/
inductive TrieNode (α : Type) where
  | node (nodeKey : Slice) (data : Option α) (children : SortedMap Slice (TrieNode α)) : TrieNode α

variable {α : Type}

/-- `NewTrieNode`, /repo/src/util/trie_util.go:787-803: a node without parent has a nil node key. -/
def newTrieNode (hasParent : Bool) (nodeKey : Slice) (data : Option α) : TrieNode α :=
  .node (if hasParent then nodeKey else none) data .new

/-- `TrieNode.NodeKey`, /repo/src/util/trie_util.go:823-825. -/
def TrieNode.nodeKey : TrieNode α → Slice
  | .node k _ _ => k

/-- `TrieNode.Value`, /repo/src/util/trie_util.go:853-855. -/
def TrieNode.value : TrieNode α → Option α
  | .node _ d _ => d

/-- `TrieNode.Children`, /repo/src/util/trie_util.go:831-833. -/
def TrieNode.children : TrieNode α → SortedMap Slice (TrieNode α)
  | .node _ _ c => c

/-- `TrieNode.SetValue`, /repo/src/util/trie_util.go:857-860. -/
def TrieNode.setValue : TrieNode α → Option α → TrieNode α
  | .node k _ c, d => .node k d c

/-- `TrieNode.GetChild`, /repo/src/util/trie_util.go:839-841: the type assertion on the nil of a missing child panics. -/
def TrieNode.getChild (n : TrieNode α) (k : Slice) : Res (TrieNode α) :=
  match n.children.get sliceOps k with
  | none => .panic
  | some none => .panic
  | some (some c) => .ok c

/-- `TrieNode.PutChild`, /repo/src/util/trie_util.go:843-846. -/
def TrieNode.putChild (n : TrieNode α) (k : Slice) (c : TrieNode α) : Res (TrieNode α) :=
  match n.children.put sliceOps k c with
  | (_, none) => .panic
  | (m, some _) => .ok (.node n.nodeKey n.value m)

/-- `TrieNode.RemoveChild`, /repo/src/util/trie_util.go:848-851. -/
def TrieNode.removeChild (n : TrieNode α) (k : Slice) : Res (TrieNode α) :=
  match n.children.remove sliceOps k with
  | (_, none) => .panic
  | (m, some _) => .ok (.node n.nodeKey n.value m)

/-- The loop of `Trie.Get`, /repo/src/util/trie_util.go:561-575; the `nil` test on the child is never reached with nil. -/
def TrieNode.find (n : TrieNode α) : List Slice → Res (TrieNode α)
  | [] => .ok n
  | k :: ks => do
    let c ← n.getChild k
    c.find ks

/-- `Trie.Get`, /repo/src/util/trie_util.go:554-576, with the trie given by its root. -/
def TrieNode.get (root : TrieNode α) (k : KeyObj) : Res (Option α) :=
  if k.isEmpty then .ok root.value else do
    let n ← root.find k.subKeys
    .ok n.value

/-- `Trie.Set` below a node, /repo/src/util/trie_util.go:587-617: the changed node, the old value, and whether the clean up of a nil
value removes this node from its parent.  The branch that creates children (:591-595) is unreachable, as `GetChild` panics first. -/
def TrieNode.setPath (d : Option α) : TrieNode α → List Slice → Res (TrieNode α × Option α × Bool)
  | n, [] => .ok (n.setValue d, n.value, d.isNone)
  | n, k :: ks => do
    let c ← n.getChild k
    let (c', old, remove) ← c.setPath d ks
    if remove then do
      let n' ← n.removeChild c.nodeKey
      .ok (n', old, n'.children.size == 0 && n'.value.isNone)
    else do
      let n' ← n.putChild k c'
      .ok (n', old, false)

/-- `Trie.Set`, /repo/src/util/trie_util.go:578-618: the root afterwards (unchanged by a panic on a missing child) and the old value; a
clean up that arrives at the root panics (:613, nil parent). -/
def TrieNode.set (root : TrieNode α) (k : KeyObj) (d : Option α) : TrieNode α × Res (Option α) :=
  if k.isEmpty then (root.setValue d, .ok root.value)
  else match root.setPath d k.subKeys with
    | .ok (r, old, remove) => if remove then (r, .panic) else (r, .ok old)
    | .err => (root, .err)
    | .panic => (root, .panic)

/-- `NewTrie`, /repo/src/util/trie_util.go:545-550. -/
def newTrie : TrieNode α := newTrieNode false (some []) none

/-- `TrieNode.FullKey`, /repo/src/util/trie_util.go:807-821, on the node keys from the root down to the node. -/
def trieFullKey (chain : List Slice) : Res Key := addAll newKey chain

/-- `TrieNode.Encode`, /repo/src/util/trie_util.go:881-912; `parentOffset = none` is a node without parent, whose nil `parent` is
dereferenced; `encodeValue` is `data.Encode` and `data.Buf`. -/
def TrieNode.encode (encodeValue : α → Res Bytes) (n : TrieNode α) (parentOffset : Option Nat) : Res Bytes :=
  match parentOffset with
  | none => .panic
  | some off =>
    match n.value with
    | none => .panic
    | some d => do
      let b ← encodeValue d
      .ok (encodeVarchar n.nodeKey.bytes ++ encodeUvarint64 off ++ b ++ encodeUvarint64 n.children.size.toNat)

/-- `Trie.Encode`, /repo/src/util/trie_util.go:667-725: the root is encoded first (:674); what follows is not modelled as this never
returns. -/
def TrieNode.encodeTrie (encodeValue : α → Res Bytes) (root : TrieNode α) : Res Bytes := root.encode encodeValue none

/-! ### Loaded tries -/

/-- `MappedTrieNode`, /repo/src/util/trie_util.go:268-283; `children = none` is the nil map. -/
structure MTrieNode where
  decoded : Bool
  offset : Nat
  nodeKey : Bytes
  nodeValue : Option Bytes
  parent : Option Nat
  children : Option (SortedMap Slice Nat)
  dummy : Bool

/-- The objects of a `MappedTrie` (/repo/src/util/trie_util.go:74-83), nodes by their index, the root being 0, and `known_nodes`. -/
structure MTrie where
  nodes : List MTrieNode
  known : List (Nat × Nat)

/-- The node literals in `MappedTrie.Decode`, /repo/src/util/trie_util.go:194 and :204: `children` is not set. -/
def newMTrieNode (parent : Option Nat) (offset : Nat) : MTrieNode :=
  { decoded := false, offset := offset, nodeKey := [], nodeValue := none, parent := parent, children := none, dummy := false }

/-- `MappedTrieNode.Decode`, /repo/src/util/trie_util.go:419-479, of the node `tn` that gets the index `id`: the trie, the node and the
length. -/
def MTrie.decodeNode (t : MTrie) (id : Nat) (tn : MTrieNode) (buf : Bytes) : Res (MTrie × MTrieNode × Nat) := do
  let (isDummy, dummyN) ← decodeUvarint64 buf
  if isDummy = 0 then .ok (t, { tn with dummy := true, decoded := true }, dummyN)
  else do
    let (nodeKey, keyN) ← decodeVarchar (buf.drop dummyN)
    if nodeKey = [] then .err
    else do
      let (parentOffset, parentN) ← decodeUvarint64 (buf.drop (dummyN + keyN))
      match t.known.lookup (parentOffset % 2 ^ 32) with
      | none => .err
      | some parent => do
        let (value, _, valueN) ← decodeSimple (buf.drop (dummyN + keyN + parentN))
        let (_, childN) ← decodeUvarint64 buf
        match t.nodes[parent]? with
        | none => .panic
        | some p =>
          match p.children with
          | none => .panic
          | some m =>
            match m.put sliceOps (some nodeKey) id with
            | (_, none) => .panic
            | (m', some _) =>
              .ok ({ nodes := t.nodes.set parent { p with children := some m' }, known := (tn.offset, id) :: t.known },
                { tn with nodeKey := nodeKey, nodeValue := some value, parent := some parent },
                dummyN + keyN + parentN + valueN + childN)

/-- The loop of `MappedTrie.Decode`, /repo/src/util/trie_util.go:203-219.  `fuel` bounds the rounds; it never runs out (see
`decodeNode_fresh`: no round but the last succeeds). -/
def MTrie.decodeLoop (buf : Bytes) : Nat → MTrie → Nat → Nat → Res (MTrie × Nat)
  | 0, _, _, _ => .err
  | fuel + 1, t, curr, pos => do
    let id := t.nodes.length
    let (t', node, len) ← t.decodeNode id (newMTrieNode (some curr) (pos % 2 ^ 32)) (buf.drop pos)
    let t'' := { t' with nodes := t'.nodes ++ [node] }
    if node.dummy then
      if curr = 0 then .ok (t'', pos + len)
      else match (t''.nodes[curr]?).bind MTrieNode.parent with
        | none => .panic
        | some p => MTrie.decodeLoop buf fuel t'' p (pos + len)
    else MTrie.decodeLoop buf fuel t'' id (pos + len)

/-- `NewMappedTrie` and `MappedTrie.Decode`, /repo/src/util/trie_util.go:88-98 and :190-226. -/
def newMappedTrie (buf : Bytes) : Res (MTrie × Nat) := do
  let t : MTrie := { nodes := [newMTrieNode none 0], known := [(0, 0)] }
  let (t', root, pos) ← t.decodeNode 0 (newMTrieNode none 0) buf
  MTrie.decodeLoop buf (buf.length + 2) { t' with nodes := t'.nodes.set 0 root } 0 pos

/-- `MappedTrieNode.GetChild`, /repo/src/util/trie_util.go:362-373 (`none`: nil). -/
def MTrie.getChild (t : MTrie) (n : MTrieNode) (k : Slice) : Res (Option MTrieNode) :=
  if ¬ n.decoded then .panic
  else match n.children with
    | none => .ok none
    | some m => match m.get sliceOps k with
      | none => .panic
      | some none => .panic
      | some (some i) => match t.nodes[i]? with
        | none => .panic
        | some c => .ok (some c)

/-- `MappedTrieNode.Value`, /repo/src/util/trie_util.go:383-390. -/
def MTrieNode.value (n : MTrieNode) : Res (Option Bytes) := if n.decoded then .ok n.nodeValue else .panic

/-- The loop of `MappedTrie.Get`, /repo/src/util/trie_util.go:114-128. -/
def MTrie.find (t : MTrie) (n : MTrieNode) : List Slice → Res (Option Bytes)
  | [] => n.value
  | k :: ks => do
    match ← t.getChild n k with
    | none => .ok none
    | some c => t.find c ks

/-- `MappedTrie.Get` on a decoded trie, /repo/src/util/trie_util.go:103-129 (`none`: nil). -/
def MTrie.get (t : MTrie) (k : KeyObj) : Res (Option Bytes) :=
  match t.nodes[0]? with
  | none => .panic
  | some root => if k.isEmpty then root.value else t.find root k.subKeys

/-- `MappedTrieNode.FullKey`, /repo/src/util/trie_util.go:303-319, on the node and its ancestors up to the root: the walk ends with the
type assertion `currNode.parent.(*MappedTrieNode)` on the nil parent of the root, which panics. -/
def mtrieFullKey : List MTrieNode → Res Key
  | [] => .panic
  | n :: ns => if ¬ n.decoded then .panic else mtrieFullKey ns

/-- `Trie.Copy`, /repo/src/util/trie_util.go:738-748, of the bytes the trie was last encoded to (nil if never): an error is a panic. -/
def trieCopy (buf : Slice) : Res MTrie :=
  match newMappedTrie buf.bytes with
  | .ok (t, _) => .ok t
  | _ => .panic

/-! ### Key iterators -/

/-- `TrieKeyIterator`, /repo/src/util/trie_util.go:984-988; a node is given by the node keys of its path, an iterator of a level by its
remaining nodes. -/
structure TrieIter where
  paths : List (List (List Slice))
  curr : Option (List Slice)

/-- `NewTrieKeyIterator`, /repo/src/util/trie_util.go:990-1020, up to the check of the root, by the result of the root's `FullKey`; the
check of `curr` is not modelled as this never succeeds. -/
def newTrieKeyIterator (rootFullKey : Res Key) : Res TrieIter :=
  match rootFullKey with
  | .ok k => if (KeyObj.key k).isEmpty then .ok { paths := [], curr := none } else .panic
  | .err => .panic
  | .panic => .panic

/-- `TrieKeyIterator.advance`, /repo/src/util/trie_util.go:1099-1117; the last path comes first in the list. -/
def TrieIter.advance (i : TrieIter) : TrieIter :=
  if i.curr.isSome then i else { i with paths := i.paths.dropWhile List.isEmpty }

/-- `TrieKeyIterator.HasNext`, /repo/src/util/trie_util.go:1063-1068. -/
def TrieIter.hasNext (i : TrieIter) : Bool := i.advance.curr.isNone && i.advance.paths.isEmpty

/-- `TrieKeyIterator.Next`, /repo/src/util/trie_util.go:1022-1061, as the key it returns (`none`: nil) and the iterator afterwards; the
children pushed for a returned node are not modelled as `FullKey` panics first. -/
def TrieIter.next (i : TrieIter) : Res (Option Key × TrieIter) :=
  match i.advance.curr with
  | some chain => do
    let k ← trieFullKey chain
    .ok (some k, { i.advance with curr := none })
  | none =>
    match i.advance.paths with
    | (chain :: rest) :: ps => do
      let k ← trieFullKey chain
      .ok (some k, { i.advance with paths := rest :: ps })
    | _ => .ok (none, { i.advance with paths := [] })

/-- `Trie.Iterator`, `Trie.RangeIterator`, /repo/src/util/trie_util.go:620-622 and :639-642 (the range iterator starts with the same
check, :1135-1142): the root has node key nil. -/
def TrieNode.iterator (root : TrieNode α) : Res TrieIter := newTrieKeyIterator (trieFullKey [root.nodeKey])

/-- `Trie.KeyIterator` on a non-nil key, /repo/src/util/trie_util.go:624-637: the value is asserted to be a trie node, which no value is. -/
def TrieNode.keyIterator (root : TrieNode α) (k : KeyObj) : Res TrieIter :=
  if k.isEmpty then root.iterator
  else do
    match ← root.get k with
    | none => .ok { paths := [], curr := none }
    | some _ => .panic

/-- `MappedTrie.Iterator` on a decoded trie, /repo/src/util/trie_util.go:135-137. -/
def MTrie.iterator (t : MTrie) : Res TrieIter :=
  match t.nodes[0]? with
  | none => .panic
  | some r => newTrieKeyIterator (mtrieFullKey [r])

/-- `MappedTrie.KeyIterator` on a decoded trie and a non-nil key, /repo/src/util/trie_util.go:139-156. -/
def MTrie.keyIterator (t : MTrie) (k : KeyObj) : Res TrieIter :=
  if k.isEmpty then t.iterator
  else do
    match ← t.get k with
    | none => .ok { paths := [], curr := none }
    | some _ => .panic

end Poodle
