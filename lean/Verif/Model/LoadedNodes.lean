import Verif.Model.TrieHeap

/-
Model of the nodes that a program loads one by one with `NewMappedTrieNode` (/repo/src/util/trie_util.go:264-529) as objects that share a
table of known nodes.  Nodes are named by their index.

Simplified: the nodes in the table are loaded nodes (not other implementations of the interface), all of them share one table, the keys
asked for are not nil, the bytes of a node are not changed by the caller, and the map that `Children` returns is only read.
-/

namespace Poodle

/-- `MappedTrieNode`, /repo/src/util/trie_util.go:268-283; `children = none` is the nil map. -/
structure LNode where
  decoded : Bool
  buf : Bytes
  offset : Nat
  nodeKey : Slice
  nodeValue : Option Bytes
  parent : Option Nat
  children : Option (SortedMap Bytes Nat)

/-- All loaded nodes and their table of known nodes, /repo/src/util/trie_util.go:282.  (The list of nodes has no file in /repo.) -/
structure LMem where
  nodes : List LNode
  known : List (Nat × Nat)

/-- An assignment to a field of a node.  (No file in /repo.) -/
def LMem.upd (h : LMem) (id : Nat) (f : LNode → LNode) : LMem := { h with nodes := h.nodes.modify id f }

/-- The node that the literals at /repo/src/util/trie_util.go:290 and :497 make. -/
def rawLNode (parent : Option Nat) (buf : Bytes) (offset : Nat) (children : Option (SortedMap Bytes Nat)) : LNode :=
  { decoded := false, buf := buf, offset := offset, nodeKey := none, nodeValue := none, parent := parent, children := children }

/-- The end of `MappedTrieNode.Decode`, /repo/src/util/trie_util.go:472-476: the node `id` is put below `parent` and into the table. -/
def LMem.attach (h : LMem) (id parent offset : Nat) (key : Bytes) (length : Nat) : LMem × Res Nat :=
  match (h.nodes[parent]?).bind (·.children) with
  | none => (h, .panic)
  | some m =>
    match m.put childOps key id with
    | (m', none) => (h.upd parent ({ · with children := some m' }), .panic)
    | (m', some _) =>
      ({ h.upd parent ({ · with children := some m' }) with known := (offset, id) :: h.known }, .ok length)

/-- `MappedTrieNode.Decode`, /repo/src/util/trie_util.go:419-479, of the node `id`: the number of children is read from the start of the
bytes again (:465). -/
def LMem.decode (h : LMem) (id : Nat) : LMem × Res Nat :=
  match h.nodes[id]? with
  | none => (h, .panic)
  | some tn =>
    match decodeUvarint64 tn.buf with
    | .err => (h, .err)
    | .panic => (h, .panic)
    | .ok (mark, n1) =>
      if mark = 0 then (h.upd id ({ · with decoded := true }), .ok n1)
      else
        match decodeVarchar (tn.buf.drop n1) with
        | .err => (h, .err)
        | .panic => (h, .panic)
        | .ok (key, n2) =>
          if key = [] then (h, .err)
          else
            let h := h.upd id ({ · with nodeKey := some key })
            match decodeUvarint64 ((tn.buf.drop n1).drop n2) with
            | .err => (h, .err)
            | .panic => (h, .panic)
            | .ok (po, n3) =>
              match h.known.lookup (po % 2 ^ 32) with
              | none => (h, .err)
              | some p =>
                let h := h.upd id ({ · with parent := some p })
                match decodeSimple (((tn.buf.drop n1).drop n2).drop n3) with
                | .err => (h, .err)
                | .panic => (h, .panic)
                | .ok (v, _, n4) =>
                  let h := h.upd id ({ · with nodeValue := some v })
                  h.attach id p tn.offset key (n1 + n2 + n3 + n4 + n1)

/-- A call that may change loaded nodes or their table; a new node gets the next index.  (No file in /repo.) -/
inductive LOp where
  /-- `NewMappedTrieNode` -/
  | load (parent : Option Nat) (buf : Bytes) (offset : Nat)
  /-- an entry that the program makes in the table -/
  | know (offset n : Nat)
  /-- `Decode` of a node that is there -/
  | again (n : Nat)
  /-- `Copy` -/
  | copy (n : Nat)
  /-- `PutChild`, `RemoveChild`, `SetValue`, `SetOffset`, `Encode`, `CopyConstruct` -/
  | unsupported (n : Nat)

/-- A node that a call made and that was lost as the call panicked.  (No file in /repo.) -/
def LMem.lose (h : LMem) (n : Nat) : LMem := { h with nodes := h.nodes.take n }

/-- `NewMappedTrieNode` (/repo/src/util/trie_util.go:287-297, where the error of `Decode` is dropped), an entry in the table (:287, the table
is the caller's), `Decode` (:419-479), `Copy` (:492-504, where an error of `Decode` is a panic), and the calls that only report an error
(:375-377, :379-381, :392-394, :411-413, :485-487, :506-508).  A name that is no node (there is none in Go) has no effect. -/
def LMem.exec (h : LMem) : LOp → LMem × Res Unit
  | .load parent buf offset =>
    let r := { h with nodes := h.nodes ++ [rawLNode parent buf offset (some .new)] }.decode h.nodes.length
    match r.2 with
    | .panic => (r.1.lose h.nodes.length, .panic)
    | _ => (r.1, .ok ())
  | .know offset n => if n < h.nodes.length then ({ h with known := (offset, n) :: h.known }, .ok ()) else (h, .panic)
  | .again n =>
    let r := h.decode n
    (r.1, r.2.bind fun _ => .ok ())
  | .copy n =>
    match h.nodes[n]? with
    | none => (h, .panic)
    | some tn =>
      let r := { h with nodes := h.nodes ++ [rawLNode none tn.buf tn.offset none] }.decode h.nodes.length
      match r.2 with
      | .ok _ => (r.1, .ok ())
      | _ => (r.1.lose h.nodes.length, .panic)
  | .unsupported _ => (h, .err)

/-- A history of calls, of which those that panic are recovered; with the result of each.  (No file in /repo.) -/
def LMem.run (h : LMem) : List LOp → LMem × List (Res Unit)
  | [] => (h, [])
  | o :: os =>
    let (h1, r) := h.exec o
    let (h2, rs) := LMem.run h1 os
    (h2, r :: rs)

/-- `MappedTrieNode.IsDecoded`, /repo/src/util/trie_util.go:415-417. -/
def LNode.isDecoded (n : LNode) : Bool := n.decoded

/-- `MappedTrieNode.Buf`, `EstBufSize`, `IsEncoded` and `Offset`, /repo/src/util/trie_util.go:399-409 and :481-483. -/
def LNode.fixed (n : LNode) : Bytes × Nat × Bool × Nat := (n.buf, n.buf.length, true, n.offset)

/-- `MappedTrieNode.NodeKey`, /repo/src/util/trie_util.go:322-329. -/
def LNode.key (n : LNode) : Res Slice := if ¬ n.decoded then .panic else .ok n.nodeKey

/-- `MappedTrieNode.Parent`, /repo/src/util/trie_util.go:331-338. -/
def LNode.getParent (n : LNode) : Res (Option Nat) := if ¬ n.decoded then .panic else .ok n.parent

/-- `MappedTrieNode.Value`, /repo/src/util/trie_util.go:383-390. -/
def LNode.value (n : LNode) : Res (Option Bytes) := if ¬ n.decoded then .panic else .ok n.nodeValue

/-- `MappedTrieNode.Children`, /repo/src/util/trie_util.go:340-347: the entries of the map in their order (`none`: the nil map). -/
def LNode.getChildren (n : LNode) : Res (Option (List (Bytes × Nat))) :=
  if ¬ n.decoded then .panic else .ok (n.children.map fun m => treeEntries m.root)

/-- `MappedTrieNode.ChildSize`, /repo/src/util/trie_util.go:349-360. -/
def LNode.childSize (n : LNode) : Res Int :=
  if ¬ n.decoded then .panic else match n.children with
    | none => .ok 0
    | some m => .ok m.size

/-- `MappedTrieNode.GetChild`, /repo/src/util/trie_util.go:362-373 (`none`: nil): the type assertion on the nil of a missing child
panics. -/
def LNode.getChild (n : LNode) (k : Bytes) : Res (Option Nat) :=
  if ¬ n.decoded then .panic else match n.children with
    | none => .ok none
    | some m => match m.get childOps k with
      | none => .panic
      | some none => .panic
      | some (some c) => .ok (some c)

end Poodle
