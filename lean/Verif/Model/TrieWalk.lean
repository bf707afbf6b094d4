import Verif.Model.AvlIter
import Verif.Model.Slice

/-
Model of the iterators of /repo/src/util/trie_util.go over nodes of any implementation of `ITrieNode` (the constructors panic on the tries
of the package itself, see C80 and C92; here `FullKey` of a node returns).

Simplified: a node answers the same each time (the trie is not changed during the iteration), a child is stored under its own `NodeKey`,
`GetChild` returns nil for a missing child, and an iterator of `Children` is the list of the children it has not returned yet, in the
order of their keys (C20).  `NewTrieRangeIterator` is modelled without start.
-/

namespace Poodle

/-- `ITrieNode`, /repo/src/util/trie_util.go:35-62, as the iterators see it: `NodeKey`, the sub keys of `FullKey`, `Value`, and the
`Children` in the order of their keys. -/
inductive UNode (α : Type) where
  | node (nodeKey : Bytes) (full : List Bytes) (value : α) (kids : List (UNode α)) : UNode α

namespace UNode

variable {α : Type}

/-- `NodeKey`, /repo/src/util/trie_util.go:45. -/
def nodeKey : UNode α → Bytes
  | .node k _ _ _ => k

/-- `FullKey`, /repo/src/util/trie_util.go:44. -/
def full : UNode α → List Bytes
  | .node _ f _ _ => f

/-- `Value`, /repo/src/util/trie_util.go:55. -/
def value : UNode α → α
  | .node _ _ v _ => v

/-- `Children`, /repo/src/util/trie_util.go:47. -/
def kids : UNode α → List (UNode α)
  | .node _ _ _ c => c

/-- `GetChild`, /repo/src/util/trie_util.go:49. -/
def getChild (n : UNode α) (k : Bytes) : Option (UNode α) := n.kids.find? fun c => c.nodeKey = k

/-- What `Next` and `Peek` return for a node, /repo/src/util/trie_util.go:1040, :1053. -/
def entry (n : UNode α) : List Bytes × α := (n.full, n.value)

end UNode

variable {α : Type}

/-! ### Key iterators -/

/-- `TrieKeyIterator`, /repo/src/util/trie_util.go:984-988; the last of `paths` comes first. -/
structure KeyIter (α : Type) where
  paths : List (List (UNode α))
  curr : Option (UNode α)

namespace KeyIter

/-- `NewTrieKeyIterator`, /repo/src/util/trie_util.go:990-1020 (`none`: panics); all sub keys are looked up in the root (:1008). -/
def new (root : UNode α) (curr : Option (UNode α)) : Option (KeyIter α) :=
  if root.full ≠ [] then none
  else match curr with
    | none => some ⟨[], some root⟩
    | some c => if c.full.all fun k => (root.getChild k).isSome then some ⟨[], some c⟩ else none

/-- `TrieKeyIterator.advance`, /repo/src/util/trie_util.go:1099-1117. -/
def advance (i : KeyIter α) : KeyIter α := if i.curr.isSome then i else { i with paths := i.paths.dropWhile List.isEmpty }

/-- Appending the iterator of the children of a node that has some, /repo/src/util/trie_util.go:1031-1038, :1050-1052. -/
def push (n : UNode α) (paths : List (List (UNode α))) : List (List (UNode α)) := if n.kids.length ≠ 0 then n.kids :: paths else paths

/-- `TrieKeyIterator.Next`, /repo/src/util/trie_util.go:1022-1061; the loop at :1045 returns in its first round, as `advance` has left an
iterator with elements on top. -/
def next (i : KeyIter α) : KeyIter α × IterRes (List Bytes × α) :=
  match i.advance.curr with
  | some n => ({ paths := push n i.advance.paths, curr := none }, .yield n.entry)
  | none => match i.advance.paths with
    | (n :: l) :: ps => ({ i.advance with paths := push n (l :: ps) }, .yield n.entry)
    | _ => (i.advance, .nil)

/-- `TrieKeyIterator.Peek`, /repo/src/util/trie_util.go:1070-1097. -/
def peek (i : KeyIter α) : KeyIter α × IterRes (List Bytes × α) :=
  match i.advance.curr with
  | some n => (i.advance, .yield n.entry)
  | none => match i.advance.paths with
    | (n :: _) :: _ => (i.advance, .yield n.entry)
    | _ => (i.advance, .nil)

/-- `TrieKeyIterator.HasNext`, /repo/src/util/trie_util.go:1063-1068. -/
def hasNext (i : KeyIter α) : KeyIter α × IterRes (List Bytes × α) := (i.advance, .bool (i.advance.curr.isNone && i.advance.paths.isEmpty))

/-- A call, `ITrieIterator`, /repo/src/util/trie_util.go:64-68. -/
def call (i : KeyIter α) : IterCall → KeyIter α × IterRes (List Bytes × α)
  | .next => i.next
  | .peek => i.peek
  | .hasNext => i.hasNext

/-- The results of calls one after another.  (No file in /repo.) -/
def run (i : KeyIter α) : List IterCall → List (IterRes (List Bytes × α))
  | [] => []
  | c :: cs => (i.call c).2 :: run (i.call c).1 cs

end KeyIter

/-! ### Range iterators -/

/-- The result of a call of a range iterator: an entry, a boolean, nil, a panic, or none as the call does not return.  (No file in
/repo.) -/
inductive WalkRes (β : Type) where
  | yield (b : β)
  | bool (b : Bool)
  | nil
  | crash
  | hang
deriving DecidableEq, Repr

/-- `TrieRangeIterator`, /repo/src/util/trie_util.go:1123-1133, without `start` (`startNodes` is empty, `startChild` nil). -/
structure RangeIter (α : Type) where
  root : UNode α
  isRoot : Bool
  endNodes : List (UNode α)
  endChild : Option Bytes
  paths : List (List (UNode α))
  endMatches : List Bool

namespace RangeIter

/-- The loop over the sub keys of the end, /repo/src/util/trie_util.go:1185-1207: the nodes found and the first sub key without node. -/
def endPath (n : UNode α) : List Bytes → List (UNode α) × Option Bytes
  | [] => ([], none)
  | k :: ks => match n.getChild k with
    | none => ([], some k)
    | some c => (c :: (endPath c ks).1, (endPath c ks).2)

/-- `NewTrieRangeIterator` without start, /repo/src/util/trie_util.go:1135-1211 (`none`: panics). -/
def new (root : UNode α) (stop : Option (List Bytes)) : Option (RangeIter α) :=
  if root.full ≠ [] then none
  else match stop with
    | none => some ⟨root, true, [], none, [], []⟩
    | some ks => some ⟨root, true, (endPath root ks).1, (endPath root ks).2, [], (endPath root ks).1.map fun _ => false⟩

/-- The loop of `checkEnd`, /repo/src/util/trie_util.go:1410-1467: the iterators and matches afterwards; every `continue` follows the
removal of the last iterator.  The state at a panic (of `CompareByteSlice`, or of an index, which does not occur) is not kept. -/
def endLoop (endNodes : List (UNode α)) (endChild : Option Bytes) : List (List (UNode α)) → List Bool →
    Option (List (List (UNode α)) × List Bool)
  | [], ms => some ([], ms)
  | l :: ps, ms =>
    match endNodes[ps.length]? with
    | none => some (l :: ps, ms)
    | some e =>
      match l with
      | [] => endLoop endNodes endChild ps ms
      | n :: _ =>
        if ps.length ≠ 0 ∧ ms[ps.length - 1]? ≠ some true then some (l :: ps, ms)
        else match compareByteSlice (some n.nodeKey) (some e.nodeKey) with
          | .ok c =>
            if c > 0 then endLoop endNodes endChild ps (ms.set ps.length true)
            else if c = 0 then
              if ps.length + 1 = endNodes.length ∧ endChild.isNone then endLoop endNodes endChild ps (ms.set ps.length true)
              else some (l :: ps, ms.set ps.length true)
            else some (l :: ps, ms.set ps.length false)
          | _ => none

/-- `checkEnd`, /repo/src/util/trie_util.go:1393-1468 (`none`: panics). -/
def checkEnd (i : RangeIter α) : Option (RangeIter α) :=
  if i.endNodes.length = 0 ∨ i.isRoot then some i
  else (endLoop i.endNodes i.endChild i.paths i.endMatches).map fun (ps, ms) => { i with paths := ps, endMatches := ms }

/-- `checkEnd` at the end of `Next` and its result, /repo/src/util/trie_util.go:1238-1239, :1258-1259. -/
def finish (i : RangeIter α) (n : UNode α) : RangeIter α × WalkRes (List Bytes × α) :=
  match i.checkEnd with
  | none => (i, .crash)
  | some i => (i, .yield n.entry)

/-- `TrieRangeIterator.Next` after the checks, /repo/src/util/trie_util.go:1218-1263.  The loop at :1244 changes nothing if the last
iterator has no element. -/
def nextBody (i : RangeIter α) : RangeIter α × WalkRes (List Bytes × α) :=
  if i.isRoot then
    if i.paths.length ≠ 0 then (i, .crash)
    else if i.root.kids.length ≠ 0 then finish { i with paths := i.root.kids :: i.paths, isRoot := false } i.root
    else finish i i.root
  else match i.paths with
    | [] => (i, .nil)
    | [] :: _ => (i, .hang)
    | (n :: l) :: ps => finish { i with paths := KeyIter.push n (l :: ps) } n

/-- `TrieRangeIterator.Next`, /repo/src/util/trie_util.go:1213-1264; `checkStart`, :1310-1391, does nothing without start. -/
def next (i : RangeIter α) : RangeIter α × WalkRes (List Bytes × α) :=
  match i.checkEnd with
  | none => (i, .crash)
  | some i => i.nextBody

/-- `TrieRangeIterator.Peek` after the checks, /repo/src/util/trie_util.go:1279-1307. -/
def peekBody (i : RangeIter α) : RangeIter α × WalkRes (List Bytes × α) :=
  if i.isRoot then
    if i.paths.length ≠ 0 then (i, .crash) else (i, .yield i.root.entry)
  else match i.paths with
    | [] => (i, .nil)
    | [] :: _ => (i, .hang)
    | (n :: _) :: _ => (i, .yield n.entry)

/-- `TrieRangeIterator.Peek`, /repo/src/util/trie_util.go:1274-1308. -/
def peek (i : RangeIter α) : RangeIter α × WalkRes (List Bytes × α) :=
  match i.checkEnd with
  | none => (i, .crash)
  | some i => i.peekBody

/-- `TrieRangeIterator.HasNext`, /repo/src/util/trie_util.go:1266-1272. -/
def hasNext (i : RangeIter α) : RangeIter α × WalkRes (List Bytes × α) :=
  match i.checkEnd with
  | none => (i, .crash)
  | some i => (i, .bool (i.isRoot || i.paths.length ≠ 0))

/-- A call, `ITrieIterator`, /repo/src/util/trie_util.go:64-68. -/
def call (i : RangeIter α) : IterCall → RangeIter α × WalkRes (List Bytes × α)
  | .next => i.next
  | .peek => i.peek
  | .hasNext => i.hasNext

/-- The results of calls one after another, up to one that does not return or panics.  (No file in /repo.) -/
def run (i : RangeIter α) : List IterCall → List (WalkRes (List Bytes × α))
  | [] => []
  | c :: cs => (i.call c).2 :: match (i.call c).2 with
    | .hang => []
    | .crash => []
    | _ => run (i.call c).1 cs

end RangeIter

end Poodle
