import Verif.Model.TrieWalk
import Verif.Model.Key

/-
Model of the range iterators of /repo/src/util/trie_util.go:1123-1468 with a start, over nodes as in `TrieWalk`.

The iterators over children that `checkStart` makes have a start of their own.  A sorted map applies it when the iterator is first asked
(/repo/src/collection/avl.go:449-477): if the start is not below the first key all elements are returned, else none (C22); only the
comparison with the first key can panic, as the start is below all keys if it is below the first.
-/

namespace Poodle

variable {α : Type}

/-- `TrieRangeIterator`, /repo/src/util/trie_util.go:1123-1133; `pending` is the start of the last iterator if this was made by `checkStart`
and has not been asked yet. -/
structure StartIter (α : Type) where
  base : RangeIter α
  startNodes : List (UNode α)
  startChild : Option Bytes
  initialized : Bool
  pending : Option Bytes

namespace StartIter

/-- A key of the given sub keys, as `NewTrieRangeIterator` compares it, /repo/src/util/trie_util.go:1155. -/
def keyOf (ks : List Bytes) : KeyObj := .key { newKey with keys := ks.map some }

/-- `NewTrieRangeIterator`, /repo/src/util/trie_util.go:1135-1211 (`none`: panics); the loop at :1166-1178 does the same for the start as that
at :1185-1207 for the end. -/
def new (root : UNode α) (start stop : Option (List Bytes)) : Option (StartIter α) :=
  match RangeIter.new root stop with
  | none => none
  | some b =>
    match start, stop with
    | none, _ => some ⟨b, [], none, false, none⟩
    | some ks, none => some ⟨b, (RangeIter.endPath root ks).1, (RangeIter.endPath root ks).2, false, none⟩
    | some ks, some e => match (keyOf ks).compare (keyOf e) with
      | .ok c => if c > 0 then none else some ⟨b, (RangeIter.endPath root ks).1, (RangeIter.endPath root ks).2, false, none⟩
      | _ => none

/-- The last iterator is asked for the first time and applies its start, /repo/src/collection/avl.go:449-477 (`none`: panics). -/
def touch (i : StartIter α) : Option (StartIter α) :=
  match i.pending, i.base.paths with
  | some s, (n :: l) :: ps => match compareByteSlice (some s) (some n.nodeKey) with
    | .ok c => some ⟨{ i.base with paths := (if c < 0 then [] else n :: l) :: ps }, i.startNodes, i.startChild, i.initialized, none⟩
    | _ => none
  | _, _ => some { i with pending := none }

/-- The loop of `checkStart`, /repo/src/util/trie_util.go:1341-1390, over the start nodes from the number of iterators on.  The start of the
next iterator is the key of the node itself (:1377-1379).  `Peek` on an iterator without elements panics (:1344 and
/repo/src/collection/sorted_map.go:61). -/
def startLoop (i : StartIter α) : List (UNode α) → Option (StartIter α)
  | [] => some i
  | s :: rest =>
    match i.touch with
    | none => none
    | some i => match i.base.paths with
      | (n :: l) :: ps => match compareByteSlice (some n.nodeKey) (some s.nodeKey) with
        | .ok c =>
          if c < 0 then none
          else if c = 0 then match rest, i.startChild with
            | [], none => some i
            | [], some k => some { i with base := { i.base with paths := n.kids :: l :: ps }, pending := some k }
            | r :: rest, _ => startLoop { i with base := { i.base with paths := n.kids :: l :: ps }, pending := some s.nodeKey } (r :: rest)
          else some i
        | _ => none
      | _ => none

/-- `checkStart`, /repo/src/util/trie_util.go:1310-1391. -/
def checkStart (i : StartIter α) : Option (StartIter α) :=
  if i.initialized then some i
  else match i.startNodes, i.startChild with
    | [], none => some { i with initialized := true }
    | [], some k =>
      if i.base.isRoot ∧ i.base.root.kids.length ≠ 0 then
        some { i with base := { i.base with paths := i.base.root.kids :: i.base.paths, isRoot := false }, initialized := true, pending := some k }
      else some { i with initialized := true }
    | s :: rest, _ =>
      if i.base.isRoot ∧ i.base.root.kids.length ≠ 0 then
        startLoop { i with base := { i.base with paths := i.base.root.kids :: i.base.paths, isRoot := false }, initialized := true,
                           pending := some s.nodeKey } (s :: rest)
      else some { i with initialized := true }

/-- `checkEnd`, /repo/src/util/trie_util.go:1393-1468; the last iterator is asked (:1413) if the loop is entered. -/
def checkEnd (i : StartIter α) : Option (StartIter α) :=
  if i.base.endNodes.length = 0 ∨ i.base.isRoot ∨ i.base.paths.length = 0 ∨ i.base.endNodes.length < i.base.paths.length then some i
  else match i.touch with
    | none => none
    | some i => match i.base.checkEnd with
      | none => none
      | some b => some { i with base := b }

/-- The checks at the beginning of each method, /repo/src/util/trie_util.go:1215-1216, :1268-1269, :1276-1277. -/
def checks (i : StartIter α) : Option (StartIter α) :=
  match i.checkStart with
  | none => none
  | some i => i.checkEnd

/-- The test of the root and `HasNext` of the last iterator in `Next` and `Peek`, /repo/src/util/trie_util.go:1224-1226, :1247, :1285-1287,
:1298. -/
def ask (i : StartIter α) : Option (StartIter α) :=
  if i.base.isRoot then
    if i.startNodes.length ≠ 0 then none else some i
  else i.touch

/-- `Next`, `HasNext` and `Peek`, /repo/src/util/trie_util.go:1213-1308. -/
def call (i : StartIter α) (c : IterCall) : StartIter α × WalkRes (List Bytes × α) :=
  match i.checks with
  | none => (i, .crash)
  | some i => match c with
    | .hasNext => (i, .bool (i.base.isRoot || i.base.paths.length ≠ 0))
    | .next => match i.ask with
      | none => (i, .crash)
      | some i => ({ i with base := i.base.nextBody.1 }, i.base.nextBody.2)
    | .peek => match i.ask with
      | none => (i, .crash)
      | some i => ({ i with base := i.base.peekBody.1 }, i.base.peekBody.2)

/-- The results of calls one after another, up to one that does not return or panics.  (No file in /repo.) -/
def run (i : StartIter α) : List IterCall → List (WalkRes (List Bytes × α))
  | [] => []
  | c :: cs => (i.call c).2 :: match (i.call c).2 with
    | .hang => []
    | .crash => []
    | _ => run (i.call c).1 cs

end StartIter

end Poodle
