import Verif.Model.Key
import Verif.Model.Avl
import Verif.Model.Hash
import Verif.Model.Trie

/-
Model of `Print` and `ToString`: /repo/src/util/key_util.go:125-131, :326-345, :524-545, /repo/src/collection/avl.go:81-94, :280-316,
/repo/src/collection/hash.go:257-288 and /repo/src/util/trie_util.go:250-262, :513-530, :757-769, :955-980.

Simplified: the indent is not negative and no indent in the output exceeds 10000009 (`fmt` does not accept a longer width); what
`%v` prints for keys and values of a map or trie, and for the two floats of a hash map, is a parameter.
-/

namespace Poodle

/-- What is written.  (`io.Writer`; no file in /repo.) -/
abbrev Text := List Char

/-- The text of a string constant (strings in the format at /repo/src/util/key_util.go:327 and elsewhere). -/
def txt (s : String) : Text := s.toList

/-- `%Nv` or `%Ns` of the empty string, as at /repo/src/collection/avl.go:82. -/
def spaces (n : Nat) : Text := List.replicate n ' '

/-- `%d` of a number that is not negative, as at /repo/src/util/key_util.go:330. -/
def showNat (n : Nat) : Text := (Nat.repr n).toList

/-- `%d` of an `int`, as at /repo/src/collection/avl.go:90 (`t.size`), :288 (`root.balance`). -/
def showInt (n : Int) : Text := if n < 0 then '-' :: showNat n.natAbs else showNat n.natAbs

/-- The bytes of a slice in `%v`, as at /repo/src/util/key_util.go:330: decimal, separated by spaces. -/
def showBytesIn : Bytes → Text
  | [] => []
  | [b] => showNat b.toNat
  | b :: c :: l => showNat b.toNat ++ ' ' :: showBytesIn (c :: l)

/-- `%v` of a byte slice, nil or not, as at /repo/src/util/key_util.go:330. -/
def showBytes (b : Bytes) : Text := '[' :: showBytesIn b ++ [']']

/-- A digit of `%x`, as at /repo/src/util/trie_util.go:523. -/
def hexDigitOf (n : Nat) : Char := "0123456789abcdef".toList.getD n '?'

/-- `%x` of a byte slice, /repo/src/util/trie_util.go:523, :972. -/
def showHexBytes (b : Bytes) : Text := b.flatMap fun x => [hexDigitOf (x.toNat / 16), hexDigitOf (x.toNat % 16)]

/-! ### Keys -/

/-- The text for sub key `i`, /repo/src/util/key_util.go:330, :340, :527, :538. -/
def showSubKey (i : Nat) (s : Slice) : Text := txt "    subKey[" ++ showNat i ++ txt "] = " ++ showBytes s.bytes

/-- The lines for the sub keys from number `i` on, each ended by a return, /repo/src/util/key_util.go:329-331, :526-528. -/
def printSubKeys : Nat → List Slice → Text
  | _, [] => []
  | i, s :: l => showSubKey i s ++ '\n' :: printSubKeys (i + 1) l

/-- The same with a return before each, /repo/src/util/key_util.go:339-341, :537-539. -/
def textSubKeys : Nat → List Slice → Text
  | _, [] => []
  | i, s :: l => '\n' :: showSubKey i s ++ textSubKeys (i + 1) l

/-- The text for the buffer, of which up to 32 bytes are shown, /repo/src/util/key_util.go:333, :343, :530, :541. -/
def showBuf (b : Bytes) : Text := txt "    buf = " ++ showBytes (b.take 32)

/-- `Print` of each kind of key, /repo/src/util/key_util.go:125-127, :326-334, :524-532; a `MappedKey` is decoded. -/
def KeyObj.print (_indent : Nat) : KeyObj → Text
  | .empty => txt "EmptyKey"
  | .mapped m => txt "MappedKey:\n" ++ printSubKeys 0 m.keys ++ showBuf m.buf ++ ['\n']
  | .key k => txt "Key:\n" ++ printSubKeys 0 k.keys ++ showBuf k.buf.bytes ++ ['\n']

/-- `ToString` of each kind of key, /repo/src/util/key_util.go:129-131, :336-345, :533-544; a `MappedKey` is decoded. -/
def KeyObj.toText : KeyObj → Text
  | .empty => txt "EmptyKey"
  | .mapped m => txt "MappedKey" ++ textSubKeys 0 m.keys ++ '\n' :: showBuf m.buf
  | .key k => txt "Key" ++ textSubKeys 0 k.keys ++ '\n' :: showBuf k.buf.bytes

/-! ### Sorted maps -/

variable {K V : Type}

/-- The key of a linked node, or nil, in `%v`, /repo/src/collection/avl.go:281-287, :304-310. -/
def showLink (showK : K → Text) : Tree K V → Text
  | .nil => txt "<nil>"
  | .node k _ _ _ _ => showK k

/-- `AVLNode.ToString`, /repo/src/collection/avl.go:303-316; called for nodes only. -/
def Tree.toText (showK : K → Text) (showV : V → Text) : Tree K V → Text
  | .nil => txt "<nil>"
  | .node k v b l r =>
    txt "k=" ++ showK k ++ txt ", v=" ++ showV v ++ txt ", b=" ++ showInt b ++ txt ", l=[" ++ showLink showK l ++ txt ", " ++
      showLink showK r ++ txt "]"

/-- `AVLNode.Print`, /repo/src/collection/avl.go:280-301, nothing for nil (:295, :298). -/
def Tree.print (showK : K → Text) (showV : V → Text) : Nat → Tree K V → Text
  | _, .nil => []
  | indent, .node k v b l r =>
    spaces indent ++ Tree.toText showK showV (.node k v b l r) ++ '\n' :: (Tree.print showK showV (indent + 4) l ++
      Tree.print showK showV (indent + 4) r)

/-- `AVLTree.ToString`, /repo/src/collection/avl.go:88-94. -/
def SortedMap.toText (showK : K → Text) (showV : V → Text) (m : SortedMap K V) : Text :=
  txt "AVLTree: s=" ++ showInt m.size ++ txt ", " ++ m.root.toText showK showV

/-- `AVLTree.Print`, /repo/src/collection/avl.go:81-86. -/
def SortedMap.print (showK : K → Text) (showV : V → Text) (indent : Nat) (m : SortedMap K V) : Text :=
  spaces indent ++ m.toText showK showV ++ '\n' :: m.root.print showK showV (indent + 4)

/-! ### Hash maps -/

/-- The key of the next node of a chain, or nil, /repo/src/collection/hash.go:283-287. -/
def showNext (showK : K → Text) : List (K × V) → Text
  | [] => txt "<nil>"
  | (k, _) :: _ => showK k

/-- `HashNode.ToString`, /repo/src/collection/hash.go:282-288, of the first node of a chain. -/
def chainText (showK : K → Text) (showV : V → Text) : List (K × V) → Text
  | [] => []
  | (k, v) :: l =>
    txt "k=" ++ showK k ++ txt ", v=" ++ showV v ++ txt ", l=[" ++ showNext showK l ++ txt "]"

/-- `HashNode.Print`, /repo/src/collection/hash.go:275-280, nothing for nil (:260, :277). -/
def chainPrint (showK : K → Text) (showV : V → Text) : Nat → List (K × V) → Text
  | _, [] => []
  | indent, e :: l => spaces indent ++ chainText showK showV (e :: l) ++ '\n' :: chainPrint showK showV (indent + 4) l

/-- `Hash.ToString`, /repo/src/collection/hash.go:266-273; `lf` and `mul` are the texts of the two floats. -/
def HashTab.toText (seed : Nat) (lf mul : Text) (h : HashTab K V) : Text :=
  txt "Hash: size=" ++ showInt h.size ++ txt ", capacity=" ++ showNat h.array.length ++ txt ", seed=" ++ showNat seed ++ txt ", lf=" ++ lf ++
    txt ", m=" ++ mul ++ txt ", "

/-- `Hash.Print`, /repo/src/collection/hash.go:257-264. -/
def HashTab.print (seed : Nat) (lf mul : Text) (showK : K → Text) (showV : V → Text) (indent : Nat) (h : HashTab K V) : Text :=
  spaces indent ++ h.toText seed lf mul ++ '\n' :: h.array.flatMap (chainPrint showK showV (indent + 4))

/-! ### Tries -/

/-- A node of a trie as it is printed: `TrieNode`, /repo/src/util/trie_util.go:773-785, or `MappedTrieNode`, :268-283.  The children are
those its map delivers, in order; the size of the map is their number.  The map is not nil: no `TrieNode` has a nil map (:786-803), and no
`MappedTrieNode` made by its constructor (:290). -/
inductive PNode (α : Type) where
  | node (mapped : Bool) (nodeKey : Bytes) (data : α) (offset : Nat) (buf : Bytes) (kids : List (PNode α)) : PNode α

/-- `TrieNode.ToString`, /repo/src/util/trie_util.go:963-980, and `MappedTrieNode.ToString`, :521-530. -/
def PNode.toText {α : Type} (showV : α → Text) : PNode α → Text
  | .node mapped k d off buf kids =>
    txt (if mapped then "MappedTrieNode: k=" else "TrieNode: k=") ++ showHexBytes k ++ txt ", child=[" ++ showNat kids.length ++
      txt "], data=" ++ showV d ++ txt ", off=" ++ showNat off ++ txt ", buf=" ++ showBytes (buf.take 16) ++ txt " "

mutual
/-- `TrieNode.Print`, /repo/src/util/trie_util.go:955-961, and `MappedTrieNode.Print`, :513-519. -/
def PNode.print {α : Type} (showV : α → Text) (indent : Nat) : PNode α → Text
  | .node mapped k d off buf kids =>
    spaces indent ++ PNode.toText showV (.node mapped k d off buf kids) ++ PNode.printAll showV (indent + 4) kids

/-- The loop over the children, /repo/src/util/trie_util.go:957-960, :515-518. -/
def PNode.printAll {α : Type} (showV : α → Text) (indent : Nat) : List (PNode α) → Text
  | [] => []
  | n :: l => PNode.print showV indent n ++ PNode.printAll showV indent l
end

/-- `Trie.ToString`, /repo/src/util/trie_util.go:764-769 (`none`: the root is nil, panics). -/
def trieText {α : Type} (showV : α → Text) (root : Option (PNode α)) (buf : Bytes) : Option Text :=
  root.map fun r => txt "Trie: r=" ++ r.toText showV ++ txt ", buf=" ++ showBytes (buf.take 32)

/-- `Trie.Print`, /repo/src/util/trie_util.go:757-762 (`none`: panics).  The format is `%N%s\n`: `%N%` prints a percent sign and takes no
argument, so `s` and the return are printed as they are, and the arguments are reported as extra. -/
def triePrint {α : Type} (showV : α → Text) (indent : Nat) (root : Option (PNode α)) (buf : Bytes) : Option Text :=
  match root, trieText showV root buf with
  | some r, some t => some (txt "%s\n%!(EXTRA string=, string=" ++ t ++ txt ")" ++ r.print showV (indent + 4))
  | _, _ => none

/-- `MappedTrieNode.ToString`, /repo/src/util/trie_util.go:521-530, of a node of a loaded trie; `none`: the map is nil, `Size` (:526) of
which panics.  The buffer of a node is the part of that of the trie from its offset on (:194, :204). -/
def MTrieNode.toText (showV : Option Bytes → Text) (buf : Bytes) (n : MTrieNode) : Option Text :=
  n.children.map fun m =>
    txt "MappedTrieNode: k=" ++ showHexBytes n.nodeKey ++ txt ", child=[" ++ showInt m.size ++ txt "], data=" ++ showV n.nodeValue ++
      txt ", off=" ++ showNat n.offset ++ txt ", buf=" ++ showBytes ((buf.drop n.offset).take 16) ++ txt " "

/-- `MappedTrie.ToString`, /repo/src/util/trie_util.go:257-262 (`none`: panics). -/
def MTrie.toText (showV : Option Bytes → Text) (buf : Bytes) (t : MTrie) : Option Text := do
  let r ← t.nodes[0]?
  let s ← r.toText showV buf
  some (txt "MappedTrie: r=" ++ s ++ txt ", buf=" ++ showBytes (buf.take 32))

/-- The values an iterator over the map delivers, /repo/src/util/trie_util.go:515-516 (/repo/src/collection/avl.go:318-422; see C20). -/
def Tree.inOrder : Tree K V → List V
  | .nil => []
  | .node _ v _ l r => l.inOrder ++ v :: r.inOrder

/-- `MappedTrieNode.Print`, /repo/src/util/trie_util.go:513-519, of the node with index `id`; `fuel` bounds the depth, which is less than
the number of nodes. -/
def MTrie.printNode (showV : Option Bytes → Text) (buf : Bytes) (t : MTrie) : Nat → Nat → Nat → Option Text
  | 0, _, _ => none
  | fuel + 1, indent, id => do
    let n ← t.nodes[id]?
    let s ← n.toText showV buf
    let kids ← match n.children with
      | none => some []
      | some m => m.root.inOrder.mapM fun c => MTrie.printNode showV buf t fuel (indent + 4) c
    some (spaces indent ++ s ++ kids.flatten)

/-- `MappedTrie.Print`, /repo/src/util/trie_util.go:250-255 (`none`: panics), with the same format as `Trie.Print`. -/
def MTrie.print (showV : Option Bytes → Text) (buf : Bytes) (indent : Nat) (t : MTrie) : Option Text := do
  let s ← t.toText showV buf
  let p ← MTrie.printNode showV buf t t.nodes.length (indent + 4) 0
  some (txt "%s\n%!(EXTRA string=, string=" ++ s ++ txt ")" ++ p)

end Poodle
