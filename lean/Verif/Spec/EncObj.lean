import Verif.Model.EncObj

/-
Specification of schemes, tries and loaded tries as objects: what their calls answer, by what they were made from and the calls before.
-/

namespace Poodle.Spec

/-- What a call on a constructed scheme answers, by its parts, the bytes it has to be encoded to (none if they are too many), and whether
`Encode` was called. -/
def builtAnswer (parts : Scheme) (bytes : Option Bytes) (tried : Bool) : SchemeCall → Res SchemeOut
  | .decode => .err
  | .isDecoded => .ok (.flag true)
  | .isEncoded => .ok (.flag (tried && bytes.isSome))
  | .encode => if bytes.isSome then .ok (.number 0) else .err
  | .domain => .ok (.slice parts.domain)
  | .domainName => .ok (.slice (some parts.domain.bytes))
  | .tablet => .ok (.slice parts.tablet)
  | .tabletName => .ok (.slice (some parts.tablet.bytes))
  | .buckets => .ok (.slices parts.buckets)
  | .bucketAt i => match if 0 ≤ i then parts.buckets.bind fun bs => bs[i.toNat]? else none with
    | some b => .ok (.slice b)
    | none => .panic
  | .magic => if tried && bytes.isSome then .ok (.number 0) else .panic
  | .buf => match if tried then bytes else none with
    | some b => .ok (.slice (some b))
    | none => .panic
  | .copy => .ok (.scheme parts)
  | .est => .ok (.number parts.estBufSize)

/-- The answers of a history of calls. -/
def builtAnswers (parts : Scheme) (bytes : Option Bytes) : Bool → List SchemeCall → List (Res SchemeOut)
  | _, [] => []
  | tried, c :: cs => builtAnswer parts bytes tried c :: builtAnswers parts bytes (tried || c == .encode) cs

/-- An iterator that never had a node. -/
def noIter : TrieIter := { paths := [], curr := none }

/-- What a call on a loaded trie answers, by the bytes, the number of bytes read, and the trie, which is its own copy. -/
def loadedAnswer (buf : Bytes) (n : Nat) (self : LTrie) : TrieCall Bytes → Res (TrieOut Bytes)
  | .get _ => .ok (.value none)
  | .set _ _ => .panic
  | .iterator => .panic
  | .keyIterator k => if k.isEmpty then .panic else .ok (.iter noIter)
  | .rangeIterator => .panic
  | .isEncoded => .ok (.flag true)
  | .encode => .err
  | .isDecoded => .ok (.flag true)
  | .decode => .ok (.number n)
  | .copy => .ok (.trie self)
  | .copyConstruct => .err
  | .buf => .ok (.bytes buf)
  | .est => .ok (.number buf.length)

variable {α : Type}

/-- What a call on a constructed trie answers, by the value for the empty key and the loaded trie without bytes. -/
def trieAnswer (none0 : LTrie) (d : Option α) : TrieCall α → Res (TrieOut α)
  | .get k => if k.isEmpty then .ok (.value d) else .panic
  | .set k _ => if k.isEmpty then .ok (.value d) else .panic
  | .iterator => .panic
  | .keyIterator _ => .panic
  | .rangeIterator => .panic
  | .isEncoded => .ok (.flag false)
  | .encode => .panic
  | .isDecoded => .ok (.flag true)
  | .decode => .err
  | .copy => .ok (.trie none0)
  | .copyConstruct => .ok (.trie none0)
  | .buf => .panic
  | .est => .ok (.number 1)

/-- The value for the empty key after a call. -/
def valueAfter (d : Option α) : TrieCall α → Option α
  | .set k v => if k.isEmpty then v else d
  | _ => d

/-- The answers of a history of calls. -/
def trieAnswers (none0 : LTrie) : Option α → List (TrieCall α) → List (Res (TrieOut α))
  | _, [] => []
  | d, c :: cs => trieAnswer none0 d c :: trieAnswers none0 (valueAfter d c) cs

end Poodle.Spec
