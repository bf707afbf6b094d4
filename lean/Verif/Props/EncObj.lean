import Verif.Spec.EncObj
import Verif.Props.Scheme
import Verif.Props.SchemeObj
import Verif.Props.TrieNodes

/-
C194: tries as encodable objects; C195: schemes as encodable objects; C196: copies of loaded nodes.
-/

namespace Poodle.Props
open Poodle.Spec

variable {α : Type}

/-! ### C194: tries -/

theorem loadTrie_iff (buf : Bytes) (s : LTrie) (n : Nat) : loadTrie buf = .ok (s, n) ↔
    ∃ t, newMappedTrie buf = .ok (t, n) ∧ s = { decoded := true, buf := buf, trie := t } := by
  unfold loadTrie LTrie.decode rawLTrie
  rcases h : newMappedTrie buf with ⟨t, m⟩ | - | - <;> simp
  constructor
  · rintro ⟨rfl, rfl⟩; exact ⟨rfl, rfl⟩
  · rintro ⟨rfl, rfl⟩; exact ⟨rfl, rfl⟩

theorem loaded_call (buf : Bytes) (s : LTrie) (n : Nat) (h : loadTrie buf = .ok (s, n)) (c : TrieCall Bytes) :
    s.call c = (s, loadedAnswer buf n s c) := by
  obtain ⟨t, ht, rfl⟩ := (loadTrie_iff buf s n).mp h
  have hi := C92_loaded_partial buf t n ht
  have hit : t.iterator = .panic := (hi .empty rfl).1
  cases c with
  | get k => simp [LTrie.call, loadedAnswer, C81_get buf t n ht k, Res.bind]
  | set k v => rfl
  | iterator => simp [LTrie.call, loadedAnswer, hit, Res.bind]
  | keyIterator k =>
    by_cases hk : k.isEmpty = true
    · simp [LTrie.call, loadedAnswer, (hi k hk).2, hk, Res.bind]
    · have : t.keyIterator k = .ok noIter := by
        unfold MTrie.keyIterator
        rw [if_neg hk, C81_get buf t n ht k]
        rfl
      simp [LTrie.call, loadedAnswer, this, hk, Res.bind]
  | rangeIterator => simp [LTrie.call, loadedAnswer, hit, Res.bind]
  | isEncoded => rfl
  | encode => rfl
  | isDecoded => rfl
  | decode => simp [LTrie.call, loadedAnswer, LTrie.decode, ht, Res.bind]
  | copy => simp [LTrie.call, loadedAnswer, copyTrie, Slice.bytes, h, Res.bind]
  | copyConstruct => rfl
  | buf => rfl
  | est => rfl

/-- C194, loaded tries, exactly: after any calls a loaded trie is as it was loaded, and every call answers as on the first day: it is
encoded, decoded, has the bytes it was made from and the length `Decode` returned at first; its copy is equal to it in all respects. -/
theorem C194_loaded_partial (buf : Bytes) (s : LTrie) (n : Nat) (h : loadTrie buf = .ok (s, n)) (cs : List (TrieCall Bytes)) :
    s.calls cs = (s, cs.map (loadedAnswer buf n s)) := by
  induction cs with
  | nil => rfl
  | cons c cs ih => simp [LTrie.calls, loaded_call buf s n h c, ih]

example : ∃ s, loadTrie [0, 0, 7] = .ok (s, 2) := ⟨_, rfl⟩

theorem emptyLoaded : ∃ e, loadTrie [] = .ok (e, 0) := ⟨_, rfl⟩

/-- The states a constructed trie can be in. -/
def trieState (d : Option α) : CTrie α := { root := .node none d .new, encoded := false, buf := none, estBufSize := 1 }

theorem trie_call (enc : α → Res Bytes) (e : LTrie) (he : loadTrie [] = .ok (e, 0)) (d : Option α) (c : TrieCall α) :
    (trieState d).call enc c = (trieState (valueAfter d c), trieAnswer e d c) := by
  unfold trieState
  cases c with
  | get k =>
    by_cases hk : k.isEmpty = true
    · simp [CTrie.call, trieAnswer, valueAfter, TrieNode.get, hk, Res.bind, TrieNode.value]
    · obtain ⟨a, l, hl⟩ := List.exists_cons_of_ne_nil (subKeys_ne_nil (Bool.eq_false_iff.mpr hk))
      have : TrieNode.get (TrieNode.node none d .new) k = .panic := by
        unfold TrieNode.get
        rw [if_neg hk, hl, TrieNode.find, getChild_new]
        rfl
      simp [CTrie.call, trieAnswer, valueAfter, this, hk, Res.bind]
  | set k v =>
    simp only [CTrie.call, set_new]
    by_cases hk : k.isEmpty = true
    · simp [trieAnswer, valueAfter, hk, Res.bind]
    · simp [trieAnswer, valueAfter, hk, Res.bind]
  | iterator => rfl
  | keyIterator k =>
    have : TrieNode.keyIterator (TrieNode.node none d .new) k = .panic := by
      unfold TrieNode.keyIterator
      by_cases hk : k.isEmpty = true
      · rw [if_pos hk]; rfl
      · obtain ⟨a, l, hl⟩ := List.exists_cons_of_ne_nil (subKeys_ne_nil (Bool.eq_false_iff.mpr hk))
        have : TrieNode.get (TrieNode.node none d .new) k = .panic := by
          unfold TrieNode.get
          rw [if_neg hk, hl, TrieNode.find, getChild_new]
          rfl
        rw [if_neg hk, this]
        rfl
    simp [CTrie.call, trieAnswer, valueAfter, this, Res.bind]
  | rangeIterator => rfl
  | isEncoded => rfl
  | encode => rfl
  | isDecoded => rfl
  | decode => rfl
  | copy => simp [CTrie.call, trieAnswer, valueAfter, copyTrie, Slice.bytes, he, Res.bind]
  | copyConstruct => simp [CTrie.call, trieAnswer, valueAfter, copyTrie, Slice.bytes, he, Res.bind]
  | buf => rfl
  | est => rfl

/-- C194, constructed tries, exactly: whatever was called before, a trie is never encoded (`Encode` panics, `Buf` panics, `IsEncoded` is
false, the estimate stays 1), is decoded, refuses `Decode`, and its copies are loaded tries without content. -/
theorem C194_trie_partial (enc : α → Res Bytes) : ∃ e, loadTrie [] = .ok (e, 0) ∧
    ∀ cs : List (TrieCall α), (newCTrie.calls enc cs).2 = trieAnswers e none cs := by
  obtain ⟨e, he⟩ := emptyLoaded
  refine ⟨e, he, ?_⟩
  have key : ∀ (cs : List (TrieCall α)) (d : Option α),
      ((trieState d).calls enc cs).2 = trieAnswers e d cs := by
    intro cs
    induction cs with
    | nil => intro d; rfl
    | cons c cs ih => intro d; simp [CTrie.calls, trie_call enc e he d c, trieAnswers, ih]
  exact fun cs => key cs none

/-- The full claim of C194: as /repo/src/util/encodable.go promises, `Encode` of a constructed trie completes or reports an error, and
then the trie is encoded; a loaded trie has a constructed copy. -/
def TriesKeepPromises (α : Type) : Prop :=
  (∀ (enc : α → Res Bytes) (cs : List (TrieCall α)), (∀ v, ∃ b, enc v = .ok b) →
    ∃ pre, (newCTrie.calls enc (cs ++ [.encode, .isEncoded])).2 = pre ++ [.ok .done, .ok (.flag true)]) ∧
  (∀ (buf : Bytes) (s : LTrie) (n : Nat), loadTrie buf = .ok (s, n) → (s.call .copyConstruct).2 ≠ .err)

/-- C194 is false, in both parts. -/
theorem C194_refuted : ¬ (TriesKeepPromises Bytes) ∧
    ¬ (∀ (buf : Bytes) (s : LTrie) (n : Nat), loadTrie buf = .ok (s, n) → (s.call .copyConstruct).2 ≠ .err) := by
  refine ⟨fun h => ?_, fun h => ?_⟩
  · obtain ⟨e, -, he⟩ := C194_trie_partial (α := Bytes) .ok
    obtain ⟨pre, hp⟩ := h.1 .ok [] fun v => ⟨v, rfl⟩
    rw [he] at hp
    have := congrArg List.head? hp
    rcases pre with - | ⟨a, pre⟩
    · cases this
    · have hl := congrArg List.length hp
      simp [trieAnswers] at hl
  · obtain ⟨e, he⟩ := emptyLoaded
    exact h [] e 0 he rfl

/-! ### C195: schemes -/

/-- The bytes of a scheme, if they are not too many. -/
def fitBytes (parts : Scheme) : Option Bytes := if (schemeBytes parts).length ≤ maxSchemeLength then some (schemeBytes parts) else none

/-- The states a constructed scheme can be in. -/
def builtState (parts : Scheme) (tried : Bool) : BScheme :=
  match if tried then fitBytes parts else none with
  | some b => { encoded := true, buf := some b, parts := parts }
  | none => newBScheme parts

theorem schemeBytes_head (parts : Scheme) : ∃ l, schemeBytes parts = 0 :: l := ⟨_, rfl⟩

theorem built_call (parts : Scheme) (tried : Bool) (c : SchemeCall) : (builtState parts tried).call c =
    (builtState parts (tried || c == .encode), builtAnswer parts (fitBytes parts) tried c) := by
  have he := scheme_encode_eq parts
  obtain ⟨l, hl⟩ := schemeBytes_head parts
  have hb : ∀ i, (match if 0 ≤ i then parts.buckets.bind fun bs => bs[i.toNat]? else none with
      | some b => .ok (.slice b)
      | none => .panic) = (BScheme.bucketAt (newBScheme parts) i).bind fun d => Res.ok (SchemeOut.slice d) := by
    intro i
    unfold BScheme.bucketAt newBScheme
    rcases parts.buckets with - | bs
    · simp [Res.bind]
    · by_cases hi : i < 0
      · simp [hi, Res.bind, Int.not_le.mpr hi]
      · simp only [hi, if_false, Int.not_lt.mp hi, if_true, Option.bind_some]
        rcases bs[i.toNat]? with - | b <;> rfl
  have hn : ∀ o : Slice, (match o with
      | none => []
      | some d => d) = o.bytes := by intro o; cases o <;> rfl
  by_cases hf : (schemeBytes parts).length ≤ maxSchemeLength
  · have hfit : fitBytes parts = some (schemeBytes parts) := by rw [fitBytes, if_pos hf]
    rw [if_pos hf] at he
    have h0 : builtState parts false = newBScheme parts := rfl
    have h1 : builtState parts true = { encoded := true, buf := some (schemeBytes parts), parts := parts } := by
      simp [builtState, hfit]
    cases tried <;> cases c <;>
      simp [h0, h1, hfit, BScheme.call, builtAnswer, newBScheme, BScheme.encode, he, Res.bind, BScheme.magic, BScheme.getBuf, hl,
        copy_same]
    all_goals first | rfl | exact hn _ | exact ⟨rfl, hn _⟩ | exact ⟨rfl, (hb _).symm⟩ | exact (hb _).symm
  · have hfit : fitBytes parts = none := by rw [fitBytes, if_neg hf]
    rw [if_neg hf] at he
    have h0 : ∀ b, builtState parts b = newBScheme parts := by intro b; cases b <;> simp [builtState, hfit]
    cases c <;>
      simp [h0, hfit, BScheme.call, builtAnswer, newBScheme, BScheme.encode, he, Res.bind, BScheme.magic, BScheme.getBuf,
        copy_same]
    all_goals first | rfl | exact hn _ | exact ⟨rfl, hn _⟩ | exact ⟨rfl, (hb _).symm⟩ | exact (hb _).symm

/-- C195: whatever was called before on a scheme (a new one, or a copy of any scheme), every call keeps what
/repo/src/util/encodable.go promises: the parts never change; the scheme counts as decoded and refuses `Decode`; it is encoded exactly if
`Encode` was called and the bytes are not too many, and then `Buf` is those bytes, no matter how often; the copy has the same parts. -/
theorem C195_history (parts : Scheme) (cs : List SchemeCall) :
    ((newBScheme parts).calls cs).2 = builtAnswers parts (fitBytes parts) false cs := by
  have key : ∀ (cs : List SchemeCall) (tried : Bool), ((builtState parts tried).calls cs).2 = builtAnswers parts (fitBytes parts) tried cs := by
    intro cs
    induction cs with
    | nil => intro t; rfl
    | cons c cs ih => intro t; simp [BScheme.calls, built_call parts t c, builtAnswers, ih]
  exact key cs false

example : fitBytes { domain := some [100], tablet := none, buckets := some [some [98], none] } = some [0, 1, 100, 2, 1, 98, 0] := by
  decide +kernel

example : ((newBScheme { domain := some [100], tablet := none, buckets := some [some [98], none] }).calls
    [.isEncoded, .encode, .isEncoded, .buf, .bucketAt 1, .bucketAt 2]).2 =
    [.ok (.flag false), .ok (.number 0), .ok (.flag true), .ok (.slice (some [0, 1, 100, 2, 1, 98, 0])), .ok (.slice none), .panic] := by
  decide +kernel

/-- C195: the copy of a scheme does not depend on what was called on the original, and starts without being encoded. -/
theorem C195_copy (parts : Scheme) (cs : List SchemeCall) (c : Scheme)
    (h : (((newBScheme parts).calls cs).1.call .copy).2 = .ok (.scheme c)) (cs' : List SchemeCall) :
    ((newBScheme c).calls cs').2 = ((newBScheme parts).calls cs').2 := by
  have key : ∀ (cs : List SchemeCall) (tried : Bool), ∃ t, ((builtState parts tried).calls cs).1 = builtState parts t := by
    intro cs
    induction cs with
    | nil => intro t; exact ⟨t, rfl⟩
    | cons c cs ih => intro t; simp only [BScheme.calls, built_call parts t c]; exact ih _
  obtain ⟨t, ht⟩ := key cs false
  have h' : ((builtState parts false).calls cs).1 = _ := ht
  rw [show newBScheme parts = builtState parts false from rfl, h', built_call] at h
  have : parts = c := by simpa [builtAnswer] using h
  rw [this]

example := C195_copy ⟨some [1], none, some [some [2], none]⟩ [.encode, .copy] ⟨some [1], none, some [some [2], none]⟩ (by decide +kernel) [.encode, .copy, .encode]

/-! ### C196: copies of loaded nodes -/

/-- The full claim of C196: a copy can be made and read like the node, and making it changes no node. -/
def NodeCopyHarmless : Prop := ∀ (t t' : MTrie) (parent : Option Nat) (buf : Bytes) (offset id n : Nat),
  t.newMappedNode parent buf offset = .ok (t', id, n) → 0 < n →
    ∃ t'' id', t'.copyNode offset buf = .ok (t'', id') ∧ ∀ i < t'.nodes.length, t''.nodes[i]? = t'.nodes[i]?

/-- C196, exactly: what a copy that is made does.  The copy of a node without content changes nothing and can be read; any other copy
cannot be read, takes the place of the original among the known nodes and among the children of its parent, and changes nothing else. -/
theorem C196_copy_partial (t t' : MTrie) (offset id : Nat) (buf : Bytes) (h : t.copyNode offset buf = .ok (t', id)) :
    id = t.nodes.length ∧ ∃ c, t'.nodes[id]? = some c ∧ c.offset = offset ∧ c.children = none ∧
    (((∃ m, decodeUvarint64 buf = .ok (0, m)) ∧ t'.known = t.known ∧ (∀ i < id, t'.nodes[i]? = t.nodes[i]?) ∧
        c.key = .ok [] ∧ c.value = .ok none ∧ c.childSize = .ok 0 ∧ c.getParent = .ok none) ∨
      ((¬ ∃ m, decodeUvarint64 buf = .ok (0, m)) ∧ t'.known = (offset, id) :: t.known ∧
        c.key = .panic ∧ c.value = .panic ∧ c.childSize = .panic ∧ c.getParent = .panic ∧
        ∃ i p m key, t.nodes[i]? = some p ∧ p.children = some m ∧ (m.put sliceOps (some key) id).2.isSome ∧
          t'.nodes[i]? = some { p with children := some (m.put sliceOps (some key) id).1 } ∧
          ∀ j < id, j ≠ i → t'.nodes[j]? = t.nodes[j]?)) := by
  unfold MTrie.copyNode at h
  split at h
  rotate_left
  · cases h
  rename_i t1 tn1 n1 hd
  cases h
  refine ⟨rfl, tn1, ?_⟩
  unfold MTrie.decodeNode at hd
  obtain ⟨⟨mark, m⟩, hm, hd⟩ := Res.bind_eq_ok.mp hd
  dsimp only at hd
  by_cases h0 : mark = 0
  · rw [if_pos h0] at hd
    cases hd
    refine ⟨by simp, rfl, rfl, .inl ⟨⟨_, by rw [hm, h0]⟩, rfl, fun i hi => ?_, rfl, rfl, rfl, rfl⟩⟩
    exact List.getElem?_append_left hi
  · rw [if_neg h0] at hd
    have hno : ¬ ∃ m, decodeUvarint64 buf = .ok (0, m) := by
      rintro ⟨m', h'⟩
      rw [hm] at h'
      cases h'
      exact h0 rfl
    obtain ⟨⟨nodeKey, keyN⟩, -, hd⟩ := Res.bind_eq_ok.mp hd
    dsimp only at hd
    split at hd
    · cases hd
    obtain ⟨⟨po, pn⟩, -, hd⟩ := Res.bind_eq_ok.mp hd
    dsimp only at hd
    split at hd
    · cases hd
    rename_i i hlook
    obtain ⟨⟨v, x, vn⟩, -, hd⟩ := Res.bind_eq_ok.mp hd
    dsimp only at hd
    obtain ⟨⟨c, cn⟩, -, hd⟩ := Res.bind_eq_ok.mp hd
    dsimp only at hd
    split at hd
    · cases hd
    rename_i p hp
    split at hd
    · cases hd
    rename_i m hch
    split at hd
    · cases hd
    rename_i m' o hput
    cases hd
    have hi : i < t.nodes.length := (List.getElem?_eq_some_iff.mp hp).1
    refine ⟨by simp, rfl, rfl, .inr ⟨hno, rfl, rfl, rfl, rfl, rfl, i, p, m, nodeKey, hp, hch, by rw [hput]; rfl, ?_, fun j hj hne => ?_⟩⟩
    · rw [List.getElem?_append_left (by simpa using hi), hput]
      simp [hi]
    · rw [List.getElem?_append_left (by simpa using hj), List.getElem?_set_ne (Ne.symm hne)]

/-- C196, exactly: after the copy of a node with content, no node can be loaded below the original any more: bytes of a node whose parent
has its offset make the program panic. -/
theorem C196_blocks_partial (t t' : MTrie) (offset id : Nat) (buf : Bytes) (h : t.copyNode offset buf = .ok (t', id))
    (hc : ¬ ∃ m, decodeUvarint64 buf = .ok (0, m)) (parent : Option Nat) (child : Bytes) (off : Nat)
    (mark n1 n2 n3 po : Nat) (key : Bytes) (h1 : decodeUvarint64 child = .ok (mark, n1)) (hmark : mark ≠ 0)
    (h2 : decodeVarchar (child.drop n1) = .ok (key, n2)) (hkey : key ≠ []) (h3 : decodeUvarint64 (child.drop (n1 + n2)) = .ok (po, n3))
    (hpo : po % 2 ^ 32 = offset) (h4 : ∃ r, decodeSimple (child.drop (n1 + n2 + n3)) = .ok r) :
    t'.newMappedNode parent child off = .panic := by
  obtain ⟨-, c, hcget, -, hch, ⟨h0, -⟩ | ⟨-, hk, -⟩⟩ := C196_copy_partial t t' offset id buf h
  · exact absurd h0 hc
  obtain ⟨⟨v, x, vn⟩, h4⟩ := h4
  have : t'.decodeNode t'.nodes.length { newMTrieNode parent off with children := some .new } child = .panic := by
    unfold MTrie.decodeNode
    rw [h1, Res.bind_ok]
    dsimp only
    rw [if_neg hmark, h2, Res.bind_ok]
    dsimp only
    rw [if_neg hkey, h3, Res.bind_ok]
    dsimp only
    rw [hpo, hk, List.lookup_cons_self]
    dsimp only
    rw [h4, Res.bind_ok, Res.bind_ok]
    dsimp only
    rw [hcget]
    dsimp only
    rw [hch]
  simp only [MTrie.newMappedNode]
  rw [this]

/-- The node "a" below the root, then a node "b" below it: its bytes load, but not after a copy of "a" was made. -/
example : ∃ t t' t'' id id' n m, (rootAt 0).newMappedNode (some 0) [1, 1, 97, 0, 2, 1, 2, 0] 2 = .ok (t, id, n) ∧
    t.newMappedNode (some id) [1, 1, 98, 2, 1, 7, 0] 17 = .ok (t', id', m) ∧ m ≠ 0 ∧
    ∃ j, t.copyNode 2 [1, 1, 97, 0, 2, 1, 2, 0] = .ok (t'', j) ∧ t''.newMappedNode (some id) [1, 1, 98, 2, 1, 7, 0] 17 = .panic := by
  exact ⟨_, _, _, _, _, _, _, rfl, rfl, by decide +kernel, _, rfl, rfl⟩

/-- C196 is false. -/
theorem C196_refuted : ¬ NodeCopyHarmless := by
  intro h
  obtain ⟨t, id, h1, h2⟩ := h (rootAt 0) _ (some 0) [1, 1, 97, 0, 2, 1, 2, 0] 9 _ _ rfl (by decide +kernel)
  obtain ⟨u, hu⟩ : ∃ u, Res.ok (t, id) = .ok u ∧ (u.1.nodes[0]?.bind fun n => n.children.bind fun m => m.get sliceOps (some [97])) =
      some (some 2) := ⟨_, h1.symm.trans rfl, by decide +kernel⟩
  obtain ⟨hu, h3⟩ := hu
  cases hu
  rw [h2 0 (by decide +kernel)] at h3
  revert h3
  decide +kernel

example := C194_trie_partial (Res.ok : Bytes → Res Bytes)

/-- A copy of the node "a" below the root. -/
example : ∃ t t' id n j, (rootAt 0).newMappedNode (some 0) [1, 1, 97, 0, 2, 1, 2, 0] 2 = .ok (t, id, n) ∧
    t.copyNode 2 [1, 1, 97, 0, 2, 1, 2, 0] = .ok (t', j) ∧ j = t.nodes.length :=
  ⟨_, _, _, _, _, rfl, rfl, (C196_copy_partial _ _ 2 _ [1, 1, 97, 0, 2, 1, 2, 0] rfl).1⟩

end Poodle.Props
