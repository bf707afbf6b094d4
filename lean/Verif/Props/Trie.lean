import Verif.Spec.Trie
import Verif.Props.Codec
import Verif.Lemmas.ValueHeap

/-
Properties C78-C81, C92, C93: tries (/repo/src/util/trie_util.go).
-/

namespace Poodle.Props
open Poodle Spec
variable {α : Type}

theorem subKeys_ne_nil {k : KeyObj} (h : k.isEmpty = false) : k.subKeys ≠ [] := by
  cases k with
  | empty => simp [KeyObj.isEmpty] at h
  | key k => intro h'; simp [KeyObj.isEmpty, KeyObj.subKeys] at h h'; exact h h'
  | mapped m =>
    intro h'
    simp only [KeyObj.isEmpty, MappedKey.isEmpty, Bool.or_eq_false_iff] at h
    simp only [KeyObj.subKeys] at h'
    simp [h'] at h

/-! ### C78: tries as maps -/

theorem getChild_new (a : Slice) (d : Option α) (k : Slice) : (TrieNode.node a d .new).getChild k = .panic := rfl

theorem set_new (a : Slice) (d : Option α) (k : KeyObj) (v : Option α) : (TrieNode.node a d .new).set k v =
    if k.isEmpty then (.node a v .new, .ok d) else (.node a d .new, .panic) := by
  unfold TrieNode.set
  by_cases h : k.isEmpty = true
  · rw [if_pos h, if_pos h]; rfl
  · rw [if_neg h, if_neg h]
    cases hk : k.subKeys with
    | nil => exact absurd hk (subKeys_ne_nil (by simpa using h))
    | cons s ss => rw [TrieNode.setPath, getChild_new]; rfl

theorem trieHistory_eq (ops : List (KeyObj × Option α)) : trieHistory ops = .node none (lastEmpty ops) .new := by
  have key : ∀ (ops : List (KeyObj × Option α)) (d : Option α),
      ops.foldl (fun t op => (t.set op.1 op.2).1) (TrieNode.node none d .new) =
        .node none (ops.foldl (fun acc op => if op.1.isEmpty then op.2 else acc) d) .new := by
    intro ops
    induction ops with
    | nil => intro d; rfl
    | cons o os ih =>
      intro d
      simp only [List.foldl_cons]
      rw [set_new]
      by_cases h : o.1.isEmpty = true
      · simp only [if_pos h]; exact ih _
      · simp only [if_neg h]; exact ih _
  exact key ops none

/-- The full claim of C78. -/
def TrieIsMap (α : Type) : Prop :=
  ∀ (ops : List (KeyObj × Option α)) (k : KeyObj) (v : α), ((trieHistory ops).set k (some v)).1.get k = .ok (some v)

/-- C78, exactly: in every history the trie holds a value for the empty key only; `Get` and `Set` of any other key panic. -/
theorem C78_behaviour_partial (ops : List (KeyObj × Option α)) (k : KeyObj) (v : Option α) :
    ((trieHistory ops).get k = if k.isEmpty then .ok (lastEmpty ops) else .panic) ∧
    ((trieHistory ops).set k v).2 = if k.isEmpty then .ok (lastEmpty ops) else .panic := by
  rw [trieHistory_eq, set_new]
  constructor
  · unfold TrieNode.get
    by_cases h : k.isEmpty = true
    · rw [if_pos h, if_pos h]; rfl
    · rw [if_neg h, if_neg h]
      cases hk : k.subKeys with
      | nil => exact absurd hk (subKeys_ne_nil (by simpa using h))
      | cons s ss => rw [TrieNode.find, getChild_new]; rfl
  · split <;> rfl

/-- C78: the part that holds: setting the empty key. -/
theorem C78_empty_key_partial (ops : List (KeyObj × Option α)) (k k' : KeyObj) (v : Option α) (h : k.isEmpty = true)
    (h' : k'.isEmpty = true) : ((trieHistory ops).set k v).1.get k' = .ok v := by
  have e : ((trieHistory ops).set k v).1 = trieHistory (ops ++ [(k, v)]) := by simp [trieHistory]
  rw [e, (C78_behaviour_partial _ _ v).1, if_pos h']
  simp [lastEmpty, h]

example : (KeyObj.empty).isEmpty = true ∧ (KeyObj.key newKey).isEmpty = true := by decide +kernel

/-- C78 as stated does not hold. -/
theorem C78_refuted : ¬ TrieIsMap Bytes := by
  intro h
  have := h [] (.key (newSimpleKey (some [1]))) [2]
  rw [show ((trieHistory ([] : List (KeyObj × Option Bytes))).set (.key (newSimpleKey (some [1]))) (some [2])).1 =
    trieHistory [(.key (newSimpleKey (some [1])), some [2])] from rfl, (C78_behaviour_partial _ _ none).1] at this
  exact absurd this (by decide +kernel)

/-! ### C79: encoding -/

/-- The full claim of C79. -/
def TrieEncodes (α : Type) (encodeValue : α → Res Bytes) : Prop :=
  ∀ ops : List (KeyObj × Option α), (trieHistory ops).encodeTrie encodeValue ≠ .panic

/-- C79, exactly: `Encode` panics on every trie. -/
theorem C79_always_panics_partial (encodeValue : α → Res Bytes) (root : TrieNode α) : root.encodeTrie encodeValue = .panic := rfl

/-- C79 as stated does not hold. -/
theorem C79_refuted (encodeValue : α → Res Bytes) : ¬ TrieEncodes α encodeValue := fun h => h [] rfl

/-! ### C80: iteration -/

/-- The full claim of C80: an iterator is returned. -/
def TrieIterates (α : Type) : Prop :=
  ∀ (ops : List (KeyObj × Option α)) (k : KeyObj), ∃ i, (trieHistory ops).keyIterator k = .ok i

theorem trieFullKey_panic (chain : List Slice) (k : Key) : addAll k (none :: chain) = .panic := rfl

/-- C80, exactly: every iterator constructor panics on every trie, for every key. -/
theorem C80_always_panics_partial (ops : List (KeyObj × Option α)) (k : KeyObj) :
    (trieHistory ops).keyIterator k = .panic ∧ (trieHistory ops).iterator = .panic := by
  have hi : (trieHistory ops).iterator = .panic := by rw [trieHistory_eq]; rfl
  refine ⟨?_, hi⟩
  unfold TrieNode.keyIterator
  by_cases h : k.isEmpty = true
  · rw [if_pos h, hi]
  · rw [if_neg h, (C78_behaviour_partial ops k none).1, if_neg h]; rfl

/-- C80 as stated does not hold. -/
theorem C80_refuted : ¬ TrieIterates α := by
  intro h
  obtain ⟨i, hi⟩ := h [] .empty
  rw [(C80_always_panics_partial _ _).1] at hi
  exact absurd hi (by simp)

/-! ### C81: loaded tries -/

/-- No child map is ever there. -/
def Bare (t : MTrie) : Prop := ∀ n ∈ t.nodes, n.children = none

/-- A node that is not a dummy never loads. -/
theorem decodeNode_fresh {t t' : MTrie} {id : Nat} {tn tn' : MTrieNode} {buf : Bytes} {n : Nat} (hb : Bare t)
    (h : t.decodeNode id tn buf = .ok (t', tn', n)) :
    decodeUvarint64 buf = .ok (0, n) ∧ t' = t ∧ tn' = { tn with dummy := true, decoded := true } := by
  unfold MTrie.decodeNode at h
  obtain ⟨⟨d, dn⟩, h1, h⟩ := Res.bind_eq_ok.mp h
  simp only at h
  by_cases hd : d = 0
  · rw [if_pos hd] at h
    cases h
    subst hd
    exact ⟨h1, rfl, rfl⟩
  · exfalso
    rw [if_neg hd] at h
    obtain ⟨⟨key, kn⟩, h2, h⟩ := Res.bind_eq_ok.mp h
    simp only at h
    split at h
    · exact absurd h (by simp)
    obtain ⟨⟨po, pn⟩, h3, h⟩ := Res.bind_eq_ok.mp h
    simp only at h
    split at h
    · exact absurd h (by simp)
    obtain ⟨⟨v, vb, vn⟩, h4, h⟩ := Res.bind_eq_ok.mp h
    obtain ⟨⟨c, cn⟩, h5, h⟩ := Res.bind_eq_ok.mp h
    simp only at h
    split at h
    · exact absurd h (by simp)
    · rename_i p hp
      rw [hb p (List.mem_of_getElem? hp)] at h
      exact absurd h (by simp)

theorem decodeNode_zero {t : MTrie} {id : Nat} {tn : MTrieNode} {buf : Bytes} {n : Nat} (h : decodeUvarint64 buf = .ok (0, n)) :
    t.decodeNode id tn buf = .ok (t, { tn with dummy := true, decoded := true }, n) := by
  unfold MTrie.decodeNode
  rw [h, Res.bind_ok]
  rfl

/-- The objects of every loaded trie. -/
theorem newMappedTrie_iff (buf : Bytes) (t : MTrie) (n : Nat) : newMappedTrie buf = .ok (t, n) ↔
    ∃ n1 n2, decodeUvarint64 buf = .ok (0, n1) ∧ decodeUvarint64 (buf.drop n1) = .ok (0, n2) ∧ n = n1 + n2 ∧
      t = { nodes := [{ newMTrieNode none 0 with dummy := true, decoded := true },
        { newMTrieNode (some 0) (n1 % 2 ^ 32) with dummy := true, decoded := true }], known := [(0, 0)] } := by
  unfold newMappedTrie
  constructor
  · intro h
    obtain ⟨⟨t', root, n1⟩, h1, h⟩ := Res.bind_eq_ok.mp h
    obtain ⟨hz, rfl, rfl⟩ := decodeNode_fresh (by intro n hn; simp at hn; rw [hn]; rfl) h1
    simp only at h
    rw [MTrie.decodeLoop] at h
    obtain ⟨⟨t', node, n2⟩, h2, h⟩ := Res.bind_eq_ok.mp h
    obtain ⟨hz2, rfl, rfl⟩ := decodeNode_fresh (by
      intro n hn
      simp at hn
      rw [hn]
      rfl) h2
    simp only [if_true] at h
    have := Res.ok.inj h
    exact ⟨n1, n2, hz, hz2, (congrArg Prod.snd this).symm, (congrArg Prod.fst this).symm⟩
  · rintro ⟨n1, n2, h1, h2, rfl, rfl⟩
    simp only [decodeNode_zero h1, Res.bind_ok]
    rw [MTrie.decodeLoop, decodeNode_zero h2]
    rfl

/-- C81: every loaded trie answers every `Get` without panicking.  Nothing is stored in it, and nothing is found. -/
theorem C81_get (buf : Bytes) (t : MTrie) (n : Nat) (h : newMappedTrie buf = .ok (t, n)) (k : KeyObj) : t.get k = .ok none := by
  obtain ⟨n1, n2, -, -, -, rfl⟩ := (newMappedTrie_iff buf t n).mp h
  unfold MTrie.get
  simp only [List.getElem?_cons_zero]
  by_cases hk : k.isEmpty = true
  · rw [if_pos hk]; rfl
  · rw [if_neg hk]
    cases hs : k.subKeys with
    | nil => exact absurd hs (subKeys_ne_nil (by simpa using hk))
    | cons s ss => rfl

example := C81_get [0, 0] _ 2 rfl (.key (newSimpleKey (some [1])))

theorem zeroMark_iff (buf : Bytes) (n : Nat) (hgo : buf.length < 2 ^ 63) : decodeUvarint64 buf = .ok (0, n) ↔ ZeroMark buf n := by
  by_cases hb : buf = []
  · subst hb
    constructor
    · intro h
      have : (0, 0) = ((0 : Nat), n) := Res.ok.inj h
      exact Or.inl ⟨rfl, (congrArg Prod.snd this).symm⟩
    · rintro (⟨-, rfl⟩ | ⟨p, rest, h1, h2, -⟩)
      · rfl
      · have : p = [] := (List.append_eq_nil_iff.mp h1.symm).1
        subst this
        cases h2
  · rw [C04_decodeUvarint64_ok_iff_partial buf hb hgo]
    constructor
    · rintro ⟨p, rest, h1, h2, h3, h4, h5, -⟩
      exact Or.inr ⟨p, rest, h1, h2, h3, h5⟩
    · rintro (⟨h, -⟩ | ⟨p, rest, h1, h2, h3, h4⟩)
      · exact absurd h hb
      · exact ⟨p, rest, h1, h2, h3, by omega, h4, Or.inl (by omega)⟩

/-- C81: exactly which byte strings load: those that start with two zero marks. -/
theorem C81_loads_iff (buf : Bytes) (n : Nat) (hgo : buf.length < 2 ^ 63) : (∃ t, newMappedTrie buf = .ok (t, n)) ↔
    ∃ n1 n2, ZeroMark buf n1 ∧ ZeroMark (buf.drop n1) n2 ∧ n = n1 + n2 := by
  have hd : ∀ m, (buf.drop m).length < 2 ^ 63 := fun m => by rw [List.length_drop]; omega
  constructor
  · rintro ⟨t, h⟩
    obtain ⟨n1, n2, h1, h2, h3, -⟩ := (newMappedTrie_iff buf t n).mp h
    exact ⟨n1, n2, (zeroMark_iff _ _ hgo).mp h1, (zeroMark_iff _ _ (hd _)).mp h2, h3⟩
  · rintro ⟨n1, n2, h1, h2, h3⟩
    exact ⟨_, (newMappedTrie_iff buf _ n).mpr ⟨n1, n2, (zeroMark_iff _ _ hgo).mpr h1, (zeroMark_iff _ _ (hd _)).mpr h2, h3, rfl⟩⟩

example : ∃ t, newMappedTrie [0x80, 0x00, 0x00, 0x07] = .ok (t, 3) :=
  (C81_loads_iff _ _ (by decide)).mpr ⟨2, 1, (zeroMark_iff _ _ (by decide)).mp (by decide +kernel),
    (zeroMark_iff _ _ (by decide)).mp (by decide +kernel), rfl⟩

/-! ### C112: loading malformed bytes -/

/-- The full claim of C112. -/
def TrieLoadNoPanic : Prop := ∀ buf : Bytes, newMappedTrie buf ≠ .panic

/-- Only the root is known, and it has no child map. -/
theorem decodeNode_panic_iff {t : MTrie} (hb : Bare t) (hk : t.known = [(0, 0)]) (hn : t.nodes ≠ []) (id : Nat) (tn : MTrieNode)
    (buf : Bytes) : t.decodeNode id tn buf = .panic ↔ NodeAtRoot buf := by
  unfold MTrie.decodeNode NodeAtRoot
  rcases h1 : decodeUvarint64 buf with ⟨d, n1⟩ | - | -
  rotate_left
  · simp
  · exact absurd h1 (C04_decodeUvarint64_no_panic_partial _)
  simp only [Res.bind_ok, Res.ok.injEq, Prod.mk.injEq]
  by_cases hd : d = 0
  · subst hd
    rw [if_pos rfl]
    constructor
    · intro h; exact absurd h (by simp)
    · rintro ⟨m, n, ⟨rfl, -⟩, h, -⟩; exact absurd rfl h
  rw [if_neg hd]
  rcases h2 : decodeVarchar (buf.drop n1) with ⟨key, n2⟩ | - | -
  rotate_left
  · constructor
    · intro h; exact absurd h (by simp)
    · rintro ⟨m, n, ⟨rfl, rfl⟩, -, h | ⟨key, n2, h, -⟩⟩
      · rw [h2] at h; exact absurd h (by simp)
      · rw [h2] at h; exact absurd h (by simp)
  · exact ⟨fun _ => ⟨d, n1, ⟨rfl, rfl⟩, hd, Or.inl h2⟩, fun _ => rfl⟩
  simp only [Res.bind_ok]
  by_cases hkey : key = []
  · rw [if_pos hkey]
    constructor
    · intro h; exact absurd h (by simp)
    · rintro ⟨m, n, ⟨rfl, rfl⟩, -, h | ⟨key', n2', h, h', -⟩⟩
      · rw [h2] at h; exact absurd h (by simp)
      · rw [h2] at h; cases h; exact absurd hkey h'
  rw [if_neg hkey]
  have hiff : (∃ mark n, (d = mark ∧ n1 = n) ∧ mark ≠ 0 ∧
      (decodeVarchar (buf.drop n) = .panic ∨
        ∃ key n2, decodeVarchar (buf.drop n) = .ok (key, n2) ∧ key ≠ [] ∧
          ∃ off n3, decodeUvarint64 (buf.drop (n + n2)) = .ok (off, n3) ∧ off % 2 ^ 32 = 0 ∧
            decodeVarchar (buf.drop (n + n2 + n3)) ≠ .err)) ↔
      ∃ off n3, decodeUvarint64 (buf.drop (n1 + n2)) = .ok (off, n3) ∧ off % 2 ^ 32 = 0 ∧
            decodeVarchar (buf.drop (n1 + n2 + n3)) ≠ .err := by
    constructor
    · rintro ⟨m, n, ⟨rfl, rfl⟩, -, h | ⟨key', n2', h, -, h'⟩⟩
      · rw [h2] at h; exact absurd h (by simp)
      · rw [h2] at h; cases h; exact h'
    · intro h; exact ⟨d, n1, ⟨rfl, rfl⟩, hd, Or.inr ⟨key, n2, h2, hkey, h⟩⟩
  rw [hiff]
  rcases h3 : decodeUvarint64 (buf.drop (n1 + n2)) with ⟨off, n3⟩ | - | -
  rotate_left
  · simp
  · exact absurd h3 (C04_decodeUvarint64_no_panic_partial _)
  simp only [Res.bind_ok, Res.ok.injEq, Prod.mk.injEq]
  by_cases ho : off % 2 ^ 32 = 0
  swap
  · rw [hk, List.lookup, List.lookup, show (off % 2 ^ 32 == 0) = false from beq_eq_false_iff_ne.mpr ho]
    simp only
    constructor
    · intro h; exact absurd h (by simp)
    · rintro ⟨o, n, ⟨rfl, -⟩, h, -⟩; exact absurd h ho
  obtain ⟨r, hr⟩ : ∃ r, t.nodes[0]? = some r := by
    cases hh : t.nodes with
    | nil => exact absurd hh hn
    | cons a l => exact ⟨a, rfl⟩
  rw [hk, ho, show List.lookup 0 [((0 : Nat), (0 : Nat))] = some 0 from rfl]
  simp only [hr, hb r (List.mem_of_getElem? hr), decodeSimple]
  rcases h4 : decodeVarchar (buf.drop (n1 + n2 + n3)) with ⟨v, n4⟩ | - | -
  · simp only [Res.bind_ok, true_iff]
    exact ⟨off, n3, ⟨rfl, rfl⟩, ho, by rw [h4]; simp⟩
  · constructor
    · intro h; exact absurd h (by simp)
    · rintro ⟨o, n, ⟨rfl, rfl⟩, -, h⟩; exact absurd h4 h
  · exact ⟨fun _ => ⟨off, n3, ⟨rfl, rfl⟩, ho, by rw [h4]; simp⟩, fun _ => rfl⟩

/-- C112, exactly: loading panics on the bytes that start with a node instead of a zero mark, or have one after the first zero mark. -/
theorem C112_panics_iff_partial (buf : Bytes) : newMappedTrie buf = .panic ↔
    NodeAtRoot buf ∨ ∃ n, decodeUvarint64 buf = .ok (0, n) ∧ NodeAtRoot (buf.drop n) := by
  have hb0 : Bare { nodes := [newMTrieNode none 0], known := [(0, 0)] } := by intro n hn; simp at hn; rw [hn]; rfl
  unfold newMappedTrie
  simp only
  rw [← decodeNode_panic_iff hb0 rfl (by simp) 0 (newMTrieNode none 0) buf]
  rcases h1 : MTrie.decodeNode { nodes := [newMTrieNode none 0], known := [(0, 0)] } 0 (newMTrieNode none 0) buf with ⟨t', r, n⟩ | - | -
  · obtain ⟨hz, rfl, rfl⟩ := decodeNode_fresh hb0 h1
    simp only [Res.bind_ok, reduceCtorEq, false_or]
    rw [MTrie.decodeLoop]
    have hb1 : Bare ⟨[{ newMTrieNode none 0 with dummy := true, decoded := true }], [(0, 0)]⟩ := by
      intro n hn
      simp at hn
      rw [hn]; rfl
    have hp := decodeNode_panic_iff hb1 rfl (by simp) 1 (newMTrieNode (some 0) (n % 2 ^ 32)) (buf.drop n)
    have hR : (∃ m, decodeUvarint64 buf = .ok (0, m) ∧ NodeAtRoot (buf.drop m)) ↔ NodeAtRoot (buf.drop n) := by
      constructor
      · rintro ⟨m, h, h'⟩
        rw [hz] at h; cases h; exact h'
      · intro h; exact ⟨n, hz, h⟩
    rw [hR, ← hp]
    simp only [List.set_cons_zero, List.length_cons, List.length_nil, Nat.zero_add]
    rcases h2 : MTrie.decodeNode { nodes := [{ newMTrieNode none 0 with dummy := true, decoded := true }], known := [(0, 0)] } 1
      (newMTrieNode (some 0) (n % 2 ^ 32)) (buf.drop n) with ⟨t', r, n2⟩ | - | -
    · obtain ⟨-, rfl, rfl⟩ := decodeNode_fresh hb1 h2
      simp
    · simp
    · simp
  · constructor
    · intro h; exact absurd h (by simp)
    · rintro (h | ⟨n, h, -⟩)
      · exact absurd h (by simp)
      · rw [decodeNode_zero h] at h1; exact absurd h1 (by simp)
  · simp

/-- C112 as stated does not hold: one node with the key `k` and the value `v` at the root crashes the loader. -/
theorem C112_refuted : ¬ TrieLoadNoPanic := by
  intro h
  refine h [0, 1, 1, 0x6b, 0, 1, 0x76, 0] ((C112_panics_iff_partial _).mpr (Or.inr ⟨1, by decide +kernel, ?_⟩))
  exact ⟨1, 1, by decide +kernel, by decide, Or.inr ⟨[0x6b], 2, by decide +kernel, by decide, 0, 1, by decide +kernel, by decide,
    by decide +kernel⟩⟩

/-- C112: loading gives an error on everything else that does not load. -/
theorem C112_error_partial (buf : Bytes) (h1 : ¬ NodeAtRoot buf)
    (h2 : ∀ n, decodeUvarint64 buf = .ok (0, n) → ¬ NodeAtRoot (buf.drop n) ∧ ∀ m, decodeUvarint64 (buf.drop n) ≠ .ok (0, m)) :
    newMappedTrie buf = .err := by
  rcases h : newMappedTrie buf with ⟨t, n⟩ | - | -
  · obtain ⟨n1, n2, e1, e2, -⟩ := (newMappedTrie_iff buf t n).mp h
    exact absurd e2 ((h2 n1 e1).2 n2)
  · rfl
  · rcases (C112_panics_iff_partial buf).mp h with h | ⟨n, e, h⟩
    · exact absurd h h1
    · exact absurd h (h2 n e).1

example : ¬ NodeAtRoot [0x80] ∧ ∀ n, decodeUvarint64 [0x80] = .ok (0, n) → ¬ NodeAtRoot (([0x80] : Bytes).drop n) ∧
    ∀ m, decodeUvarint64 (([0x80] : Bytes).drop n) ≠ .ok (0, m) := by
  have : decodeUvarint64 [0x80] = .err := by decide +kernel
  constructor
  · rintro ⟨m, n, h, -⟩
    rw [this] at h; exact absurd h (by simp)
  · intro n h
    rw [this] at h; exact absurd h (by simp)

/-! ### C92: exhausted iterators -/

/-- What an iterator still has to give. -/
def TrieIter.remaining (i : TrieIter) : List (List Slice) := i.curr.toList ++ i.paths.flatten

/-- The full claim of C92. -/
def HasNextCorrect : Prop := ∀ i : TrieIter, i.hasNext = true ↔ TrieIter.remaining i ≠ []

theorem dropWhile_isEmpty_nil (ps : List (List (List Slice))) : (ps.dropWhile List.isEmpty).isEmpty = true ↔ ps.flatten = [] := by
  induction ps with
  | nil => simp
  | cons p ps ih =>
    cases p with
    | nil => simpa using ih
    | cons a p => simp

/-- C92, exactly: `HasNext` is the opposite of what it says, for every iterator. -/
theorem C92_inverted_partial (i : TrieIter) : i.hasNext = true ↔ TrieIter.remaining i = [] := by
  unfold TrieIter.hasNext TrieIter.advance TrieIter.remaining
  cases hc : i.curr with
  | some c => simp [hc]
  | none =>
    simp only [Option.isSome_none, Bool.false_eq_true, if_false, Option.toList_none, List.nil_append]
    simp only [Option.isNone_none, Bool.true_and]
    exact dropWhile_isEmpty_nil _

example : (TrieIter.mk [[[none, some [1]]], []] none).hasNext = false ∧ (TrieIter.mk [[], []] none).hasNext = true := by decide +kernel

/-- C92: the iterator of a key that is not in a loaded trie says `HasNext` forever, and `Next` gives nothing. -/
theorem C92_endless_partial (buf : Bytes) (t : MTrie) (n : Nat) (h : newMappedTrie buf = .ok (t, n)) (k : KeyObj)
    (hk : k.isEmpty = false) : ∃ i, t.keyIterator k = .ok i ∧ ∀ m, ∃ j, nextTimes m i = .ok j ∧ j.hasNext = true ∧
      j.next = .ok (none, j) := by
  refine ⟨{ paths := [], curr := none }, ?_, fun m => ⟨{ paths := [], curr := none }, ?_, rfl, rfl⟩⟩
  · unfold MTrie.keyIterator
    rw [if_neg (by simp [hk]), C81_get buf t n h k]
    rfl
  · induction m with
    | zero => rfl
    | succ m ih => rw [nextTimes]; exact ih

example : (∃ t, newMappedTrie [] = .ok (t, 0)) ∧ (KeyObj.key (newSimpleKey (some [1]))).isEmpty = false :=
  ⟨⟨_, rfl⟩, by decide +kernel⟩

/-- C92: `Next` with something left either panics or gives the key of the first node left and takes it off. -/
theorem C92_next_partial (i : TrieIter) (c : List Slice) (cs : List (List Slice)) (h : TrieIter.remaining i = c :: cs) :
    (∀ k, trieFullKey c = .ok k → ∃ j, i.next = .ok (some k, j) ∧ TrieIter.remaining j = cs) ∧
    ((∀ k, trieFullKey c ≠ .ok k) → ∀ r, i.next ≠ .ok r) := by
  have drop : ∀ ps : List (List (List Slice)), ps.flatten = c :: cs →
      ∃ rest qs, ps.dropWhile List.isEmpty = (c :: rest) :: qs ∧ cs = rest ++ qs.flatten := by
    intro ps
    induction ps with
    | nil => intro h; exact absurd h (by simp)
    | cons p ps ih =>
      intro h
      cases p with
      | nil => exact ih h
      | cons a p =>
        simp only [List.flatten_cons, List.cons_append, List.cons.injEq] at h
        obtain ⟨rfl, rfl⟩ := h
        exact ⟨p, ps, rfl, rfl⟩
  unfold TrieIter.next TrieIter.advance TrieIter.remaining at *
  rcases hc : i.curr with - | x
  · rw [hc] at h
    obtain ⟨rest, qs, h1, h2⟩ := drop i.paths h
    simp only [Option.isSome_none, Bool.false_eq_true, if_false, h1]
    constructor
    · intro k hk
      rw [hk]
      exact ⟨_, rfl, by simp [h2]⟩
    · intro hk r hr
      obtain ⟨k, e, -⟩ := Res.bind_eq_ok.mp hr
      exact hk k e
  · rw [hc] at h
    simp only [Option.toList_some, List.cons_append, List.nil_append, List.cons.injEq] at h
    obtain ⟨rfl, rfl⟩ := h
    simp only [Option.isSome_some, if_true, hc]
    constructor
    · intro k hk
      rw [hk]
      exact ⟨_, rfl, by simp⟩
    · intro hk r hr
      obtain ⟨k, e, -⟩ := Res.bind_eq_ok.mp hr
      exact hk k e

example : TrieIter.remaining ⟨[[], [[some [1]], [some [2]]]], some [some [3]]⟩ = [[some [3]], [some [1]], [some [2]]] ∧
    ∃ k, trieFullKey [some [3]] = .ok k := ⟨rfl, _, rfl⟩

/-- C92: an iterator over a whole loaded trie, or from the empty key, cannot be made. -/
theorem C92_loaded_partial (buf : Bytes) (t : MTrie) (n : Nat) (h : newMappedTrie buf = .ok (t, n)) (k : KeyObj)
    (hk : k.isEmpty = true) : t.iterator = .panic ∧ t.keyIterator k = .panic := by
  obtain ⟨n1, n2, -, -, -, rfl⟩ := (newMappedTrie_iff buf t n).mp h
  have h1 : MTrie.iterator { nodes := [{ newMTrieNode none 0 with dummy := true, decoded := true },
        { newMTrieNode (some 0) (n1 % 2 ^ 32) with dummy := true, decoded := true }], known := [(0, 0)] } = .panic := rfl
  exact ⟨h1, by rw [MTrie.keyIterator, if_pos hk, h1]⟩

example : (∃ t, newMappedTrie [0, 0] = .ok (t, 2)) ∧ KeyObj.empty.isEmpty = true := ⟨⟨_, rfl⟩, rfl⟩

/-- C92 as stated does not hold. -/
theorem C92_refuted : ¬ HasNextCorrect := by
  intro h
  have := (h { paths := [], curr := none }).mp rfl
  exact this rfl

/-! ### C93: copies -/

/-- The full claim of C93: a copy, made from the bytes of the last `Encode`, answers every `Get` alike. -/
def TrieCopies : Prop :=
  ∀ (ops : List (KeyObj × Option Bytes)) (k : KeyObj) (v : Option Bytes), (trieHistory ops).get k = .ok v →
    ∃ c, trieCopy none = .ok c ∧ c.get k = .ok v

/-- C93, exactly: the copy of any trie is empty (no trie was ever encoded, see C79). -/
theorem C93_copy_empty_partial (k : KeyObj) : ∃ c, trieCopy none = .ok c ∧ c.get k = .ok none := by
  have h : newMappedTrie [] = .ok (_, 0) := (newMappedTrie_iff [] _ 0).mpr ⟨0, 0, rfl, rfl, rfl, rfl⟩
  refine ⟨_, ?_, C81_get _ _ _ h k⟩
  unfold trieCopy
  rw [show Slice.bytes none = [] from rfl, h]

/-- C93: from bytes that do not load no copy is made: `Copy` panics. -/
theorem C93_copy_fails_partial (b : Bytes) (h : ∀ t n, newMappedTrie b ≠ .ok (t, n)) : trieCopy (some b) = .panic := by
  unfold trieCopy
  rw [show Slice.bytes (some b) = b from rfl]
  rcases hb : newMappedTrie b with ⟨t, n⟩ | - | -
  · exact absurd hb (h t n)
  · rfl
  · rfl

example : ∀ t n, newMappedTrie [0x80] ≠ .ok (t, n) := by
  intro t n h
  obtain ⟨n1, n2, h1, -⟩ := (newMappedTrie_iff _ _ _).mp h
  have : decodeUvarint64 [0x80] = .err := by decide +kernel
  rw [this] at h1; exact absurd h1 (by simp)

/-- C93 as stated does not hold: the value of the empty key is lost. -/
theorem C93_refuted : ¬ TrieCopies := by
  intro h
  obtain ⟨c, h1, h2⟩ := h [(.empty, some [1])] .empty (some [1]) (by
    rw [(C78_behaviour_partial _ _ none).1]; rfl)
  obtain ⟨c', h1', h2'⟩ := C93_copy_empty_partial .empty
  rw [h1] at h1'
  cases h1'
  rw [h2] at h2'
  exact absurd h2' (by decide)

example := C79_always_panics_partial (α := Bytes) Res.ok

end Poodle.Props
