import Verif.Spec.Print
import Verif.Props.SortedMap
import Verif.Props.HashMap
import Verif.Props.Key
import Verif.Props.Trie

namespace Poodle.Props
open Poodle Spec

/-! ### Texts and lines -/

theorem linesOf_line {l : Text} (h : '\n' ∉ l) (rest : Text) : linesOf (l ++ '\n' :: rest) = l :: linesOf rest := by
  induction l with
  | nil => simp [linesOf]
  | cons c l ih =>
    simp only [List.mem_cons, not_or] at h
    rw [List.cons_append, linesOf, if_neg (Ne.symm h.1), ih h.2]

theorem linesOf_single {l : Text} (h : '\n' ∉ l) (hne : l ≠ []) : linesOf l = [l] := by
  induction l with
  | nil => exact absurd rfl hne
  | cons c l ih =>
    simp only [List.mem_cons, not_or] at h
    rw [linesOf, if_neg (Ne.symm h.1)]
    by_cases hl : l = []
    · subst hl; rfl
    · rw [ih h.2 hl]

theorem split_unique {α : Type} {c : α} : ∀ {a b x y : List α}, c ∉ a → c ∉ b → a ++ c :: x = b ++ c :: y → a = b ∧ x = y
  | [], [], _, _, _, _, h => by simpa using h
  | [], d :: b, _, _, _, hb, h => by
    simp only [List.nil_append, List.cons_append, List.cons.injEq] at h
    exact absurd (by simp [h.1]) hb
  | d :: a, [], _, _, ha, _, h => by
    simp only [List.nil_append, List.cons_append, List.cons.injEq] at h
    exact absurd (by simp [h.1]) ha
  | d :: a, e :: b, _, _, ha, hb, h => by
    simp only [List.cons_append, List.cons.injEq] at h
    simp only [List.mem_cons, not_or] at ha hb
    obtain ⟨h1, h2⟩ := split_unique ha.2 hb.2 h.2
    exact ⟨by rw [h.1, h1], h2⟩

theorem oneLine_append {a b : Text} : OneLine (a ++ b) ↔ OneLine a ∧ OneLine b := by
  simp only [OneLine, List.mem_append, not_or]

theorem oneLine_cons {c : Char} {b : Text} : OneLine (c :: b) ↔ c ≠ '\n' ∧ OneLine b := by
  simp only [OneLine, List.mem_cons, not_or]
  exact ⟨fun h => ⟨Ne.symm h.1, h.2⟩, fun h => ⟨Ne.symm h.1, h.2⟩⟩

theorem oneLine_spaces (n : Nat) : OneLine (spaces n) := by
  intro h
  have := (List.mem_replicate.mp h).2
  revert this; decide

theorem showNat_ne {n : Nat} {c : Char} (hc : c.isDigit = false) : c ∉ showNat n := by
  intro h
  rw [showNat, Nat.toList_repr] at h
  have := Nat.isDigit_of_mem_toDigits (by decide) (by decide) h
  rw [hc] at this; simp at this

theorem showNat_ne_nil (n : Nat) : showNat n ≠ [] := by
  rw [showNat, Nat.toList_repr]; exact Nat.toDigits_ne_nil

theorem showNat_inj {m n : Nat} (h : showNat m = showNat n) : m = n := by
  rw [showNat, showNat, Nat.toList_repr, Nat.toList_repr] at h
  rw [← Nat.ofDigitChars_ten_toDigits (n := m), h, Nat.ofDigitChars_ten_toDigits]

theorem oneLine_showNat (n : Nat) : OneLine (showNat n) := showNat_ne (by decide)

theorem oneLine_showInt (n : Int) : OneLine (showInt n) := by
  rw [showInt]
  split
  · exact oneLine_cons.mpr ⟨by decide, oneLine_showNat _⟩
  · exact oneLine_showNat _

theorem oneLine_showBytesIn : ∀ b : Bytes, OneLine (showBytesIn b)
  | [] => by simp [OneLine, showBytesIn]
  | [b] => oneLine_showNat _
  | b :: c :: l => oneLine_append.mpr ⟨oneLine_showNat _, oneLine_cons.mpr ⟨by decide, oneLine_showBytesIn (c :: l)⟩⟩

theorem oneLine_showBytes (b : Bytes) : OneLine (showBytes b) :=
  oneLine_append.mpr ⟨oneLine_cons.mpr ⟨by decide, oneLine_showBytesIn b⟩, by decide⟩

theorem showBytesIn_nil {b : Bytes} (h : showBytesIn b = []) : b = [] := by
  match b, h with
  | [], _ => rfl
  | [b], h => exact absurd h (showNat_ne_nil _)
  | b :: c :: l, h => simp [showBytesIn] at h

theorem showBytesIn_inj : ∀ {a b : Bytes}, showBytesIn a = showBytesIn b → a = b
  | [], _, h => (showBytesIn_nil h.symm).symm
  | _ :: _, [], h => showBytesIn_nil h
  | [a], [b], h => by rw [UInt8.toNat.inj (showNat_inj h)]
  | [a], b :: c :: l, h => by
    exfalso
    have h1 : ' ' ∈ showNat a.toNat := by
      have : showNat a.toNat = showNat b.toNat ++ ' ' :: showBytesIn (c :: l) := h
      rw [this]; simp
    exact showNat_ne (by decide) h1
  | a :: c :: l, [b], h => by
    exfalso
    have h1 : ' ' ∈ showNat b.toNat := by
      have : showNat a.toNat ++ ' ' :: showBytesIn (c :: l) = showNat b.toNat := h
      rw [← this]; simp
    exact showNat_ne (by decide) h1
  | a :: c :: l, b :: d :: m, h => by
    obtain ⟨h1, h2⟩ := split_unique (showNat_ne (by decide)) (showNat_ne (by decide)) h
    rw [UInt8.toNat.inj (showNat_inj h1), showBytesIn_inj h2]

theorem showBytes_inj {a b : Bytes} (h : showBytes a = showBytes b) : a = b := by
  rw [showBytes, showBytes] at h
  have := List.append_cancel_right h
  simp only [List.cons.injEq, true_and] at this
  exact showBytesIn_inj this

theorem oneLine_showHexBytes (b : Bytes) : OneLine (showHexBytes b) := by
  have hd : ∀ n, hexDigitOf n ≠ '\n' := by
    intro n
    rw [hexDigitOf]
    rcases Nat.lt_or_ge n 16 with h | h
    · have : ∀ m, m < 16 → "0123456789abcdef".toList.getD m '?' ≠ '\n' := by decide
      exact this n h
    · rw [List.getD_eq_getElem?_getD, List.getElem?_eq_none (by simpa using h)]; decide
  intro h
  rw [showHexBytes, List.mem_flatMap] at h
  obtain ⟨x, -, hx⟩ := h
  simp only [List.mem_cons, List.not_mem_nil, or_false] at hx
  rcases hx with hx | hx
  · exact hd _ hx.symm
  · exact hd _ hx.symm

/-! ### C181: printing a sorted map -/

variable {K V : Type} {showK : K → Text} {showV : V → Text}

theorem oneLine_showLink (hK : ∀ k, OneLine (showK k)) (t : Tree K V) : OneLine (showLink showK t) := by
  cases t with
  | nil => rw [showLink]; decide
  | node k v b l r => exact hK k

theorem oneLine_tree (hK : ∀ k, OneLine (showK k)) (hV : ∀ v, OneLine (showV v)) (t : Tree K V) : OneLine (t.toText showK showV) := by
  cases t with
  | nil => rw [Tree.toText]; decide
  | node k v b l r =>
    rw [Tree.toText]
    simp only [oneLine_append]
    exact ⟨⟨⟨⟨⟨⟨⟨⟨⟨⟨by decide, hK k⟩, by decide⟩, hV v⟩, by decide⟩, oneLine_showInt b⟩, by decide⟩, oneLine_showLink hK l⟩,
      by decide⟩, oneLine_showLink hK r⟩, by decide⟩

theorem tree_lines (hK : ∀ k, OneLine (showK k)) (hV : ∀ v, OneLine (showV v)) (indent : Nat) : ∀ (t : Tree K V) (d : Nat) (rest : Text),
    ∃ body, linesOf (t.print showK showV (indent + 4 * d) ++ rest) = body ++ linesOf rest ∧
      List.Forall₂ (ShowsEntry showK showV indent) (withDepth d t) body := by
  intro t
  induction t with
  | nil => intro d rest; exact ⟨[], rfl, .nil⟩
  | node k v b l r ihl ihr =>
    intro d rest
    obtain ⟨b2, h3, h4⟩ := ihr (d + 1) rest
    obtain ⟨b1, h1, h2⟩ := ihl (d + 1) (r.print showK showV (indent + 4 * (d + 1)) ++ rest)
    have hone := oneLine_append.mpr ⟨oneLine_spaces (indent + 4 * d), oneLine_tree hK hV (.node k v b l r)⟩
    refine ⟨(spaces (indent + 4 * d) ++ Tree.toText showK showV (.node k v b l r)) :: (b1 ++ b2), ?_, ?_⟩
    · rw [Tree.print]
      simp only [List.append_assoc, List.cons_append]
      rw [← List.append_assoc, linesOf_line hone, show indent + 4 * d + 4 = indent + 4 * (d + 1) by ring, h1, h3]
    · rw [withDepth]
      refine .cons ?_ (List.rel_append h2 h4)
      refine ⟨txt "b=" ++ showInt b ++ txt ", l=[" ++ showLink showK l ++ txt ", " ++ showLink showK r ++ txt "]", ?_⟩
      rw [Tree.toText, show txt ", b=" = txt ", " ++ txt "b=" by rfl]
      simp only [List.append_assoc]

theorem withDepth_perm : ∀ (t : Tree K V) (d : Nat), ((withDepth d t).map Prod.snd).Perm (entries t) := by
  intro t
  induction t with
  | nil => intro d; exact .nil
  | node k v b l r ihl ihr =>
    intro d
    rw [withDepth, entries, List.map_cons, List.map_append]
    exact (List.Perm.cons _ ((ihl _).append (ihr _))).trans List.perm_middle.symm

/-- C181: printing a sorted map after any history writes a line with its size, then one line for each entry, indented by 4 for each level
of the tree. -/
theorem C181_lines {ops : KeyOps K} {cmp : K → K → Ordering} (hops : LawfulKeys ops cmp) (hg : GuardedKeys ops cmp)
    (hK : ∀ k, OneLine (showK k)) (hV : ∀ v, OneLine (showV v)) (os : List (MapOp K V)) (indent : Nat) :
    let m := (runMap ops SortedMap.new os).1
    ∃ rest body, linesOf (m.print showK showV indent) =
        (spaces indent ++ txt "AVLTree: s=" ++ showInt m.size ++ txt ", " ++ rest) :: body ∧
      List.Forall₂ (ShowsEntry showK showV indent) (withDepth 1 m.root) body ∧
      ((withDepth 1 m.root).map Prod.snd).Perm (entries m.root) ∧ (body.length : Int) = m.size := by
  have hm := (runMap_runs hops hg os SortedMap.new (new_good (cmp := cmp))).1
  generalize (runMap ops SortedMap.new os).1 = m at hm
  intro m'
  obtain ⟨body, h1, h2⟩ := tree_lines hK hV indent m.root 1 []
  rw [List.append_nil] at h1
  have hone : OneLine (spaces indent ++ m.toText showK showV) := by
    rw [SortedMap.toText]
    simp only [oneLine_append]
    exact ⟨oneLine_spaces _, ⟨⟨by decide, oneLine_showInt _⟩, by decide⟩, oneLine_tree hK hV _⟩
  refine ⟨m.root.toText showK showV, body, ?_, h2, withDepth_perm _ _, ?_⟩
  · have h3 : linesOf (m.print showK showV indent) = (spaces indent ++ m.toText showK showV) :: body := by
      rw [SortedMap.print, linesOf_line hone, show indent + 4 = indent + 4 * 1 by ring, h1]
      simp [linesOf]
    rw [show m' = m from rfl, h3, SortedMap.toText]
    simp only [List.append_assoc]
  · rw [show m' = m from rfl, hm.size, ← h2.length_eq, ← (withDepth_perm m.root 1).length_eq, List.length_map]

example := C181_lines (showK := showInt) (showV := showNat) intOps_lawful.1 intOps_guarded oneLine_showInt oneLine_showNat
  [.put 2 20, .put 1 10, .put 3 30] 1

example : (runMap intOps SortedMap.new [.put 2 20, .put 1 10, .put 3 30]).1.print showInt showNat 1 =
    txt " AVLTree: s=3, k=2, v=20, b=0, l=[1, 3]\n     k=2, v=20, b=0, l=[1, 3]\n         k=1, v=10, b=0, l=[<nil>, <nil>]\n         k=3, v=30, b=0, l=[<nil>, <nil>]\n" := by
  decide +kernel

/-! ### C182: printing a hash map -/

theorem oneLine_chain (hK : ∀ k, OneLine (showK k)) (hV : ∀ v, OneLine (showV v)) (c : List (K × V)) : OneLine (chainText showK showV c) := by
  rcases c with - | ⟨⟨k, v⟩, l⟩
  · simp [chainText, OneLine]
  · rw [chainText]
    simp only [oneLine_append]
    refine ⟨⟨⟨⟨⟨⟨by decide, hK k⟩, by decide⟩, hV v⟩, by decide⟩, ?_⟩, by decide⟩
    rcases l with - | ⟨⟨k', v'⟩, l⟩
    · rw [showNext]; decide
    · exact hK k'

theorem chain_lines (hK : ∀ k, OneLine (showK k)) (hV : ∀ v, OneLine (showV v)) (indent : Nat) : ∀ (c : List (K × V)) (d : Nat)
    (rest : Text), ∃ body, linesOf (chainPrint showK showV (indent + 4 * d) c ++ rest) = body ++ linesOf rest ∧
      List.Forall₂ (ShowsEntry showK showV indent) (withPlace d c) body := by
  intro c
  induction c with
  | nil => intro d rest; exact ⟨[], rfl, .nil⟩
  | cons e l ih =>
    intro d rest
    obtain ⟨k, v⟩ := e
    obtain ⟨b1, h1, h2⟩ := ih (d + 1) rest
    have hone := oneLine_append.mpr ⟨oneLine_spaces (indent + 4 * d), oneLine_chain hK hV ((k, v) :: l)⟩
    refine ⟨(spaces (indent + 4 * d) ++ chainText showK showV ((k, v) :: l)) :: b1, ?_, ?_⟩
    · rw [chainPrint]
      simp only [List.append_assoc, List.cons_append]
      rw [← List.append_assoc, linesOf_line hone, show indent + 4 * d + 4 = indent + 4 * (d + 1) by ring, h1]
    · rw [withPlace]
      refine .cons ?_ h2
      refine ⟨txt "l=[" ++ showNext showK l ++ txt "]", ?_⟩
      rw [chainText, show txt ", l=[" = txt ", " ++ txt "l=[" by rfl]
      simp only [List.append_assoc]

theorem array_lines (hK : ∀ k, OneLine (showK k)) (hV : ∀ v, OneLine (showV v)) (indent : Nat) : ∀ (a : List (List (K × V))),
    ∃ body, linesOf (a.flatMap (chainPrint showK showV (indent + 4 * 1))) = body ∧
      List.Forall₂ (ShowsEntry showK showV indent) (a.flatMap (withPlace 1)) body := by
  intro a
  induction a with
  | nil => exact ⟨[], rfl, .nil⟩
  | cons c a ih =>
    obtain ⟨b2, h3, h4⟩ := ih
    obtain ⟨b1, h1, h2⟩ := chain_lines hK hV indent c 1 (a.flatMap (chainPrint showK showV (indent + 4 * 1)))
    refine ⟨b1 ++ b2, ?_, ?_⟩
    · rw [List.flatMap_cons, h1, h3]
    · rw [List.flatMap_cons]; exact List.rel_append h2 h4

theorem withPlace_snd : ∀ (c : List (K × V)) (d : Nat), (withPlace d c).map Prod.snd = c := by
  intro c
  induction c with
  | nil => intro d; rfl
  | cons e l ih => intro d; rw [withPlace, List.map_cons, ih]

theorem flatMap_withPlace_snd (a : List (List (K × V))) : (a.flatMap (withPlace 1)).map Prod.snd = a.flatten := by
  induction a with
  | nil => rfl
  | cons c a ih => rw [List.flatMap_cons, List.map_append, ih, withPlace_snd, List.flatten_cons]

theorem oneLine_hashText (h : HashTab K V) (seed : Nat) {lf mul : Text} (hlf : OneLine lf) (hmul : OneLine mul) :
    OneLine (h.toText seed lf mul) := by
  rw [HashTab.toText]
  simp only [oneLine_append, oneLine_showInt, oneLine_showNat, hlf, hmul, and_true, true_and]
  decide

/-- C182: printing a hash map after any history writes a line with its size, then one line for each entry, indented by 4 for each place
in its chain. -/
theorem C182_lines {ops : HashOps K} {pol : ResizePolicy} (hl : LawfulHash ops) (cap : Int) (hc : cap < 2 ^ 32) (os : List (MapOp K V))
    (hpol : Modest pol os.length) (h : HashTab K V) (rs : List (Option V)) (hr : runHash ops pol (HashTab.new cap) os = some (h, rs))
    (seed : Nat) (lf mul : Text) (hlf : OneLine lf) (hmul : OneLine mul) (hK : ∀ k, OneLine (showK k)) (hV : ∀ v, OneLine (showV v))
    (indent : Nat) :
    ∃ rest body, linesOf (h.print seed lf mul showK showV indent) =
        (spaces indent ++ txt "Hash: size=" ++ showInt h.size ++ txt ", " ++ rest) :: body ∧
      List.Forall₂ (ShowsEntry showK showV indent) (h.array.flatMap (withPlace 1)) body ∧
      (h.array.flatMap (withPlace 1)).map Prod.snd = h.array.flatten ∧ (body.length : Int) = h.size := by
  obtain ⟨h0, rs0, e1, e2, -⟩ := runHash_spec hl os (HashTab.new cap) (new_hash_good cap hc) os.length (by simp [HashTab.new]) hpol
  rw [hr] at e1
  simp only [Option.some.injEq, Prod.mk.injEq] at e1
  obtain ⟨rfl, rfl⟩ := e1
  obtain ⟨body, h1, h2⟩ := array_lines hK hV indent h.array
  have hone : OneLine (spaces indent ++ h.toText seed lf mul) :=
    oneLine_append.mpr ⟨oneLine_spaces _, oneLine_hashText h seed hlf hmul⟩
  refine ⟨txt "capacity=" ++ showNat h.array.length ++ txt ", seed=" ++ showNat seed ++ txt ", lf=" ++ lf ++ txt ", m=" ++ mul ++ txt ", ",
    body, ?_, h2, flatMap_withPlace_snd _, ?_⟩
  · rw [HashTab.print, linesOf_line hone, show indent + 4 = indent + 4 * 1 by ring, h1, HashTab.toText,
      show txt ", capacity=" = txt ", " ++ txt "capacity=" by rfl]
    simp only [List.append_assoc]
  · rw [e2.size, ← h2.length_eq]
    have := congrArg List.length (flatMap_withPlace_snd h.array)
    rw [List.length_map] at this
    rw [this]; rfl

example (h : HashTab Nat Nat) (rs : List (Option Nat))
    (hr : runHash natHash wildPolicy (HashTab.new 10) [.put 1 10, .put 4 40, .put 2 20] = some (h, rs)) :=
  C182_lines natHash_lawful 10 (by decide) [.put 1 10, .put 4 40, .put 2 20] (wildPolicy_modest _) h rs hr 5 (txt "0.75") (txt "1.50")
    (by decide) (by decide) oneLine_showNat oneLine_showNat 1

example : (runHash natHash wildPolicy (HashTab.new 10) [.put 1 10, .put 4 40, .put 2 20]).isSome = true := by decide +kernel

/-! ### C183: the text of a key -/

theorem textSubKeys_starts (i : Nat) (l : List Slice) (x : Text) : ∃ y, textSubKeys i l ++ '\n' :: x = '\n' :: y := by
  cases l with
  | nil => exact ⟨x, rfl⟩
  | cons s l => exact ⟨showSubKey i s ++ textSubKeys (i + 1) l ++ '\n' :: x, by rw [textSubKeys]; simp⟩

theorem oneLine_showSubKey (i : Nat) (s : Slice) : OneLine (showSubKey i s) := by
  rw [showSubKey]
  simp only [oneLine_append]
  exact ⟨⟨⟨by decide, oneLine_showNat _⟩, by decide⟩, oneLine_showBytes _⟩

theorem oneLine_showBuf (b : Bytes) : OneLine (showBuf b) := by
  rw [showBuf]
  simp only [oneLine_append]
  exact ⟨by decide, oneLine_showBytes _⟩

/-- The text for a sub key is not the text for the buffer. -/
theorem subKey_ne_buf (i : Nat) (s : Slice) (b : Bytes) (x y : Text) : showSubKey i s ++ x ≠ showBuf b ++ y := by
  intro h
  have := congrArg (fun t => t[4]?) h
  simp [showSubKey, showBuf, txt, List.append_assoc] at this

theorem textSubKeys_inj : ∀ {l m : List Slice} {i : Nat} {b c : Bytes},
    textSubKeys i l ++ '\n' :: showBuf b = textSubKeys i m ++ '\n' :: showBuf c → l.map Slice.bytes = m.map Slice.bytes ∧ b.take 32 = c.take 32
  | [], [], i, b, c, h => by
    simp only [textSubKeys, List.nil_append, List.cons.injEq, true_and, showBuf] at h
    exact ⟨rfl, showBytes_inj (List.append_cancel_left h)⟩
  | [], t :: m, i, b, c, h => by
    exfalso
    simp only [textSubKeys, List.nil_append, List.cons_append, List.cons.injEq, true_and, List.append_assoc] at h
    exact subKey_ne_buf i t b _ [] (h.symm.trans (List.append_nil _).symm)
  | s :: l, [], i, b, c, h => by
    exfalso
    simp only [textSubKeys, List.nil_append, List.cons_append, List.cons.injEq, true_and, List.append_assoc] at h
    exact subKey_ne_buf i s c _ [] (h.trans (List.append_nil _).symm)
  | s :: l, t :: m, i, b, c, h => by
    obtain ⟨x, hx⟩ := textSubKeys_starts (i + 1) l (showBuf b)
    obtain ⟨y, hy⟩ := textSubKeys_starts (i + 1) m (showBuf c)
    simp only [textSubKeys, List.cons_append, List.cons.injEq, true_and, List.append_assoc] at h
    rw [hx, hy] at h
    obtain ⟨h1, h2⟩ := split_unique (oneLine_showSubKey i s) (oneLine_showSubKey i t) h
    rw [← h2, ← hx] at hy
    obtain ⟨g1, g2⟩ := textSubKeys_inj hy.symm
    rw [showSubKey, showSubKey] at h1
    have h3 := showBytes_inj (List.append_cancel_left h1)
    exact ⟨by rw [List.map_cons, List.map_cons, h3, g1], g2⟩

/-- The full claim of C183: two keys have the same text if and only if they are equal. -/
def TextIdentifies : Prop := ∀ a b : KeyObj, a.toText = b.toText ↔ a.equal? b = some true

/-- C183: keys with the same text have the same sub keys, byte by byte, -/
theorem C183_subKeys_partial (a b : KeyObj) (h : a.toText = b.toText) : a.subKeys.map Slice.bytes = b.subKeys.map Slice.bytes := by
  have hc : ∀ (s t : String) (l m : List Slice) (x y : Bytes), s.toList = t.toList →
      txt s ++ textSubKeys 0 l ++ '\n' :: showBuf x = txt t ++ textSubKeys 0 m ++ '\n' :: showBuf y →
      l.map Slice.bytes = m.map Slice.bytes := by
    intro s t l m x y hs he
    rw [txt, txt, hs, List.append_assoc, List.append_assoc] at he
    exact (textSubKeys_inj (List.append_cancel_left he)).1
  have hk : ∀ (l m : List Slice) (x y : Bytes),
      txt "MappedKey" ++ textSubKeys 0 l ++ '\n' :: showBuf x ≠ txt "Key" ++ textSubKeys 0 m ++ '\n' :: showBuf y := by
    intro l m x y he
    have := congrArg (fun t => t[0]?) he
    simp [txt] at this
  cases a with
  | empty =>
    cases b with
    | empty => rfl
    | mapped m => have := congrArg (fun t => t[0]?) h; simp [KeyObj.toText, txt] at this
    | key k => have := congrArg (fun t => t[0]?) h; simp [KeyObj.toText, txt] at this
  | mapped m =>
    cases b with
    | empty => have := congrArg (fun t => t[0]?) h; simp [KeyObj.toText, txt] at this
    | mapped m' => exact hc _ _ _ _ _ _ rfl h
    | key k => exact absurd h (hk _ _ _ _)
  | key k =>
    cases b with
    | empty => have := congrArg (fun t => t[0]?) h; simp [KeyObj.toText, txt] at this
    | mapped m => exact absurd h.symm (hk _ _ _ _)
    | key k' => exact hc _ _ _ _ _ _ rfl h

/-- and are equal if no sub key is nil. -/
theorem C183_equal_partial (a b : KeyObj) (h : a.toText = b.toText) (ha : none ∉ a.subKeys) (hb : none ∉ b.subKeys) :
    a.equal? b = some true := by
  rw [KeyObj.equal?_eq, Option.some.injEq, decide_eq_true_eq]
  have := C183_subKeys_partial a b h
  generalize a.subKeys = l at *
  generalize b.subKeys = m at *
  induction l generalizing m with
  | nil => cases m with
    | nil => rfl
    | cons t m => simp at this
  | cons s l ih =>
    cases m with
    | nil => simp at this
    | cons t m =>
      simp only [List.map_cons, List.cons.injEq] at this
      simp only [List.mem_cons, not_or] at ha hb
      rcases s with - | s
      · exact absurd rfl ha.1
      rcases t with - | t
      · exact absurd rfl hb.1
      have h1 : s = t := this.1
      rw [h1, ih ha.2 m hb.2 this.2]

example := C183_equal_partial (.key (newSimpleKey (some [1, 2]))) (.key (newSimpleKey (some [1, 2]))) rfl (by decide) (by decide)

/-- C183 as stated does not hold: the text of a key changes when it is encoded. -/
theorem C183_refuted : ¬ TextIdentifies := by
  intro hall
  have h := (hall (.key (newSimpleKey (some [1, 2]))) (.key (newSimpleKey (some [1, 2])).encode.1)).mpr (by decide +kernel)
  revert h
  decide +kernel

/-! ### C184: one line, indented -/

/-- The full claim of C184, the contract of `IPrintable`: `ToString` gives one line, and each line of `Print` has the indent. -/
def PrintContract : Prop :=
  (∀ k : KeyObj, OneLine k.toText ∧ Indented fun i => k.print i) ∧
  ∀ (K V : Type) (showK : K → Text) (showV : V → Text), (∀ k, OneLine (showK k)) → (∀ v, OneLine (showV v)) →
    (∀ m : SortedMap K V, OneLine (m.toText showK showV) ∧ Indented fun i => m.print showK showV i) ∧
    (∀ (h : HashTab K V) (seed : Nat) (lf mul : Text), OneLine lf → OneLine mul →
      OneLine (h.toText seed lf mul) ∧ Indented fun i => h.print seed lf mul showK showV i) ∧
    ∀ (r : PNode V) (buf : Bytes), (∃ t, trieText showV (some r) buf = some t ∧ OneLine t) ∧
      Indented fun i => (triePrint showV i (some r) buf).getD []

theorem shows_indented {indent : Nat} {e : Nat × K × V} {line : Text} (h : ShowsEntry showK showV indent e line) :
    spaces indent <+: line := by
  obtain ⟨rest, rfl⟩ := h
  rw [show spaces (indent + 4 * e.1) = spaces indent ++ spaces (4 * e.1) from List.replicate_add ..]
  simp only [List.append_assoc]
  exact List.prefix_append _ _

theorem shows_all_indented {indent : Nat} {es : List (Nat × K × V)} {body : List Text}
    (h : List.Forall₂ (ShowsEntry showK showV indent) es body) : ∀ l ∈ body, spaces indent <+: l := by
  induction h with
  | nil => intro l hl; simp at hl
  | cons h1 _ ih =>
    intro l hl
    rcases List.mem_cons.mp hl with hl | hl
    · rw [hl]; exact shows_indented h1
    · exact ih l hl

/-- C184 holds for sorted maps and hash maps, in any state. -/
theorem C184_maps_partial (hK : ∀ k, OneLine (showK k)) (hV : ∀ v, OneLine (showV v)) :
    (∀ m : SortedMap K V, OneLine (m.toText showK showV) ∧ Indented fun i => m.print showK showV i) ∧
    ∀ (h : HashTab K V) (seed : Nat) (lf mul : Text), OneLine lf → OneLine mul →
      OneLine (h.toText seed lf mul) ∧ Indented fun i => h.print seed lf mul showK showV i := by
  constructor
  · intro m
    have h1 : OneLine (m.toText showK showV) := by
      rw [SortedMap.toText]
      simp only [oneLine_append]
      exact ⟨⟨⟨by decide, oneLine_showInt _⟩, by decide⟩, oneLine_tree hK hV _⟩
    refine ⟨h1, ?_⟩
    intro indent l hl
    obtain ⟨body, h2, h3⟩ := tree_lines hK hV indent m.root 1 []
    rw [List.append_nil] at h2
    simp only at hl
    rw [SortedMap.print, linesOf_line (oneLine_append.mpr ⟨oneLine_spaces _, h1⟩), show indent + 4 = indent + 4 * 1 by ring, h2] at hl
    simp only [linesOf, List.append_nil] at hl
    rcases List.mem_cons.mp hl with hl | hl
    · rw [hl]; exact List.prefix_append _ _
    · exact shows_all_indented h3 l hl
  · intro h seed lf mul hlf hmul
    have h1 : OneLine (h.toText seed lf mul) := oneLine_hashText h seed hlf hmul
    refine ⟨h1, ?_⟩
    intro indent l hl
    obtain ⟨body, h2, h3⟩ := array_lines hK hV indent h.array
    simp only at hl
    rw [HashTab.print, linesOf_line (oneLine_append.mpr ⟨oneLine_spaces _, h1⟩), show indent + 4 = indent + 4 * 1 by ring, h2] at hl
    rcases List.mem_cons.mp hl with hl | hl
    · rw [hl]; exact List.prefix_append _ _
    · exact shows_all_indented h3 l hl

example := C184_maps_partial (showK := showInt) (showV := showNat) oneLine_showInt oneLine_showNat

theorem count_textSubKeys : ∀ (l : List Slice) (i : Nat), (textSubKeys i l).count '\n' = l.length := by
  intro l
  induction l with
  | nil => intro i; rfl
  | cons s l ih =>
    intro i
    rw [textSubKeys, List.cons_append, List.count_cons_self, List.count_append, ih, List.count_eq_zero.mpr (oneLine_showSubKey i s),
      List.length_cons]
    omega

/-- C184 for keys: the text of an empty key has no return character, that of any other one more than there are sub keys; and no key is
ever printed with the indent. -/
theorem C184_keys_partial (k : KeyObj) :
    k.toText.count '\n' = (if k = .empty then 0 else k.subKeys.length + 1) ∧ (OneLine k.toText ↔ k = .empty) ∧
      ∀ indent, 0 < indent → ∃ l ∈ linesOf (k.print indent), ¬ spaces indent <+: l := by
  have hcount : k.toText.count '\n' = (if k = .empty then 0 else k.subKeys.length + 1) := by
    cases k with
    | empty => decide
    | mapped m =>
      rw [if_neg (by simp), KeyObj.toText, List.count_append, List.count_append, count_textSubKeys, List.count_cons_self,
        List.count_eq_zero.mpr (oneLine_showBuf m.buf), show List.count '\n' (txt "MappedKey") = 0 by decide, KeyObj.subKeys]
      omega
    | key m =>
      rw [if_neg (by simp), KeyObj.toText, List.count_append, List.count_append, count_textSubKeys, List.count_cons_self,
        List.count_eq_zero.mpr (oneLine_showBuf m.buf.bytes), show List.count '\n' (txt "Key") = 0 by decide, KeyObj.subKeys]
      omega
  refine ⟨hcount, ?_, ?_⟩
  · rw [OneLine, ← List.count_eq_zero, hcount]
    split
    · simp [*]
    · simp [*]
  · intro indent hi
    obtain ⟨n, rfl⟩ : ∃ n, indent = n + 1 := ⟨indent - 1, by omega⟩
    have hsp : ∀ c l, c ≠ ' ' → ¬ spaces (n + 1) <+: c :: l := by
      intro c l hc hp
      rw [spaces, List.replicate_succ, List.cons_prefix_cons] at hp
      exact hc hp.1.symm
    cases k with
    | empty =>
      exact ⟨txt "EmptyKey", by rw [KeyObj.print, linesOf_single (by decide) (by decide)]; simp, hsp _ _ (by decide)⟩
    | mapped m =>
      refine ⟨txt "MappedKey:", ?_, hsp _ _ (by decide)⟩
      have : KeyObj.print (n + 1) (.mapped m) = txt "MappedKey:" ++ '\n' :: (printSubKeys 0 m.keys ++ showBuf m.buf ++ ['\n']) := by
        rw [KeyObj.print, show txt "MappedKey:\n" = txt "MappedKey:" ++ ['\n'] by rfl]
        simp only [List.append_assoc, List.singleton_append]
        rfl
      rw [this, linesOf_line (by decide)]
      simp
    | key m =>
      refine ⟨txt "Key:", ?_, hsp _ _ (by decide)⟩
      have : KeyObj.print (n + 1) (.key m) = txt "Key:" ++ '\n' :: (printSubKeys 0 m.keys ++ showBuf m.buf.bytes ++ ['\n']) := by
        rw [KeyObj.print, show txt "Key:\n" = txt "Key:" ++ ['\n'] by rfl]
        simp only [List.append_assoc, List.singleton_append]
        rfl
      rw [this, linesOf_line (by decide)]
      simp

/-- C184 as stated does not hold. -/
theorem C184_refuted : ¬ PrintContract := by
  intro hall
  exact absurd ((C184_keys_partial (.key newKey)).2.1.mp (hall.1 _).1) (by simp)

/-! ### C185: printing a trie -/

section
variable {α : Type} {showA : α → Text}

theorem oneLine_pnode (hV : ∀ v, OneLine (showA v)) (n : PNode α) : OneLine (n.toText showA) := by
  cases n with
  | node mapped k d off buf kids =>
    rw [PNode.toText]
    simp only [oneLine_append]
    refine ⟨⟨⟨⟨⟨⟨⟨⟨⟨⟨?_, oneLine_showHexBytes _⟩, by decide⟩, oneLine_showNat _⟩, by decide⟩, hV d⟩, by decide⟩, oneLine_showNat _⟩,
      by decide⟩, oneLine_showBytes _⟩, by decide⟩
    cases mapped <;> decide

mutual
theorem print_nodes (showA : α → Text) (indent : Nat) : ∀ (n : PNode α) (d : Nat), n.print showA (indent + 4 * d) =
    (nodesFrom d n).flatMap fun e => spaces (indent + 4 * e.1) ++ e.2.toText showA
  | .node m k v o b kids, d => by
    rw [PNode.print, nodesFrom, List.flatMap_cons, show indent + 4 * d + 4 = indent + 4 * (d + 1) by ring,
      print_nodesAll showA indent kids (d + 1)]

theorem print_nodesAll (showA : α → Text) (indent : Nat) : ∀ (l : List (PNode α)) (d : Nat), PNode.printAll showA (indent + 4 * d) l =
    (nodesAll d l).flatMap fun e => spaces (indent + 4 * e.1) ++ e.2.toText showA
  | [], d => by rw [PNode.printAll, nodesAll]; rfl
  | n :: l, d => by
    rw [PNode.printAll, nodesAll, List.flatMap_append, print_nodes showA indent n d, print_nodesAll showA indent l d]
end

/-- The full claim of C185: printing a trie writes its text on a line, then one line for each node, indented by 4 for each level. -/
def PrintsNodes : Prop := ∀ (α : Type) (showA : α → Text), (∀ v, OneLine (showA v)) → ∀ (r : PNode α) (buf : Bytes)
    (indent : Nat), ∃ t p, trieText showA (some r) buf = some t ∧ triePrint showA indent (some r) buf = some p ∧
  linesOf p = (spaces indent ++ t) :: (nodesFrom 1 r).map fun e => spaces (indent + 4 * e.1) ++ e.2.toText showA

/-- C185: what is printed instead: a line with `%s`, then all nodes on one line, after a complaint about the arguments; nothing at all
(a panic) without root. -/
theorem C185_lines_partial (hV : ∀ v, OneLine (showA v)) (r : PNode α) (buf : Bytes) (indent : Nat) :
    (∃ t p, trieText showA (some r) buf = some t ∧ OneLine t ∧ triePrint showA indent (some r) buf = some p ∧
      linesOf p = [txt "%s", txt "%!(EXTRA string=, string=" ++ t ++ txt ")" ++
        (nodesFrom 1 r).flatMap fun e => spaces (indent + 4 * e.1) ++ e.2.toText showA]) ∧
    triePrint showA indent none buf = none := by
  refine ⟨⟨_, _, rfl, ?_, rfl, ?_⟩, rfl⟩
  · simp only [oneLine_append]
    refine ⟨⟨⟨?_, oneLine_pnode hV r⟩, by decide⟩, oneLine_showBytes _⟩
    decide
  · have h1 : ∀ l : List (Nat × PNode α), OneLine (l.flatMap fun e => spaces (indent + 4 * e.1) ++ e.2.toText showA) := by
      intro l
      induction l with
      | nil => simp [OneLine]
      | cons e l ih =>
        rw [List.flatMap_cons]
        exact oneLine_append.mpr ⟨oneLine_append.mpr ⟨oneLine_spaces _, oneLine_pnode hV _⟩, ih⟩
    rw [show txt "%s\n%!(EXTRA string=, string=" = txt "%s" ++ '\n' :: txt "%!(EXTRA string=, string=" by rfl,
      show indent + 4 = indent + 4 * 1 by ring, print_nodes showA indent r 1]
    simp only [List.append_assoc, List.cons_append]
    rw [linesOf_line (by decide), linesOf_single]
    · simp only [← List.append_assoc]
      change OneLine _
      simp only [oneLine_append, oneLine_pnode hV r, oneLine_showBytes, h1, and_true]
      decide
    · simp [txt]

/-- C185 fails for every trie. -/
theorem C185_never_partial (hV : ∀ v, OneLine (showA v)) (r : PNode α) (buf : Bytes) (indent : Nat) :
    ¬ ∃ t p, trieText showA (some r) buf = some t ∧ triePrint showA indent (some r) buf = some p ∧
      linesOf p = (spaces indent ++ t) :: (nodesFrom 1 r).map fun e => spaces (indent + 4 * e.1) ++ e.2.toText showA := by
  rintro ⟨t, p, h1, h2, h3⟩
  obtain ⟨⟨t', p', g1, -, g2, g3⟩, -⟩ := C185_lines_partial hV r buf indent
  rw [h2] at g2
  cases g2
  rw [h3, List.cons.injEq] at g3
  rw [trieText, Option.map_some, Option.some.injEq] at h1
  have := congrArg List.length g3.1
  rw [← h1] at this
  simp only [txt, List.length_append, spaces, List.length_replicate] at this
  simp at this
  omega

end

/-- A trie of three nodes. -/
def printTrie : PNode Nat := .node false [] 7 0 [] [.node false [0xab] 8 0 [1, 2] [.node false [0xcd] 9 5 [] []]]

example := C185_lines_partial (showA := showNat) oneLine_showNat printTrie [3] 2

example : triePrint showNat 0 (some printTrie) [3] = some (txt "%s\n%!(EXTRA string=, string=Trie: r=TrieNode: k=, child=[1], data=7, off=0, buf=[] , buf=[3])    TrieNode: k=, child=[1], data=7, off=0, buf=[]         TrieNode: k=ab, child=[1], data=8, off=0, buf=[1 2]             TrieNode: k=cd, child=[0], data=9, off=5, buf=[] ") := by
  decide +kernel

/-- C185: printing a loaded trie, or asking for its text, always panics. -/
theorem C185_loaded_partial (showA : Option Bytes → Text) (buf : Bytes) (t : MTrie) (n : Nat) (h : newMappedTrie buf = .ok (t, n))
    (indent : Nat) : t.toText showA buf = none ∧ t.print showA buf indent = none := by
  obtain ⟨n1, n2, -, -, -, rfl⟩ := (newMappedTrie_iff buf t n).mp h
  exact ⟨rfl, rfl⟩

example : ∃ t, newMappedTrie [0, 0, 5] = .ok (t, 2) := ⟨_, rfl⟩

/-- C185 as stated does not hold. -/
theorem C185_refuted : ¬ PrintsNodes := by
  intro hall
  exact C185_never_partial oneLine_showNat printTrie [] 0 (hall Nat showNat oneLine_showNat printTrie [] 0)

example := C183_subKeys_partial (.key (newSimpleKey (some [1, 2]))) (.key (newSimpleKey (some [1, 2]))) rfl

example := C184_keys_partial (.key (newSimpleKey (some [1, 2])))

end Poodle.Props
