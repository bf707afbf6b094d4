import Verif.Props.TrieWalk
import Verif.Lemmas.Key
import Mathlib.Data.List.Infix

/-
Property C177: range iterators with an end (/repo/src/util/trie_util.go:1123-1468).
-/

namespace Poodle.Props

open Spec

variable {α : Type}

/-! ### Comparison of paths -/

theorem cmp_cons (a b : Bytes) (x y : List Bytes) : compare (a :: x) (b :: y) = (compare a b).then (compare x y) := by
  simp [compare, List.compareLex_cons_cons]

theorem cmp_append (q x y : List Bytes) : compare (q ++ x) (q ++ y) = compare x y := by
  induction q with
  | nil => rfl
  | cons a q ih => rw [List.cons_append, List.cons_append, cmp_cons, Std.ReflOrd.compare_self, ih]; rfl

/-- A path before another one is a beginning of it, or so are all its continuations. -/
theorem prefix_or_below (x y s : List Bytes) (h : compare (x ++ y) s = .lt) : x <+: s ∨ ∀ z, compare (x ++ z) s = .lt := by
  induction x generalizing s with
  | nil => exact .inl (List.nil_prefix)
  | cons a x ih =>
    rcases s with - | ⟨b, s⟩
    · exfalso
      revert h
      rw [List.cons_append]
      exact fun h => by simp [compare, List.compareLex_cons_nil] at h
    · rw [List.cons_append, cmp_cons] at h
      rcases hab : compare a b
      · right
        intro z
        rw [List.cons_append, cmp_cons, hab]
        rfl
      · rw [hab] at h
        obtain rfl : a = b := Std.LawfulEqOrd.eq_of_compare hab
        rcases ih s h with h | h
        · exact .inl (by simpa using h)
        · right
          intro z
          rw [List.cons_append, cmp_cons, hab]
          exact h z
      · rw [hab] at h
        cases h

theorem prefix_lt (x s : List Bytes) (h : x <+: s) (hl : x.length < s.length) : compare x s = .lt := by
  obtain ⟨t, rfl⟩ := h
  have := cmp_append x [] t
  rw [List.append_nil] at this
  rw [this]
  rcases t with - | ⟨b, t⟩
  · simp at hl
  · simp [compare, List.compareLex_nil_cons]

theorem at_get {q s : List Bytes} (h : q <+: s) {e : Bytes} (he : s[q.length]? = some e) : ∃ t, s = q ++ e :: t := by
  obtain ⟨t, rfl⟩ := h
  rcases t with - | ⟨b, t⟩
  · simp at he
  · simp at he
    exact ⟨t, by rw [he]⟩

/-! ### Nodes at paths -/

theorem at_append {root n m : UNode α} {ks js : List Bytes} (h : At root ks n) (h' : At n js m) : At root (ks ++ js) m := by
  induction h with
  | here => exact h'
  | child n c m ks hm _ ih => exact .child n c _ _ hm (ih h')

theorem at_last {root m : UNode α} {ks : List Bytes} {k : Bytes} (h : At root (ks ++ [k]) m) :
    ∃ n, At root ks n ∧ m ∈ n.kids ∧ m.nodeKey = k := by
  generalize hj : ks ++ [k] = js at h
  induction h generalizing ks with
  | here => simp at hj
  | child n c m js hm hc ih =>
    rcases ks with - | ⟨k', ks⟩
    · simp only [List.nil_append, List.cons.injEq] at hj
      obtain ⟨rfl, rfl⟩ := hj
      cases hc with
      | here => exact ⟨n, .here n, hm, rfl⟩
    · simp only [List.cons_append, List.cons.injEq] at hj
      obtain ⟨rfl, rfl⟩ := hj
      obtain ⟨n', h1, h2, h3⟩ := ih rfl
      exact ⟨n', .child n c _ _ hm h1, h2, h3⟩

theorem same_key {l : List (UNode α)} (h : l.Pairwise fun a b => compare a.nodeKey b.nodeKey = .lt ∧ ¬ a.nodeKey <+: b.nodeKey ∧ ¬ b.nodeKey <+: a.nodeKey)
    {a b : UNode α} (ha : a ∈ l) (hb : b ∈ l) (hk : a.nodeKey = b.nodeKey) : a = b := by
  induction h with
  | nil => cases ha
  | cons hx _ ih =>
    rcases List.mem_cons.mp ha with ha | ha
    · rcases List.mem_cons.mp hb with hb | hb
      · exact ha.trans hb.symm
      · exact absurd (by rw [← ha, hk]) (hx _ hb).2.1
    · rcases List.mem_cons.mp hb with hb | hb
      · exact absurd (by rw [← hb, hk]) (hx _ ha).2.1
      · exact ih ha hb

theorem at_sub {root c : UNode α} (h : SiblingsOrdered root) {ks : List Bytes} (hc : At root ks c) : SiblingsOrdered c :=
  fun _ _ h' => h _ _ (at_append hc h')

/-- There is only one node at a path. -/
theorem at_unique {root n m : UNode α} (h : SiblingsOrdered root) {ks : List Bytes} (hn : At root ks n) (hm : At root ks m) : n = m := by
  induction hn with
  | here => cases hm with
    | here => rfl
  | child r c n ks hc hn ih =>
    generalize hj : c.nodeKey :: ks = js at hm
    cases hm with
    | here => cases hj
    | child _ d _ _ hd hm =>
      simp only [List.cons.injEq] at hj
      obtain ⟨hk, rfl⟩ := hj
      obtain rfl := same_key (h [] r (.here r)) hc hd hk
      exact ih (at_sub h (.child r c c [] hc (.here c))) hm

theorem mem_walk_aux {m : UNode α} : (∀ n : UNode α, m ∈ descend n → ∃ ks, At n ks m) ∧
    ∀ l : List (UNode α), m ∈ descendAll l → ∃ n ∈ l, ∃ ks, At n ks m := by
  have hcons : ∀ (n : UNode α) l, descendAll (n :: l) = descend n ++ descendAll l := fun n l => by rw [descendAll.eq_def]
  have hnil : descendAll ([] : List (UNode α)) = [] := by rw [descendAll.eq_def]
  have h : ∀ n : UNode α, m ∈ descend n → ∃ ks, At n ks m := by
    intro n
    induction n using UNode.rec (motive_2 := fun l => m ∈ descendAll l → ∃ n ∈ l, ∃ ks, At n ks m) with
    | node k f v kids ih =>
      rw [descend.eq_def, List.mem_cons]
      rintro (rfl | hm)
      · exact ⟨[], .here _⟩
      · obtain ⟨c, h1, ks, h2⟩ := ih hm
        exact ⟨_, .child _ c _ ks h1 h2⟩
    | nil => rename_i hx; rw [hnil] at hx; cases hx
    | cons n l ih1 ih2 =>
      rename_i hx
      revert hx
      rw [hcons, List.mem_append]
      rintro (hm | hm)
      · exact ⟨n, by simp, ih1 hm⟩
      · obtain ⟨n', h1, h2⟩ := ih2 hm
        exact ⟨n', by simp [h1], h2⟩
  refine ⟨h, fun l => ?_⟩
  induction l with
  | nil => simp [hnil]
  | cons n l ih =>
    rw [hcons, List.mem_append]
    rintro (hm | hm)
    · exact ⟨n, by simp, h n hm⟩
    · obtain ⟨n', h1, h2⟩ := ih hm
      exact ⟨n', by simp [h1], h2⟩

theorem at_mem_walk {root n : UNode α} {ks : List Bytes} (h : At root ks n) : n ∈ descend root := by
  have hcons : ∀ (n : UNode α) l, descendAll (n :: l) = descend n ++ descendAll l := fun n l => by rw [descendAll.eq_def]
  have hmem : ∀ (l : List (UNode α)) c m, c ∈ l → m ∈ descend c → m ∈ descendAll l := by
    intro l c m
    induction l with
    | nil => simp
    | cons d l ih =>
      rw [hcons, List.mem_append, List.mem_cons]
      rintro (rfl | hc) hm
      · exact .inl hm
      · exact .inr (ih hc hm)
  induction h with
  | here n => rw [walk_eq]; simp
  | child r c m ks hc _ ih => rw [walk_eq]; exact List.mem_cons_of_mem _ (hmem _ _ _ hc ih)

/-! ### The stack of iterators -/

/-- The iterators of a range iterator: each is over the rest of the children of a node, the path of the last node is given, and what is
left in the iterator before comes after the node. -/
inductive Stack (root : UNode α) : List (List (UNode α)) → List Bytes → Prop
  | base (l : List (UNode α)) : l <:+ root.kids → Stack root [l] []
  | up (l l' : List (UNode α)) (ps : List (List (UNode α))) (q : List Bytes) (k : Bytes) (n : UNode α) : Stack root (l' :: ps) q →
      (∀ m ∈ l', compare k m.nodeKey = .lt) → At root (q ++ [k]) n → l <:+ n.kids → Stack root (l :: l' :: ps) (q ++ [k])

theorem Stack.length {root : UNode α} {ps : List (List (UNode α))} {q : List Bytes} (h : Stack root ps q) : ps.length = q.length + 1 := by
  induction h with
  | base => rfl
  | up l l' ps q k n _ _ _ _ ih => simp at ih ⊢; omega

theorem Stack.top {root : UNode α} {l : List (UNode α)} {ps : List (List (UNode α))} {q : List Bytes} (h : Stack root (l :: ps) q) :
    ∃ n, At root q n ∧ l <:+ n.kids := by
  cases h with
  | base _ h => exact ⟨root, .here _, h⟩
  | up _ _ _ _ _ n _ _ h1 h2 => exact ⟨n, h1, h2⟩

/-- What the matches say: up to the last iterator, whether the path agrees with the end; from there on, that the end is reached or
passed. -/
structure Flags (stop : List Bytes) (top : List (UNode α)) (q : List Bytes) (ms : List Bool) : Prop where
  side : q <+: stop ∨ ∀ z, compare (q ++ z) stop = .lt
  before : ∀ i, i < q.length → (ms[i]? = some true ↔ q.take (i + 1) <+: stop)
  after : ∀ j, q.length ≤ j → ms[j]? = some true → q <+: stop ∧ ∀ n ∈ top, ∀ e, stop[q.length]? = some e →
    compare n.nodeKey e ≠ .lt ∧ (q.length < j → compare n.nodeKey e = .gt)

theorem Flags.pop {stop q : List Bytes} {k : Bytes} {l l' : List (UNode α)} {ms : List Bool} (h : Flags stop l (q ++ [k]) ms)
    (hl : ∀ m ∈ l', compare k m.nodeKey = .lt) : Flags stop l' q ms := by
  have key : q ++ [k] <+: stop → q <+: stop ∧ ∀ n ∈ l', ∀ e, stop[q.length]? = some e → compare n.nodeKey e ≠ .lt ∧ compare n.nodeKey e = .gt := by
    rintro ⟨t, rfl⟩
    refine ⟨⟨k :: t, by simp⟩, ?_⟩
    intro n hn e he
    simp at he
    subst he
    have : compare n.nodeKey k = .gt := Std.OrientedCmp.gt_iff_lt.mpr (hl n hn)
    rw [this]
    simp
  refine ⟨?_, ?_, ?_⟩
  · rcases h.side with h | h
    · exact .inl (key h).1
    · have := h []
      rw [List.append_nil] at this
      exact prefix_or_below q [k] stop this
  · intro i hi
    rw [h.before i (by simp; omega), List.take_append_of_le_length (by omega)]
  · intro j hj hm
    rcases Nat.eq_or_lt_of_le hj with rfl | hj
    · have := (h.before q.length (by simp)).mp hm
      rw [List.take_of_length_le (by simp)] at this
      exact ⟨(key this).1, fun n hn e he => ⟨((key this).2 n hn e he).1, fun _ => ((key this).2 n hn e he).2⟩⟩
    · have := (h.after j (by simp; omega) hm).1
      exact ⟨(key this).1, fun n hn e he => ⟨((key this).2 n hn e he).1, fun _ => ((key this).2 n hn e he).2⟩⟩

/-- A path is before the end, or is the end and this belongs to the range as a key below it is missing. -/
def UpTo (stop : List Bytes) (ec : Option Bytes) (ks : List Bytes) : Prop := compare ks stop = .lt ∨ ec.isSome ∧ ks = stop

instance (stop : List Bytes) (ec : Option Bytes) (ks : List Bytes) : Decidable (UpTo stop ec ks) := by unfold UpTo; infer_instance

/-- The nodes before the end. -/
def beforeEnd (stop : List Bytes) (ec : Option Bytes) (l : List (UNode α)) : List (UNode α) := l.filter fun n => UpTo stop ec n.full

/-- A state of the iterator before `checkEnd`. -/
def RangeReady (root : UNode α) (stop : List Bytes) (ps : List (List (UNode α))) (ms : List Bool) : Prop :=
  ms.length = stop.length ∧ (ps = [] ∨ ∃ l ps' q, ps = l :: ps' ∧ Stack root ps q ∧ ps.length ≤ stop.length ∧ Flags stop l q ms)

/-- A state of the iterator after `checkEnd`: the next node is before the end, and it is noted whether it is on the way to the end. -/
def RangeChecked (root : UNode α) (stop : List Bytes) (ec : Option Bytes) (ps : List (List (UNode α))) (ms : List Bool) : Prop :=
  ms.length = stop.length ∧ (ps = [] ∨ ∃ n l ps' q, ps = (n :: l) :: ps' ∧ Stack root ps q ∧ ps.length ≤ stop.length ∧
    Flags stop (n :: l) q ms ∧ UpTo stop ec n.full ∧ (ms[q.length]? = some true ↔ q ++ [n.nodeKey] <+: stop))

theorem sibling_cmp {root p e : UNode α} (h : SiblingsOrdered root) {q : List Bytes} {k : Bytes} (hp : At root q p) {n : UNode α}
    (hn : n ∈ p.kids) (he : At root (q ++ [k]) e) : compareByteSlice (some n.nodeKey) (some k) = .ok (ordInt (compare n.nodeKey k)) := by
  obtain ⟨p', h1, h2, rfl⟩ := at_last he
  obtain rfl := at_unique h hp h1
  rw [compareByteSlice_some]
  rcases hc : cmpRec n.nodeKey e.nodeKey with r | - | -
  · rw [cmpRec_ok _ _ _ hc]
  · exact absurd hc (cmpRec_not_err _ _)
  · exfalso
    rw [cmpRec_panic_iff] at hc
    obtain ⟨h3, h4⟩ := hc
    have hs := h q p hp
    clear h1 hp he
    revert hn h2
    generalize p.kids = l at hs
    induction hs with
    | nil => simp
    | cons hx _ ih =>
      intro hn he
      rcases List.mem_cons.mp hn with hn | hn
      · rcases List.mem_cons.mp he with he | he
        · exact h4 (by rw [hn, he])
        · exact (hx _ he).2.2 (hn ▸ h3)
      · rcases List.mem_cons.mp he with he | he
        · exact (hx _ hn).2.1 (he ▸ h3)
        · exact ih hn he

/-- All nodes below the rest of the children of a node that are not before the end. -/
theorem beforeEnd_nil {root p : UNode α} (hf : FullKeysArePaths root) {stop q : List Bytes} {ec : Option Bytes} {e : Bytes} (hq : q <+: stop)
    (he : stop[q.length]? = some e) (hp : At root q p) {l : List (UNode α)} (hl : ∀ n ∈ l, n ∈ p.kids)
    (h : ∀ n ∈ l, compare n.nodeKey e = .gt ∨ (n.nodeKey = e ∧ q.length + 1 = stop.length ∧ ec = none)) : beforeEnd stop ec (descendAll l) = [] := by
  rw [beforeEnd, List.filter_eq_nil_iff]
  intro m hm
  obtain ⟨n, hn, ks, hks⟩ := mem_walk_aux.2 l hm
  have hfull : m.full = q ++ n.nodeKey :: ks := hf _ _ (at_append hp (.child p n m ks (hl n hn) hks))
  obtain ⟨t, rfl⟩ := at_get hq he
  rw [hfull, decide_eq_true_eq, UpTo, cmp_append, cmp_cons]
  rcases h n hn with h' | ⟨h', hlen, hec⟩
  · have : n.nodeKey ≠ e := by
      rintro rfl
      rw [Std.ReflOrd.compare_self] at h'
      cases h'
    simp [h', this]
  · have : t = [] := by
      simp at hlen
      exact hlen
    subst this
    rw [h', Std.ReflOrd.compare_self, hec]
    rcases ks with - | ⟨b, t⟩
    · simp
    · simp [compare, List.compareLex_cons_nil]

theorem endPath_at {root e : UNode α} (h : SiblingsOrdered root) {stop : List Bytes} (he : At root stop e) :
    (RangeIter.endPath root stop).2 = none ∧ (RangeIter.endPath root stop).1.length = stop.length ∧
    ∀ i n, (RangeIter.endPath root stop).1[i]? = some n → At root (stop.take (i + 1)) n ∧ stop[i]? = some n.nodeKey := by
  induction he with
  | here => simp [RangeIter.endPath]
  | child r c m ks hc hm ih =>
    have hg : r.getChild c.nodeKey = some c := by
      obtain ⟨d, hd⟩ := Option.isSome_iff_exists.mp ((getChild_isSome r c.nodeKey).mpr ⟨c, hc, rfl⟩)
      rw [hd]
      unfold UNode.getChild at hd
      have h1 := List.mem_of_find?_eq_some hd
      have h2 := List.find?_some hd
      simp only [decide_eq_true_eq, beq_iff_eq] at h2
      rw [same_key (h [] r (.here r)) h1 hc h2]
    obtain ⟨i1, i2, i3⟩ := ih (at_sub h (.child r c c [] hc (.here c)))
    unfold RangeIter.endPath
    rw [hg]
    refine ⟨i1, by simp [i2], ?_⟩
    rintro (- | i) n hn
    · simp at hn
      subst hn
      exact ⟨.child r c c [] hc (.here c), by simp⟩
    · simp at hn
      obtain ⟨h1, h2⟩ := i3 i n hn
      exact ⟨by rw [List.take_succ_cons]; exact .child r c n _ hc h1, by simpa using h2⟩

theorem walkAll_cons (n : UNode α) (l : List (UNode α)) : descendAll (n :: l) = descend n ++ descendAll l := by rw [descendAll.eq_def]

theorem walkAll_nil : descendAll ([] : List (UNode α)) = [] := by rw [descendAll.eq_def]

theorem RangeReady.tail {root : UNode α} {stop q : List Bytes} {l : List (UNode α)} {ps : List (List (UNode α))} {ms : List Bool}
    (hs : Stack root (l :: ps) q) (hl : (l :: ps).length ≤ stop.length) (hm : ms.length = stop.length) (h : Flags stop l q ms) :
    RangeReady root stop ps ms := by
  refine ⟨hm, ?_⟩
  cases hs with
  | base => exact .inl rfl
  | up _ l' ps q k n h1 h2 h3 h4 => exact .inr ⟨l', ps, q, rfl, h1, by simp at hl ⊢; omega, h.pop h2⟩

theorem endLoop_ready {root : UNode α} (hf : FullKeysArePaths root) (ho : SiblingsOrdered root) {stop : List Bytes} {ec : Option Bytes}
    {en : List (UNode α)}
    (hl : en.length = stop.length)
    (hen : ∀ i n, en[i]? = some n → At root (stop.take (i + 1)) n ∧ stop[i]? = some n.nodeKey) :
    ∀ ps ms, RangeReady root stop ps ms → ∃ ps' ms', RangeIter.endLoop en ec ps ms = some (ps', ms') ∧ RangeChecked root stop ec ps' ms' ∧
      beforeEnd stop ec (ps'.flatMap descendAll) = beforeEnd stop ec (ps.flatMap descendAll) := by
  intro ps
  induction ps with
  | nil =>
    intro ms h
    exact ⟨[], ms, by rw [RangeIter.endLoop], ⟨h.1, .inl rfl⟩, rfl⟩
  | cons l ps ih =>
    intro ms h
    obtain ⟨hm, h⟩ := h
    obtain ⟨l', ps', q, heq, hs, hlen, hfl⟩ := h.resolve_left (by simp)
    simp only [List.cons.injEq] at heq
    obtain ⟨rfl, rfl⟩ := heq
    have hq := hs.length
    simp only [List.length_cons, Nat.add_right_cancel_iff] at hq hlen
    rcases hen' : en[ps.length]? with - | e
    · rw [List.getElem?_eq_none_iff] at hen'
      omega
    obtain ⟨he1, he2⟩ := hen _ _ hen'
    rw [hq] at he1 he2
    rw [RangeIter.endLoop]
    simp only [hen']
    rcases l with - | ⟨n, l⟩
    · obtain ⟨ps', ms', h1, h2, h3⟩ := ih ms (.tail hs (by simpa using hlen) hm hfl)
      exact ⟨ps', ms', h1, h2, by rw [h3]; simp [walkAll_nil]⟩
    dsimp only
    obtain ⟨p, hp, hsuf⟩ := hs.top
    have hkids : ∀ m ∈ n :: l, m ∈ p.kids := fun m hm => hsuf.subset hm
    have hfull : n.full = q ++ [n.nodeKey] := hf _ _ (at_append hp (.child p n n [] (hkids n (by simp)) (.here n)))
    have hsib := (ho q p hp).sublist hsuf.sublist
    rw [List.pairwise_cons] at hsib
    by_cases hprev : ps.length ≠ 0 ∧ ms[ps.length - 1]? ≠ some true
    · rw [if_pos hprev]
      have hnp : ¬ q <+: stop := by
        intro hp'
        refine hprev.2 ?_
        rw [hq, hfl.before _ (by omega), List.take_of_length_le (by omega)]
        exact hp'
      have hall := hfl.side.resolve_left hnp
      refine ⟨_, _, rfl, ⟨hm, .inr ⟨n, l, ps, q, rfl, hs, by simpa using hlen, hfl, ?_, ?_⟩⟩, rfl⟩
      · rw [hfull]; exact .inl (hall _)
      · constructor
        · intro h; exact absurd (hfl.after _ le_rfl h).1 hnp
        · intro h; exact absurd ((List.prefix_append q _).trans h) hnp
    rw [if_neg hprev]
    have hpre : q <+: stop := by
      by_cases h0 : ps.length = 0
      · have : q = [] := List.length_eq_zero_iff.mp (by omega)
        rw [this]; exact List.nil_prefix
      · have : ms[ps.length - 1]? = some true := by
          by_contra hc
          exact hprev ⟨h0, hc⟩
        rw [hq, hfl.before _ (by omega), List.take_of_length_le (by omega)] at this
        exact this
    obtain ⟨t, ht⟩ := at_get hpre he2
    have hat : At root (q ++ [e.nodeKey]) e := by
      have : stop.take (q.length + 1) = q ++ [e.nodeKey] := by rw [ht, List.take_append]; simp
      rw [← this]; exact he1
    rw [sibling_cmp ho hp (hkids n (by simp)) hat]
    have hset : ∀ b, (ms.set ps.length b).length = stop.length := fun b => by simpa using hm
    have hge : ∀ m ∈ l, compare n.nodeKey m.nodeKey = .lt := fun m hm => (hsib.1 m hm).1
    have hflags : ∀ (b : Bool) (top : List (UNode α)), (b = true → ∀ m ∈ top, compare m.nodeKey e.nodeKey ≠ .lt) →
        (∀ m ∈ top, m ∈ n :: l) → Flags stop top q (ms.set ps.length b) := by
      intro b top hb ht
      refine ⟨hfl.side, ?_, ?_⟩
      · intro i hi
        rw [List.getElem?_set_ne (by omega)]
        exact hfl.before i hi
      · intro j hj hmj
        refine ⟨hpre, ?_⟩
        intro m hm' e' he'
        rw [he2] at he'
        obtain rfl := Option.some.inj he'
        rcases Nat.eq_or_lt_of_le hj with rfl | hj
        · rw [hq, List.getElem?_set_self (by omega)] at hmj
          exact ⟨hb (Option.some.inj hmj) m hm', fun h => absurd h (by omega)⟩
        · rw [List.getElem?_set_ne (by omega)] at hmj
          exact (hfl.after j (by omega) hmj).2 m (ht m hm') _ he2
    have hpop : (∀ m ∈ n :: l, compare m.nodeKey e.nodeKey = .gt ∨ (m.nodeKey = e.nodeKey ∧ q.length + 1 = stop.length ∧ ec = none)) →
        ∃ ps' ms', RangeIter.endLoop en ec ps (ms.set ps.length true) = some (ps', ms') ∧ RangeChecked root stop ec ps' ms' ∧
          beforeEnd stop ec (ps'.flatMap descendAll) = beforeEnd stop ec (((n :: l) :: ps).flatMap descendAll) := by
      intro hgt
      have hs' : Stack root ([] :: ps) q := by
        cases hs with
        | base => exact .base _ (List.nil_suffix)
        | up _ l' ps q k n h1 h2 h3 h4 => exact .up _ _ _ _ _ n h1 h2 h3 (List.nil_suffix)
      obtain ⟨ps', ms', h1, h2, h3⟩ := ih (ms.set ps.length true)
        (.tail hs' (by simpa using hlen) (hset _) (hflags true [] (by simp) (by simp)))
      refine ⟨ps', ms', h1, h2, ?_⟩
      rw [h3, List.flatMap_cons, beforeEnd, beforeEnd, List.filter_append]
      have := beforeEnd_nil (ec := ec) hf hpre he2 hp hkids hgt
      rw [beforeEnd] at this
      rw [this, List.nil_append]
    have htrans : compare n.nodeKey e.nodeKey ≠ .lt → ∀ m ∈ l, compare m.nodeKey e.nodeKey = .gt := by
      intro h m hm
      rw [Std.OrientedCmp.gt_iff_lt]
      have h1 := hge m hm
      rcases hc : compare n.nodeKey e.nodeKey
      · exact absurd hc h
      · rw [← Std.LawfulEqOrd.eq_of_compare hc]; exact h1
      · exact Std.TransCmp.lt_trans (Std.OrientedCmp.gt_iff_lt.mp hc) h1
    rcases hc : compare n.nodeKey e.nodeKey
    · simp only [ordInt, show ¬ ((-1 : Int) > 0) by decide, if_false, show ¬ ((-1 : Int) = 0) by decide]
      refine ⟨_, _, rfl, ⟨hset _, .inr ⟨n, l, ps, q, rfl, hs, by simpa using hlen, hflags false _ (by simp) (by simp), ?_, ?_⟩⟩, rfl⟩
      · left
        rw [hfull, ht, cmp_append, cmp_cons, hc]; rfl
      · rw [hq, List.getElem?_set_self (by omega)]
        refine iff_of_false (by simp) ?_
        rw [ht, List.prefix_append_right_inj]
        simp only [List.cons_prefix_cons]
        rintro ⟨h, -⟩
        rw [h, Std.ReflOrd.compare_self] at hc
        cases hc
    · have hnk : n.nodeKey = e.nodeKey := Std.LawfulEqOrd.eq_of_compare hc
      simp only [ordInt, show ¬ ((0 : Int) > 0) by decide, if_false, if_true]
      by_cases hend : ps.length + 1 = en.length ∧ ec.isNone
      · rw [if_pos hend]
        apply hpop
        intro m hm
        rcases List.mem_cons.mp hm with rfl | hm
        · exact .inr ⟨hnk, by omega, Option.isNone_iff_eq_none.mp hend.2⟩
        · exact .inl (htrans (by simp [hc]) m hm)
      · rw [if_neg hend]
        have hpn : q ++ [n.nodeKey] <+: stop := by
          rw [ht, List.prefix_append_right_inj]
          simp [hnk]
        refine ⟨_, _, rfl, ⟨hset _, .inr ⟨n, l, ps, q, rfl, hs, by simpa using hlen, hflags true _ ?_ (by simp), ?_, ?_⟩⟩, rfl⟩
        · intro _ m hm
          rcases List.mem_cons.mp hm with rfl | hm
          · simp [hc]
          · rw [htrans (by simp [hc]) m hm]; simp
        · rw [hfull]
          by_cases hlast : ps.length + 1 = en.length
          · right
            refine ⟨?_, hpn.eq_of_length (by simp; omega)⟩
            rcases ec with - | k
            · exact absurd ⟨hlast, rfl⟩ hend
            · rfl
          · exact .inl (prefix_lt _ _ hpn (by simp; omega))
        · rw [hq, List.getElem?_set_self (by omega)]
          exact iff_of_true rfl hpn
    · simp only [ordInt, show ((1 : Int) > 0) by decide, if_true]
      apply hpop
      intro m hm
      rcases List.mem_cons.mp hm with rfl | hm
      · exact .inl hc
      · exact .inl (htrans (by simp [hc]) m hm)

theorem beforeEnd_append (stop : List Bytes) (ec : Option Bytes) (l l' : List (UNode α)) : beforeEnd stop ec (l ++ l') = beforeEnd stop ec l ++ beforeEnd stop ec l' :=
  List.filter_append _ _

theorem RangeChecked.ready {root : UNode α} {stop : List Bytes} {ec : Option Bytes} {ps : List (List (UNode α))} {ms : List Bool} (h : RangeChecked root stop ec ps ms) :
    RangeReady root stop ps ms := by
  obtain ⟨hm, h⟩ := h
  refine ⟨hm, ?_⟩
  rcases h with h | ⟨n, l, ps', q, rfl, h1, h2, h3, -, -⟩
  · exact .inl h
  · exact .inr ⟨n :: l, ps', q, rfl, h1, h2, h3⟩

/-- The node that `Next` returns. -/
theorem RangeChecked.node {root n : UNode α} (hf : FullKeysArePaths root) {stop : List Bytes} {ec : Option Bytes} {l : List (UNode α)}
    {ps : List (List (UNode α))} {ms : List Bool} (h : RangeChecked root stop ec ((n :: l) :: ps) ms) :
    UpTo stop ec n.full ∧ n.full.length = ps.length + 1 ∧ ps.length + 1 ≤ stop.length ∧ ∃ q, At root q n := by
  obtain ⟨hm, h⟩ := h
  obtain ⟨n', l', ps', q, heq, hs, hlen, hfl, hlt, hmat⟩ := h.resolve_left (by simp)
  simp only [List.cons.injEq] at heq
  obtain ⟨⟨rfl, rfl⟩, rfl⟩ := heq
  obtain ⟨p, hp, hsuf⟩ := hs.top
  have hat : At root (q ++ [n.nodeKey]) n := at_append hp (.child p n n [] (hsuf.subset (by simp)) (.here n))
  have hq := hs.length
  simp only [List.length_cons, Nat.add_right_cancel_iff] at hq hlen
  refine ⟨hlt, ?_, hlen, _, hat⟩
  rw [hf _ _ hat]
  simp [hq]

/-- The iterators after `Next` returned a node: those of the children are among them only if the children are not too deep. -/
theorem RangeChecked.push {root n : UNode α} (ho : SiblingsOrdered root) (hf : FullKeysArePaths root) {stop : List Bytes}
    {ec : Option Bytes} {l : List (UNode α)}
    {ps : List (List (UNode α))} {ms : List Bool} (h : RangeChecked root stop ec ((n :: l) :: ps) ms)
    (hdeep : (KeyIter.push n (l :: ps)).length ≤ stop.length) : RangeReady root stop (KeyIter.push n (l :: ps)) ms := by
  obtain ⟨hm, h⟩ := h
  obtain ⟨n', l', ps', q, heq, hs, hlen, hfl, hlt, hmat⟩ := h.resolve_left (by simp)
  simp only [List.cons.injEq] at heq
  obtain ⟨⟨rfl, rfl⟩, rfl⟩ := heq
  obtain ⟨p, hp, hsuf⟩ := hs.top
  have hmem : n ∈ p.kids := hsuf.subset (by simp)
  have hat : At root (q ++ [n.nodeKey]) n := at_append hp (.child p n n [] hmem (.here n))
  have hfull : n.full = q ++ [n.nodeKey] := hf _ _ hat
  have hsib := (ho q p hp).sublist hsuf.sublist
  rw [List.pairwise_cons] at hsib
  have hs' : Stack root (l :: ps) q := by
    cases hs with
    | base _ h' => exact .base _ ((List.suffix_cons n l).trans h')
    | up _ l' ps q k m h1 h2 h3 h4 => exact .up _ _ _ _ _ m h1 h2 h3 ((List.suffix_cons n l).trans h4)
  have hq := hs.length
  simp only [List.length_cons, Nat.add_right_cancel_iff] at hq hlen
  refine ⟨hm, .inr ?_⟩
  unfold KeyIter.push at hdeep ⊢
  split
  · rename_i hk
    rw [if_pos hk] at hdeep
    refine ⟨n.kids, l :: ps, q ++ [n.nodeKey], rfl, ?_, hdeep, ?_, ?_, ?_⟩
    · exact .up _ _ _ _ _ n hs' (fun m hm => (hsib.1 m hm).1) hat (List.suffix_refl _)
    · rw [hfull] at hlt
      rcases hlt with hlt | ⟨-, hlt⟩
      · exact prefix_or_below (q ++ [n.nodeKey]) [] stop (by rw [List.append_nil]; exact hlt)
      · exact .inl (by rw [hlt])
    · intro i hi
      simp only [List.length_append, List.length_singleton] at hi
      rcases Nat.eq_or_lt_of_le (Nat.le_of_lt_succ hi) with rfl | hi
      · rw [hmat, List.take_of_length_le (by simp)]
      · rw [hfl.before i hi, List.take_append_of_le_length (by omega)]
    · intro j hj hmj
      exfalso
      simp only [List.length_append, List.length_singleton] at hj
      obtain ⟨h1, h2⟩ := hfl.after j (by omega) hmj
      obtain ⟨e, he⟩ : ∃ e, stop[q.length]? = some e := ⟨_, List.getElem?_eq_getElem (by omega)⟩
      have hgt := (h2 n (by simp) e he).2 (by omega)
      obtain ⟨t, ht⟩ := at_get h1 he
      rw [hfull, UpTo, ht, cmp_append, cmp_cons, hgt] at hlt
      rcases hlt with hlt | ⟨-, hlt⟩
      · cases hlt
      · simp only [List.append_cancel_left_eq, List.cons.injEq] at hlt
        rw [hlt.1, Std.ReflOrd.compare_self] at hgt
        cases hgt
  · refine ⟨l, ps, q, rfl, hs', by simpa using hlen, hfl.side, hfl.before, ?_⟩
    intro j hj hmj
    obtain ⟨h1, h2⟩ := hfl.after j hj hmj
    exact ⟨h1, fun m hm => h2 m (by simp [hm])⟩

/-- Below a node before the end but not on the way to it, all nodes are before the end. -/
theorem push_deep {root n : UNode α} (hf : FullKeysArePaths root) {stop q : List Bytes} (hat : At root q n)
    (hlt : compare n.full stop = .lt) (hlen : n.full.length = stop.length) (hk : n.kids ≠ []) :
    ∃ c ∈ n.kids, compare c.full stop = .lt ∧ stop.length < c.full.length := by
  obtain ⟨c, hc⟩ := List.exists_mem_of_ne_nil _ hk
  refine ⟨c, hc, ?_⟩
  have hac : At root (q ++ [c.nodeKey]) c := at_append hat (.child n c c [] hc (.here c))
  rw [hf _ _ hat] at hlt hlen
  rw [hf _ _ hac]
  refine ⟨?_, by simp; omega⟩
  rcases prefix_or_below q [] stop (by simpa using hlt) with h | h
  · rw [h.eq_of_length hlen, Std.ReflOrd.compare_self] at hlt
    cases hlt
  · exact h _

/-- What is left after `Next` returned a node. -/
theorem push_left {stop : List Bytes} {ec : Option Bytes} {n : UNode α} {l : List (UNode α)} {ps : List (List (UNode α))}
    (hlt : UpTo stop ec n.full) :
    beforeEnd stop ec (((n :: l) :: ps).flatMap descendAll) = n :: beforeEnd stop ec ((KeyIter.push n (l :: ps)).flatMap descendAll) := by
  rw [push_walk, List.flatMap_cons, List.flatMap_cons, walkAll_cons, walk_eq]
  simp [beforeEnd, hlt]

/-- An iterator with more iterators than the end has keys never ends. -/
theorem never_ends (root : UNode α) (en : List (UNode α)) (ec : Option Bytes) (ms : List Bool) (cs : List IterCall) :
    ∀ ps : List (List (UNode α)), en.length < ps.length →
      WalkRes.nil ∉ (RangeIter.run ⟨root, false, en, ec, ps, ms⟩ cs) ∧ WalkRes.bool false ∉ (RangeIter.run ⟨root, false, en, ec, ps, ms⟩ cs) := by
  have hce : ∀ ps : List (List (UNode α)), en.length < ps.length →
      RangeIter.checkEnd (⟨root, false, en, ec, ps, ms⟩ : RangeIter α) = some ⟨root, false, en, ec, ps, ms⟩ := by
    intro ps h
    unfold RangeIter.checkEnd
    split
    · rfl
    · rcases ps with - | ⟨l, ps⟩
      · simp at h
      · have : en[ps.length]? = none := by
          rw [List.getElem?_eq_none_iff]
          simp at h
          omega
        simp [RangeIter.endLoop, this]
  induction cs with
  | nil => simp [RangeIter.run]
  | cons c cs ih =>
    intro ps hps
    rcases ps with - | ⟨- | ⟨n, l⟩, ps⟩
    · simp at hps
    · cases c
      · simp [RangeIter.run, RangeIter.call, RangeIter.next, RangeIter.nextBody, hce _ hps]
      · simp [RangeIter.run, RangeIter.call, RangeIter.hasNext, hce _ hps]
        simpa using ih _ hps
      · simp [RangeIter.run, RangeIter.call, RangeIter.peek, RangeIter.peekBody, hce _ hps]
    · have hp : en.length < (KeyIter.push n (l :: ps)).length := by
        unfold KeyIter.push
        simp at hps
        split <;> simp <;> omega
      cases c
      · simp [RangeIter.run, RangeIter.call, RangeIter.next, RangeIter.nextBody, hce _ hps, RangeIter.finish, hce _ hp]
        simpa using ih _ hp
      · simp [RangeIter.run, RangeIter.call, RangeIter.hasNext, hce _ hps]
        simpa using ih _ hps
      · simp [RangeIter.run, RangeIter.call, RangeIter.peek, RangeIter.peekBody, hce _ hps]
        simpa using ih _ hps

section
variable {root : UNode α} {stop : List Bytes} {ec : Option Bytes} {en : List (UNode α)}

theorem checkEnd_ready (hf : FullKeysArePaths root) (ho : SiblingsOrdered root) (hne : stop ≠ []) (hl : en.length = stop.length)
    (hen : ∀ i n, en[i]? = some n → At root (stop.take (i + 1)) n ∧ stop[i]? = some n.nodeKey) (ps : List (List (UNode α)))
    (ms : List Bool) (h : RangeReady root stop ps ms) : ∃ ps' ms',
      RangeIter.checkEnd (⟨root, false, en, ec, ps, ms⟩ : RangeIter α) = some ⟨root, false, en, ec, ps', ms'⟩ ∧
      RangeChecked root stop ec ps' ms' ∧ beforeEnd stop ec (ps'.flatMap descendAll) = beforeEnd stop ec (ps.flatMap descendAll) := by
  obtain ⟨ps', ms', h1, h2, h3⟩ := endLoop_ready hf ho hl hen ps ms h
  refine ⟨ps', ms', ?_, h2, h3⟩
  have : en.length ≠ 0 := by
    rw [hl]
    simpa using hne
  simp [RangeIter.checkEnd, h1, this]

/-- One call, if the iterator is not among the children of a node too deep after it. -/
theorem run_ready (hf : FullKeysArePaths root) (ho : SiblingsOrdered root) (hne : stop ≠ []) (hl : en.length = stop.length)
    (hen : ∀ i n, en[i]? = some n → At root (stop.take (i + 1)) n ∧ stop[i]? = some n.nodeKey) (cs : List IterCall) :
    ∀ (ps : List (List (UNode α))) (ms : List Bool), RangeReady root stop ps ms →
      (∀ n ∈ beforeEnd stop ec (ps.flatMap descendAll), n.kids ≠ [] → n.full.length < stop.length) →
      RangeIter.run ⟨root, false, en, ec, ps, ms⟩ cs = rangeRun ((beforeEnd stop ec (ps.flatMap descendAll)).map UNode.entry) cs := by
  induction cs with
  | nil => intros; rcases beforeEnd stop ec _ with - | ⟨b, l⟩ <;> simp [RangeIter.run, rangeRun]
  | cons c cs ih =>
    intro ps ms hr hsh
    obtain ⟨ps1, ms1, h1, h2, h3⟩ := checkEnd_ready (ec := ec) hf ho hne hl hen ps ms hr
    rw [← h3] at hsh ⊢
    rcases ps1 with - | ⟨- | ⟨n, l⟩, ps1⟩
    · have ih' := ih [] ms1 h2.ready (by simpa using hsh)
      cases c <;> simp [RangeIter.run, RangeIter.call, RangeIter.next, RangeIter.nextBody, RangeIter.peek, RangeIter.peekBody, RangeIter.hasNext, h1, rangeRun, beforeEnd] <;>
        simpa [beforeEnd] using ih'
    · exfalso
      obtain ⟨-, h2 | ⟨n, l, ps, q, h, -⟩⟩ := h2
      · simp at h2
      · simp at h
    · have ih' := ih _ ms1 h2.ready hsh
      obtain ⟨n1, n2, n3, q, n4⟩ := h2.node hf
      have hleft := push_left (l := l) (ps := ps1) n1
      cases c
      · have hd : (KeyIter.push n (l :: ps1)).length ≤ stop.length := by
          by_contra hc
          unfold KeyIter.push at hc
          split at hc
          · rename_i hk
            simp only [List.length_cons] at hc
            exact absurd (hsh n (by rw [hleft]; simp) (by simpa using hk)) (by omega)
          · simp at hc
            omega
        have hr' := h2.push ho hf hd
        obtain ⟨ps2, ms2, g1, g2, g3⟩ := checkEnd_ready (ec := ec) hf ho hne hl hen _ _ hr'
        rw [hleft] at hsh ⊢
        have ih2 := ih ps2 ms2 g2.ready (by rw [g3]; exact fun n hn => hsh n (List.mem_cons_of_mem _ hn))
        rw [g3] at ih2
        simp only [RangeIter.run, RangeIter.call, RangeIter.next, RangeIter.nextBody, h1, Bool.false_eq_true, if_false, RangeIter.finish, g1, List.map_cons,
          rangeRun, ih2]
      · rw [hleft] at ih' ⊢
        simp only [RangeIter.run, RangeIter.call, RangeIter.hasNext, h1, Bool.false_or, List.map_cons, rangeRun, ih']
        simp
      · rw [hleft] at ih' ⊢
        simp only [RangeIter.run, RangeIter.call, RangeIter.peek, RangeIter.peekBody, h1, Bool.false_eq_true, if_false, List.map_cons, rangeRun, ih']

theorem rangeRun_nexts {β : Type} (l : List β) : WalkRes.nil ∈ rangeRun l (List.replicate (l.length + 1) .next) := by
  induction l with
  | nil => simp [rangeRun]
  | cons b l ih =>
    rw [List.length_cons, List.replicate_succ, rangeRun]
    exact List.mem_cons_of_mem _ ih

/-- An iterator that comes to an end has no node too deep before the end. -/
theorem shallow_of_end (hf : FullKeysArePaths root) (ho : SiblingsOrdered root) (hne : stop ≠ []) (hl : en.length = stop.length)
    (hen : ∀ i n, en[i]? = some n → At root (stop.take (i + 1)) n ∧ stop[i]? = some n.nodeKey) (k : Nat) :
    ∀ (ps : List (List (UNode α))) (ms : List Bool), RangeReady root stop ps ms → ps.length ≤ stop.length →
      WalkRes.nil ∈ RangeIter.run ⟨root, false, en, ec, ps, ms⟩ (List.replicate k .next) →
      ∀ n ∈ beforeEnd stop ec (ps.flatMap descendAll), n.kids ≠ [] → n.full.length < stop.length := by
  induction k with
  | zero => intro ps ms _ _ h; simp [RangeIter.run] at h
  | succ k ih =>
    intro ps ms hr hlen hnil
    obtain ⟨ps1, ms1, h1, h2, h3⟩ := checkEnd_ready (ec := ec) hf ho hne hl hen ps ms hr
    rw [← h3]
    rcases ps1 with - | ⟨- | ⟨n, l⟩, ps1⟩
    · simp [beforeEnd]
    · exfalso
      obtain ⟨-, h2 | ⟨n, l, ps, q, h, -⟩⟩ := h2
      · simp at h2
      · simp at h
    · obtain ⟨n1, n2, n3, q, n4⟩ := h2.node hf
      have hleft := push_left (l := l) (ps := ps1) n1
      rw [List.replicate_succ] at hnil
      by_cases hd : (KeyIter.push n (l :: ps1)).length ≤ stop.length
      · obtain ⟨ps2, ms2, g1, g2, g3⟩ := checkEnd_ready (ec := ec) hf ho hne hl hen _ _ (h2.push ho hf hd)
        have hl2 : ps2.length ≤ stop.length := by
          obtain ⟨-, h | ⟨_, _, _, _, -, -, h, -⟩⟩ := g2
          · simp [h]
          · exact h
        simp only [RangeIter.run, RangeIter.call, RangeIter.next, RangeIter.nextBody, h1, Bool.false_eq_true, if_false, RangeIter.finish, g1, List.mem_cons,
          reduceCtorEq, false_or] at hnil
        have ih2 := ih ps2 ms2 g2.ready hl2 hnil
        rw [hleft]
        intro m hm
        rcases List.mem_cons.mp hm with rfl | hm
        · intro hk
          have hk' : m.kids.length ≠ 0 := by simpa using hk
          rw [KeyIter.push, if_pos hk'] at hd
          simp only [List.length_cons] at hd
          omega
        · exact ih2 m (by rw [g3]; exact hm)
      · exfalso
        have hp : en.length < (KeyIter.push n (l :: ps1)).length := by omega
        have hce : RangeIter.checkEnd (⟨root, false, en, ec, KeyIter.push n (l :: ps1), ms1⟩ : RangeIter α) =
            some ⟨root, false, en, ec, KeyIter.push n (l :: ps1), ms1⟩ := by
          generalize KeyIter.push n (l :: ps1) = ps at hp
          unfold RangeIter.checkEnd
          split
          · rfl
          · rcases ps with - | ⟨l, ps⟩
            · simp at hp
            · have : en[ps.length]? = none := by
                rw [List.getElem?_eq_none_iff]
                simp at hp
                omega
              simp [RangeIter.endLoop, this]
        simp only [RangeIter.run, RangeIter.call, RangeIter.next, RangeIter.nextBody, h1, Bool.false_eq_true, if_false, RangeIter.finish, hce, List.mem_cons,
          reduceCtorEq, false_or] at hnil
        exact (never_ends root en ec ms1 _ _ hp).1 hnil

end

/-- The loop over the keys of an end of which a beginning is in the trie. -/
theorem endPath_missing {root e : UNode α} (h : SiblingsOrdered root) {p : List Bytes} (he : At root p e) {k : Bytes} (rest : List Bytes)
    (hk : ¬ ∃ c, At e [k] c) : (RangeIter.endPath root (p ++ k :: rest)).1 = (RangeIter.endPath root p).1 ∧
      (RangeIter.endPath root (p ++ k :: rest)).2 = some k := by
  induction he with
  | here n =>
    have : n.getChild k = none := by
      rcases hg : n.getChild k with - | c
      · rfl
      · obtain ⟨c, h1, h2⟩ := (getChild_isSome n k).mp (by rw [hg]; rfl)
        exact absurd ⟨c, h2 ▸ At.child n c c [] h1 (.here c)⟩ hk
    simp [RangeIter.endPath, this]
  | child r c m ks hc hm ih =>
    have ih := ih (at_sub h (.child r c c [] hc (.here c))) hk
    rw [List.cons_append, RangeIter.endPath, RangeIter.endPath]
    rcases hg : r.getChild c.nodeKey with - | d
    · have := (getChild_isSome r c.nodeKey).mpr ⟨c, hc, rfl⟩
      rw [hg] at this
      cases this
    · have hd : d = c := by
        unfold UNode.getChild at hg
        have h1 := List.mem_of_find?_eq_some hg
        have h2 := List.find?_some hg
        simp only [decide_eq_true_eq] at h2
        exact same_key (h [] r (.here r)) h1 hc h2
      subst hd
      simp [ih]

/-- The first `Next` of an iterator with an end. -/
theorem upTo_first {root e : UNode α} (hf : FullKeysArePaths root) (ho : SiblingsOrdered root) {stop : List Bytes} {ec : Option Bytes}
    (hne : stop ≠ []) (he : At root stop e) :
    ∃ (en : List (UNode α)) (ps : List (List (UNode α))) (ms : List Bool), en = (RangeIter.endPath root stop).1 ∧ en.length = stop.length ∧
      (∀ i n, en[i]? = some n → At root (stop.take (i + 1)) n ∧ stop[i]? = some n.nodeKey) ∧ RangeChecked root stop ec ps ms ∧
      beforeEnd stop ec (ps.flatMap descendAll) = beforeEnd stop ec (descendAll root.kids) ∧
      ∀ cs, RangeIter.run ⟨root, true, en, ec, [], en.map fun _ => false⟩ (.next :: cs) =
        .yield root.entry :: RangeIter.run ⟨root, false, en, ec, ps, ms⟩ cs := by
  obtain ⟨-, e2, e3⟩ := endPath_at ho he
  obtain ⟨en, hen⟩ : ∃ en, en = (RangeIter.endPath root stop).1 := ⟨_, rfl⟩
  rw [← hen] at e2 e3 ⊢
  have hk : root.kids ≠ [] := by
    cases he with
    | here => exact absurd rfl hne
    | child _ c _ _ hm _ => exact List.ne_nil_of_mem hm
  have hk' : root.kids.length ≠ 0 := by simpa using hk
  have hr : RangeReady root stop [root.kids] (en.map fun _ => false) := by
    refine ⟨by simpa using e2, .inr ⟨root.kids, [], [], rfl, .base _ (List.suffix_refl _), ?_, .inl List.nil_prefix, by simp, ?_⟩⟩
    · simpa using Nat.one_le_iff_ne_zero.mpr (by simpa using hne)
    · intro j _ hj
      rw [List.getElem?_map] at hj
      simp at hj
  obtain ⟨ps, ms, h1, h2, h3⟩ := checkEnd_ready (ec := ec) hf ho hne e2 e3 _ _ hr
  refine ⟨en, ps, ms, rfl, e2, e3, h2, ?_, ?_⟩
  · rw [h3]
    simp
  · intro cs
    simp only [RangeIter.run, RangeIter.call, RangeIter.next, RangeIter.nextBody, RangeIter.finish]
    rw [RangeIter.checkEnd]
    simp only [or_true, if_true, List.length_nil, ne_eq, not_true, if_false, if_pos hk', h1]

/-- The iteration up to a path in the trie is right exactly if the nodes visited that have children are less deep than the path. -/
theorem upTo_iff {root e : UNode α} (hf : FullKeysArePaths root) (ho : SiblingsOrdered root) {stop : List Bytes} {ec : Option Bytes}
    (hne : stop ≠ []) (he : At root stop e) :
    let i : RangeIter α := ⟨root, true, (RangeIter.endPath root stop).1, ec, [], (RangeIter.endPath root stop).1.map fun _ => false⟩
    ((∀ n ∈ descend root, UpTo stop ec n.full → n.kids ≠ [] → n.full.length < stop.length) →
      ∀ cs, i.run cs = rangeRun ((beforeEnd stop ec (descend root)).map UNode.entry) cs) ∧
    ((∃ k, WalkRes.nil ∈ i.run (List.replicate k .next)) →
      ∀ n ∈ descend root, UpTo stop ec n.full → n.kids ≠ [] → n.full.length < stop.length) := by
  have h0 : root.full = [] := hf [] root (.here _)
  obtain ⟨en, ps, ms, rfl, e2, e3, h2, hb, hnext⟩ := upTo_first (ec := ec) hf ho hne he
  have hlt : UpTo stop ec root.full := by
    left
    rw [h0]
    exact prefix_lt _ _ List.nil_prefix (by simpa using List.length_pos_iff.mpr hne)
  have hw : beforeEnd stop ec (descend root) = root :: beforeEnd stop ec (descendAll root.kids) := by
    rw [walk_eq]
    simp [beforeEnd, hlt]
  refine ⟨?_, ?_⟩
  · intro hsh cs
    have hsh' : ∀ n ∈ beforeEnd stop ec (descendAll root.kids), n.kids ≠ [] → n.full.length < stop.length := by
      intro n hn
      obtain ⟨h4, h5⟩ := List.mem_filter.mp hn
      exact hsh n (by rw [walk_eq]; exact List.mem_cons_of_mem _ h4) (by simpa using h5)
    rw [hw]
    induction cs with
    | nil => rfl
    | cons c cs ih =>
      cases c
      · rw [hnext, List.map_cons, rangeRun, run_ready hf ho hne e2 e3 cs ps ms h2.ready (by rw [hb]; exact hsh'), hb]
      · rw [List.map_cons, rangeRun, ← List.map_cons, ← ih]
        simp [RangeIter.run, RangeIter.call, RangeIter.hasNext, RangeIter.checkEnd]
      · rw [List.map_cons, rangeRun, ← List.map_cons, ← ih]
        simp only [RangeIter.run, RangeIter.call, RangeIter.peek, RangeIter.peekBody, RangeIter.checkEnd, or_true, if_true, List.length_nil, ne_eq, not_true,
          if_false]
  · rintro ⟨k, h⟩ n hn hn'
    rcases k with - | k
    · simp [RangeIter.run] at h
    rw [List.replicate_succ, hnext, List.mem_cons] at h
    have h := h.resolve_left (by simp)
    have hl2 : ps.length ≤ stop.length := by
      obtain ⟨-, h | ⟨_, _, _, _, -, -, h, -⟩⟩ := h2
      · simp [h]
      · exact h
    have := shallow_of_end hf ho hne e2 e3 _ ps ms h2.ready hl2 h
    rw [hb] at this
    rw [walk_eq, List.mem_cons] at hn
    rcases hn with rfl | hn
    · intro _
      rw [h0]
      simpa using List.length_pos_iff.mpr hne
    · exact this n (List.mem_filter.mpr ⟨hn, by simpa using hn'⟩)

/-- The nodes at the beginnings of the path of a node. -/
theorem at_prefix {root n : UNode α} {q ks : List Bytes} (h : At root (q ++ ks) n) : ∃ m, At root q m ∧ At m ks n := by
  generalize hj : q ++ ks = js at h
  induction h generalizing q with
  | here m =>
    obtain ⟨rfl, rfl⟩ := List.append_eq_nil_iff.mp hj
    exact ⟨m, .here m, .here m⟩
  | child r c n js hc hn ih =>
    rcases q with - | ⟨k, q⟩
    · exact ⟨r, .here r, by rw [List.nil_append] at hj; rw [hj]; exact .child r c n js hc hn⟩
    · simp only [List.cons_append, List.cons.injEq] at hj
      obtain ⟨rfl, hj⟩ := hj
      obtain ⟨m, h1, h2⟩ := ih hj
      exact ⟨m, .child r c m q hc h1, h2⟩

theorem shallow_iff {root : UNode α} (hf : FullKeysArePaths root) (stop : List Bytes) :
    (∀ n ∈ descend root, compare n.full stop = .lt → n.kids ≠ [] → n.full.length < stop.length) ↔
      ∀ n ∈ descend root, compare n.full stop = .lt → n.full.length ≤ stop.length := by
  constructor
  · intro h n hn hlt
    by_contra hc
    obtain ⟨ks, hks⟩ := mem_walk_aux.1 root hn
    have hfull := hf _ _ hks
    rw [hfull] at hlt hc
    rw [← List.take_append_drop stop.length ks] at hlt hks
    obtain ⟨m, h1, h2⟩ := at_prefix hks
    have hlen : (ks.take stop.length).length = stop.length := by rw [List.length_take]; omega
    have hm : compare m.full stop = .lt := by
      rw [hf _ _ h1]
      rcases prefix_or_below _ _ _ hlt with hp | hp
      · rw [hp.eq_of_length hlen] at hlt
        have := cmp_append stop (ks.drop stop.length) []
        rw [List.append_nil] at this
        rw [this] at hlt
        rcases hd : ks.drop stop.length with - | ⟨b, t⟩
        · rw [hd, Std.ReflOrd.compare_self] at hlt
          cases hlt
        · rw [hd] at hlt
          simp [compare, List.compareLex_cons_nil] at hlt
      · simpa using hp []
    have hk : m.kids ≠ [] := by
      generalize hd : ks.drop stop.length = d at h2
      cases h2 with
      | here =>
        have := List.drop_eq_nil_iff.mp hd
        omega
      | child _ c _ _ hc _ => exact List.ne_nil_of_mem hc
    have := h m (at_mem_walk h1) hm hk
    rw [hf _ _ h1, hlen] at this
    omega
  · intro h n hn hlt hk
    obtain ⟨ks, hks⟩ := mem_walk_aux.1 root hn
    refine lt_of_le_of_ne (h n hn hlt) fun hlen => ?_
    obtain ⟨c, h1, h2, h3⟩ := push_deep hf hks hlt hlen hk
    have := h c (at_mem_walk (at_append hks (.child n c c [] h1 (.here c)))) h2
    omega

theorem upTo_none (stop ks : List Bytes) : UpTo stop none ks ↔ compare ks stop = .lt := by simp [UpTo]

theorem new_end {root e : UNode α} (hf : FullKeysArePaths root) (ho : SiblingsOrdered root) {stop : List Bytes} (he : At root stop e)
    {i : RangeIter α} (hi : RangeIter.new root (some stop) = some i) :
    i = ⟨root, true, (RangeIter.endPath root stop).1, none, [], (RangeIter.endPath root stop).1.map fun _ => false⟩ := by
  have h0 : root.full = [] := hf [] root (.here _)
  unfold RangeIter.new at hi
  rw [if_neg (by simp [h0])] at hi
  simp only [(endPath_at ho he).1, Option.some.injEq] at hi
  exact hi.symm

/-! ### C177 Range iterators with an end -/

/-- The full claim of C177: a range iterator with an end visits the nodes before the end and then ends. -/
def RangeVisitsUpTo (α : Type) : Prop := ∀ (root : UNode α) (stop : List Bytes) (i : RangeIter α) (cs : List IterCall),
  FullKeysArePaths root → SiblingsOrdered root → RangeIter.new root (some stop) = some i →
  i.run cs = rangeRun (((descend root).filter fun n => compare n.full stop = .lt).map UNode.entry) cs

/-- C177, exactly, for an end that is in the trie: the iterator visits the nodes before it and then ends, if and only if none of them is
deeper than the end. -/
theorem C177_upTo_partial (root e : UNode α) (hf : FullKeysArePaths root) (ho : SiblingsOrdered root) (stop : List Bytes) (hne : stop ≠ [])
    (he : At root stop e) (i : RangeIter α) (hi : RangeIter.new root (some stop) = some i) :
    (∀ cs, i.run cs = rangeRun (((descend root).filter fun n => compare n.full stop = .lt).map UNode.entry) cs) ↔
      ∀ n ∈ descend root, compare n.full stop = .lt → n.full.length ≤ stop.length := by
  obtain rfl := new_end hf ho he hi
  obtain ⟨h1, h2⟩ := upTo_iff (ec := none) hf ho hne he
  simp only [upTo_none, beforeEnd] at h1 h2
  rw [shallow_iff hf] at h1 h2
  refine ⟨fun h => h2 ?_, h1⟩
  have := rangeRun_nexts (((descend root).filter fun n => compare n.full stop = .lt).map UNode.entry)
  rw [← h] at this
  exact ⟨_, this⟩

/-- C177: otherwise `Next` never returns nil. -/
theorem C177_never_ends_partial (root e : UNode α) (hf : FullKeysArePaths root) (ho : SiblingsOrdered root) (stop : List Bytes)
    (hne : stop ≠ []) (he : At root stop e) (i : RangeIter α) (hi : RangeIter.new root (some stop) = some i) (n : UNode α)
    (hn : n ∈ descend root) (hlt : compare n.full stop = .lt) (hdeep : stop.length < n.full.length) (k : Nat) :
    WalkRes.nil ∉ i.run (List.replicate k .next) := by
  obtain rfl := new_end hf ho he hi
  obtain ⟨-, h2⟩ := upTo_iff (ec := none) hf ho hne he
  simp only [upTo_none] at h2
  rw [shallow_iff hf] at h2
  intro h
  have := h2 ⟨k, h⟩ n hn hlt
  omega

theorem cmp_missing {p ks : List Bytes} (h : ¬ p <+: ks) (t : List Bytes) : compare ks (p ++ t) = compare ks p := by
  induction p generalizing ks with
  | nil => exact absurd List.nil_prefix h
  | cons a p ih =>
    rcases ks with - | ⟨b, ks⟩
    · simp [compare, List.compareLex_nil_cons]
    · rw [List.cons_append, cmp_cons, cmp_cons]
      rcases hab : compare b a
      · rfl
      · obtain rfl : b = a := Std.LawfulEqOrd.eq_of_compare hab
        rw [ih (fun hp => h (by simpa using hp))]
      · rfl

/-- C177, exactly, for an end of which a beginning is in the trie: the iterator visits the nodes before the end and then ends, if and only
if the last node on the way to the end has no children and no node before it is deeper than it.  (If not even the first key is in the trie,
the end is ignored, see C176.) -/
theorem C177_missing_partial (root e : UNode α) (hf : FullKeysArePaths root) (ho : SiblingsOrdered root) (p : List Bytes) (hne : p ≠ [])
    (he : At root p e) (k : Bytes) (rest : List Bytes) (hk : ¬ ∃ c, At e [k] c) (i : RangeIter α)
    (hi : RangeIter.new root (some (p ++ k :: rest)) = some i) :
    (∀ cs, i.run cs = rangeRun (((descend root).filter fun n => compare n.full (p ++ k :: rest) = .lt).map UNode.entry) cs) ↔
      e.kids = [] ∧ ∀ n ∈ descend root, compare n.full p = .lt → n.full.length ≤ p.length := by
  have h0 : root.full = [] := hf [] root (.here _)
  obtain ⟨m1, m2⟩ := endPath_missing ho he rest hk
  unfold RangeIter.new at hi
  rw [if_neg (by simp [h0])] at hi
  simp only [m1, m2, Option.some.injEq] at hi
  subst hi
  obtain ⟨h1, h2⟩ := upTo_iff (ec := some k) hf ho hne he
  have hfull : e.full = p := hf _ _ he
  have hcond : (∀ n ∈ descend root, UpTo p (some k) n.full → n.kids ≠ [] → n.full.length < p.length) ↔
      e.kids = [] ∧ ∀ n ∈ descend root, compare n.full p = .lt → n.full.length ≤ p.length := by
    rw [← shallow_iff hf]
    constructor
    · intro h
      refine ⟨?_, fun n hn hlt => h n hn (.inl hlt)⟩
      by_contra hc
      have := h e (at_mem_walk he) (.inr ⟨rfl, hfull⟩) hc
      rw [hfull] at this
      omega
    · rintro ⟨h3, h4⟩ n hn (hlt | ⟨-, heq⟩) hnk
      · exact h4 n hn hlt hnk
      · obtain ⟨ks, hks⟩ := mem_walk_aux.1 root hn
        rw [hf _ _ hks] at heq
        subst heq
        exact absurd (at_unique ho hks he ▸ h3) hnk
  rw [hcond] at h1 h2
  constructor
  · intro h
    have := rangeRun_nexts (((descend root).filter fun n => compare n.full (p ++ k :: rest) = .lt).map UNode.entry)
    rw [← h] at this
    exact h2 ⟨_, this⟩
  · intro h cs
    rw [h1 h cs]
    congr 2
    refine List.filter_congr fun n hn => ?_
    rw [decide_eq_decide]
    obtain ⟨ks, hks⟩ := mem_walk_aux.1 root hn
    rw [hf _ _ hks]
    by_cases hp : p <+: ks
    · obtain ⟨t, rfl⟩ := hp
      obtain ⟨m, a1, a2⟩ := at_prefix hks
      obtain rfl := at_unique ho a1 he
      cases a2 with
      | here => simp [UpTo, prefix_lt p (p ++ k :: rest) (List.prefix_append _ _) (by simp)]
      | child _ c _ _ hc _ => simp [h.1] at hc
    · rw [cmp_missing hp, UpTo]
      constructor
      · rintro (h | ⟨-, rfl⟩)
        · exact h
        · exact absurd (List.prefix_refl _) hp
      · exact .inl

theorem sampleTrie_ordered : SiblingsOrdered sampleTrie := by
  intro ks n h
  cases h with
  | here => decide
  | child _ c _ ks hm h =>
    simp only [sampleTrie, UNode.kids, List.mem_cons, List.not_mem_nil, or_false] at hm
    rcases hm with rfl | rfl | rfl
    · cases h with
      | here => decide
      | child _ c _ ks hm h => simp [UNode.kids] at hm
    · cases h with
      | here => decide
      | child _ c _ ks hm h =>
        simp only [UNode.kids, List.mem_cons, List.not_mem_nil, or_false] at hm
        rcases hm with rfl | rfl
        · cases h with
          | here => decide
          | child _ c _ ks hm h => simp [UNode.kids] at hm
        · cases h with
          | here => decide
          | child _ c _ ks hm h => simp [UNode.kids] at hm
    · cases h with
      | here => decide
      | child _ c _ ks hm h => simp [UNode.kids] at hm

/-- The node "e". -/
theorem sampleTrie_at_e : At sampleTrie [[101]] (.node [101] [[101]] 5 []) :=
  .child _ (.node [101] [[101]] 5 []) _ _ (by simp [sampleTrie, UNode.kids]) (.here _)

/-- The node "b d". -/
theorem sampleTrie_at_bd : At sampleTrie [[98], [100]] (.node [100] [[98], [100]] 4 []) :=
  .child _ (.node [98] [[98]] 2 [.node [99] [[98], [99]] 3 [], .node [100] [[98], [100]] 4 []]) _ _ (by simp [sampleTrie, UNode.kids])
    (.child _ (.node [100] [[98], [100]] 4 []) _ _ (by simp [UNode.kids]) (.here _))

/-- Up to "b d": nothing before it is deeper. -/
example : ∃ i, RangeIter.new sampleTrie (some [[98], [100]]) = some i ∧ ∀ cs, i.run cs =
    rangeRun [([], 0), ([[97]], 1), ([[98]], 2), ([[98], [99]], 3)] cs :=
  ⟨_, rfl, (C177_upTo_partial sampleTrie _ sampleTrie_paths sampleTrie_ordered [[98], [100]] (by simp) sampleTrie_at_bd _ rfl).mpr (by decide)⟩
/-- Up to "e": "b c" is before it and deeper. -/
example := C177_never_ends_partial sampleTrie _ sampleTrie_paths sampleTrie_ordered [[101]] (by simp) sampleTrie_at_e _ rfl
  (.node [99] [[98], [99]] 3 []) (by simp [sampleTrie, descend, descendAll]) (by decide) (by decide) 100

theorem sampleTrie_leaf {k : Bytes} {c : UNode Nat} : ¬ At (.node [97] [[97]] 1 []) [k] c := by
  intro h
  generalize hks : [k] = ks at h
  cases h with
  | here => cases hks
  | child _ c _ _ hm _ => simp [UNode.kids] at hm

/-- Up to "a a", of which only "a" is in the trie. -/
example : ∃ i, RangeIter.new sampleTrie (some [[97], [97]]) = some i ∧ ∀ cs, i.run cs = rangeRun [([], 0), ([[97]], 1)] cs :=
  ⟨_, rfl, (C177_missing_partial sampleTrie (.node [97] [[97]] 1 []) sampleTrie_paths sampleTrie_ordered [[97]] (by simp)
    (.child _ (.node [97] [[97]] 1 []) _ _ (by simp [sampleTrie, UNode.kids]) (.here _)) [97] []
    (by rintro ⟨c, hc⟩; exact sampleTrie_leaf hc) _ rfl).mpr (by decide)⟩
/-- Up to "b z": the children of "b" are visited without end, as it has some. -/
example : ∃ i, RangeIter.new sampleTrie (some [[98], [122]]) = some i ∧ i.run [.next, .next, .next, .next, .next, .next] =
    [.yield ([], 0), .yield ([[97]], 1), .yield ([[98]], 2), .yield ([[98], [99]], 3), .yield ([[98], [100]], 4), .hang] := ⟨_, rfl, by decide⟩

/-- C177 is false, even for ends that are in the trie: up to "e" the iterator does not come back from the children of "b". -/
theorem C177_refuted : ¬ RangeVisitsUpTo Nat := by
  intro h
  have := h sampleTrie [[101]] _ [.next, .next, .next, .next, .next, .next] sampleTrie_paths sampleTrie_ordered rfl
  revert this
  decide

end Poodle.Props
