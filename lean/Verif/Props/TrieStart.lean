import Verif.Model.TrieStart
import Verif.Spec.TrieStart
import Verif.Props.TrieRange

/-
Property C178: range iterators with a start (/repo/src/util/trie_util.go:1123-1468).
-/

namespace Poodle.Props

open Spec

variable {α : Type}

/-! ### Iterators without pending start -/

theorem baseCheckEnd_skip (b : RangeIter α) (h : b.endNodes.length = 0 ∨ b.isRoot ∨ b.paths.length = 0 ∨ b.endNodes.length < b.paths.length) :
    b.checkEnd = some b := by
  unfold RangeIter.checkEnd
  by_cases hc : b.endNodes.length = 0 ∨ b.isRoot
  · rw [if_pos hc]
  · rw [if_neg hc]
    simp only [not_or] at hc
    have h := (h.resolve_left hc.1).resolve_left hc.2
    obtain ⟨root, isRoot, en, ec, ps, ms⟩ := b
    rcases ps with - | ⟨l, ps⟩
    · simp [RangeIter.endLoop]
    · have : en[ps.length]? = none := by
        rw [List.getElem?_eq_none_iff]
        simp at h
        omega
      simp [RangeIter.endLoop, this]

theorem startCheckEnd (i : StartIter α) (h : i.pending = none) : i.checkEnd = i.base.checkEnd.map fun b => { i with base := b } := by
  unfold StartIter.checkEnd
  split
  · rename_i hc
    rw [baseCheckEnd_skip _ hc]
    rfl
  · have : i.touch = some i := by
      unfold StartIter.touch
      rw [h]
      obtain ⟨b, sn, sc, ini, pd⟩ := i
      simp only at h
      subst h
      rfl
    rw [this]
    simp only
    rcases i.base.checkEnd with - | b <;> rfl

theorem baseCheckEnd_root (b b' : RangeIter α) (h : b.checkEnd = some b') : b'.isRoot = b.isRoot := by
  unfold RangeIter.checkEnd at h
  split at h
  · cases h; rfl
  · rcases he : RangeIter.endLoop b.endNodes b.endChild b.paths b.endMatches with - | ⟨ps, ms⟩
    · rw [he] at h; cases h
    · rw [he] at h
      cases h
      rfl

theorem nextBody_root (b : RangeIter α) (h : b.isRoot = false) : b.nextBody.1.isRoot = false := by
  have hf : ∀ (b : RangeIter α) n, b.isRoot = false → (b.finish n).1.isRoot = false := by
    intro b n h
    unfold RangeIter.finish
    rcases hc : b.checkEnd with - | b'
    · exact h
    · simp only
      rw [baseCheckEnd_root _ _ hc, h]
  unfold RangeIter.nextBody
  rw [h]
  simp only [Bool.false_eq_true, if_false]
  split
  · exact h
  · exact h
  · exact hf _ _ rfl

theorem peekBody_base (b : RangeIter α) : b.peekBody.1 = b := by
  unfold RangeIter.peekBody
  split
  · split <;> rfl
  · split <;> rfl

/-- Without a pending start the iterator does what it does without start. -/
theorem base_run (cs : List IterCall) : ∀ i : StartIter α, i.pending = none → (i.initialized = true ∨ (i.startNodes = [] ∧ i.startChild = none)) →
    (i.startNodes = [] ∨ i.base.isRoot = false) → i.run cs = i.base.run cs := by
  induction cs with
  | nil => intros; rfl
  | cons c cs ih =>
    rintro ⟨b, sn, sc, ini, pd⟩ h1 h2 h3
    simp only at h1 h2 h3
    subst h1
    have hcs : ∃ ini', (ini' = true ∨ (sn = [] ∧ sc = none)) ∧
        StartIter.checkStart (⟨b, sn, sc, ini, none⟩ : StartIter α) = some ⟨b, sn, sc, ini', none⟩ := by
      unfold StartIter.checkStart
      rcases ini with - | -
      · obtain ⟨rfl, rfl⟩ := h2.resolve_left (by simp)
        exact ⟨true, .inl rfl, by simp⟩
      · exact ⟨true, .inl rfl, by simp⟩
    obtain ⟨ini', hi, hcs⟩ := hcs
    rcases hce : b.checkEnd with - | b'
    · have hchecks : StartIter.checks (⟨b, sn, sc, ini, none⟩ : StartIter α) = none := by
        unfold StartIter.checks
        rw [hcs]
        simp only
        rw [startCheckEnd _ rfl]
        simp only [hce]
        rfl
      have h4 : ∀ c, b.call c = (b, .crash) := by
        intro c
        cases c <;> simp [RangeIter.call, RangeIter.next, RangeIter.peek, RangeIter.hasNext, hce]
      simp only [StartIter.run, StartIter.call, hchecks, RangeIter.run, h4]
    · have hchecks : StartIter.checks (⟨b, sn, sc, ini, none⟩ : StartIter α) = some ⟨b', sn, sc, ini', none⟩ := by
        unfold StartIter.checks
        rw [hcs]
        simp only
        rw [startCheckEnd _ rfl]
        simp only [hce]
        rfl
      have hroot := baseCheckEnd_root _ _ hce
      have hask : StartIter.ask (⟨b', sn, sc, ini', none⟩ : StartIter α) = some ⟨b', sn, sc, ini', none⟩ := by
        unfold StartIter.ask
        simp only
        split
        · rename_i hr
          rw [if_neg]
          rcases h3 with h3 | h3
          · simp [h3]
          · rw [hroot, h3] at hr
            cases hr
        · rfl
      cases c
      · have ih' := ih ⟨b'.nextBody.1, sn, sc, ini', none⟩ rfl hi (by
          rcases h3 with h3 | h3
          · exact .inl h3
          · exact .inr (nextBody_root _ (by rw [hroot, h3])))
        simp only [StartIter.run, StartIter.call, hchecks, hask, RangeIter.run, RangeIter.call, RangeIter.next, hce, ih']
        cases b'.nextBody.2 <;> rfl
      · have ih' := ih ⟨b', sn, sc, ini', none⟩ rfl hi (by
          rcases h3 with h3 | h3
          · exact .inl h3
          · exact .inr (by rw [hroot, h3]))
        simp only [StartIter.run, StartIter.call, hchecks, RangeIter.run, RangeIter.call, RangeIter.hasNext, hce, ih']
      · have ih' := ih ⟨b'.peekBody.1, sn, sc, ini', none⟩ rfl hi (by
          rw [peekBody_base]
          rcases h3 with h3 | h3
          · exact .inl h3
          · exact .inr (by rw [hroot, h3]))
        simp only [StartIter.run, StartIter.call, hchecks, hask, RangeIter.run, RangeIter.call, RangeIter.peek, hce, ih']
        cases b'.peekBody.2 <;> rfl

/-- An iterator without start is that of C176 and C177. -/
theorem without_start (root : UNode α) (stop : Option (List Bytes)) (i : StartIter α) (h : StartIter.new root none stop = some i)
    (cs : List IterCall) : ∃ b, RangeIter.new root stop = some b ∧ i.run cs = b.run cs := by
  unfold StartIter.new at h
  rcases hb : RangeIter.new root stop with - | b
  · rw [hb] at h
    cases h
  · rw [hb] at h
    cases h
    exact ⟨b, rfl, base_run _ _ rfl (.inr ⟨rfl, rfl⟩) (.inl rfl)⟩

/-! ### Iterators among the children of a node -/

/-- What an iterator without end does whose last iterator has not been asked yet. -/
theorem late_run (i : StartIter α) (h1 : i.initialized = true) (h2 : i.base.isRoot = false) (h3 : i.base.endNodes = []) (l : List (UNode α))
    (ps : List (List (UNode α))) (h4 : i.base.paths = l :: ps) (cs : List IterCall) :
    (i.touch = none → i.run cs = failRun cs) ∧
    ∀ i', i.touch = some i' → ∃ l', i'.base.paths = l' :: ps ∧ i.run cs = stuckRun ((trailAll l').map UNode.entry) cs := by
  obtain ⟨b, sn, sc, ini, pd⟩ := i
  simp only at h1 h2 h3 h4
  subst h1
  have hchecks : ∀ pd, StartIter.checks (⟨b, sn, sc, true, pd⟩ : StartIter α) = some ⟨b, sn, sc, true, pd⟩ := by
    intro pd
    simp [StartIter.checks, StartIter.checkStart, StartIter.checkEnd, h3]
  have hask : ∀ pd, StartIter.ask (⟨b, sn, sc, true, pd⟩ : StartIter α) = StartIter.touch ⟨b, sn, sc, true, pd⟩ := by
    intro pd
    simp [StartIter.ask, h2]
  have hhas : ∀ (cs : List IterCall), StartIter.run (⟨b, sn, sc, true, pd⟩ : StartIter α) (.hasNext :: cs) =
      .bool true :: StartIter.run ⟨b, sn, sc, true, pd⟩ cs := by
    intro cs
    simp [StartIter.run, StartIter.call, hchecks, h4]
  constructor
  · intro ht
    induction cs with
    | nil => rfl
    | cons c cs ih =>
      cases c
      · simp [StartIter.run, StartIter.call, hchecks, hask, ht, failRun]
      · rw [hhas, ih, failRun]
      · simp [StartIter.run, StartIter.call, hchecks, hask, ht, failRun]
  · intro i' ht
    have hi' : ∃ l', i' = ⟨{ b with paths := l' :: ps }, sn, sc, true, none⟩ := by
      unfold StartIter.touch at ht
      simp only at ht
      split at ht
      · rename_i s n l1 ps1 hp
        rw [h4] at hp
        simp only [List.cons.injEq] at hp
        obtain ⟨rfl, rfl⟩ := hp
        split at ht
        · exact ⟨_, (Option.some.inj ht).symm⟩
        · cases ht
      · refine ⟨l, ?_⟩
        rw [← Option.some.inj ht, ← h4]
    obtain ⟨l', rfl⟩ := hi'
    refine ⟨l', rfl, ?_⟩
    have hb := fun cs => base_run cs ⟨{ b with paths := l' :: ps }, sn, sc, true, none⟩ rfl (.inl rfl) (.inr h2)
    have hs := fun cs => stuck_run cs { b with paths := l' :: ps } h2 h3 l' ps rfl
    have htouch : StartIter.touch (⟨{ b with paths := l' :: ps }, sn, sc, true, none⟩ : StartIter α) =
        some ⟨{ b with paths := l' :: ps }, sn, sc, true, none⟩ := rfl
    have hchecks' : StartIter.checks (⟨{ b with paths := l' :: ps }, sn, sc, true, none⟩ : StartIter α) =
        some ⟨{ b with paths := l' :: ps }, sn, sc, true, none⟩ := by
      simp [StartIter.checks, StartIter.checkStart, StartIter.checkEnd, h3]
    have hask' : StartIter.ask (⟨{ b with paths := l' :: ps }, sn, sc, true, none⟩ : StartIter α) =
        some ⟨{ b with paths := l' :: ps }, sn, sc, true, none⟩ := by
      unfold StartIter.ask
      rw [if_neg (by simp [h2])]
      exact htouch
    induction cs with
    | nil => rcases (trailAll l').map UNode.entry with - | ⟨x, y⟩ <;> rfl
    | cons c cs ih =>
      cases c
      · rw [← hs, ← hb]
        simp only [StartIter.run, StartIter.call, hchecks, hask, ht, hchecks', hask']
      · rw [hhas, ih]
        rcases (trailAll l').map UNode.entry with - | ⟨x, y⟩ <;> rfl
      · rw [← hs, ← hb]
        simp only [StartIter.run, StartIter.call, hchecks, hask, ht, hchecks', hask']

/-! ### The way to the start -/

theorem getChild_at {n c : UNode α} (h : SiblingsOrdered n) (hc : c ∈ n.kids) : n.getChild c.nodeKey = some c := by
  obtain ⟨d, hd⟩ := Option.isSome_iff_exists.mp ((getChild_isSome n c.nodeKey).mpr ⟨c, hc, rfl⟩)
  rw [hd]
  unfold UNode.getChild at hd
  have h1 := List.mem_of_find?_eq_some hd
  have h2 := List.find?_some hd
  simp only [decide_eq_true_eq] at h2
  rw [same_key (h [] n (.here n)) h1 hc h2]

/-- The iterator over the given children that has not been asked. -/
theorem touch_some (i : StartIter α) {s : Bytes} {f : UNode α} {l : List (UNode α)} {ps : List (List (UNode α))} (h1 : i.pending = some s)
    (h2 : i.base.paths = (f :: l) :: ps) :
    (f.nodeKey <+: s ∧ f.nodeKey ≠ s → i.touch = none) ∧
    (¬ (f.nodeKey <+: s ∧ f.nodeKey ≠ s) → i.touch = some ⟨{ i.base with paths := (if compare s f.nodeKey = .lt then [] else f :: l) :: ps },
      i.startNodes, i.startChild, i.initialized, none⟩) := by
  unfold StartIter.touch
  rw [h1, h2]
  simp only
  rw [compareByteSlice_some]
  rcases hc : cmpRec s f.nodeKey with r | - | -
  · have h3 : ¬ (f.nodeKey <+: s ∧ f.nodeKey ≠ s) := by
      rw [← cmpRec_panic_iff, hc]
      simp
    refine ⟨fun h => absurd h h3, fun _ => ?_⟩
    rw [cmpRec_ok _ _ _ hc]
    rcases compare s f.nodeKey <;> simp [ordInt]
  · exact absurd hc (cmpRec_not_err _ _)
  · rw [cmpRec_panic_iff] at hc
    exact ⟨fun _ => rfl, fun h => absurd hc h⟩

theorem first_below {n c f : UNode α} {l : List (UNode α)} (h : SiblingsOrdered n) (hk : n.kids = f :: l) (hc : c ∈ l) :
    compare f.nodeKey c.nodeKey = .lt ∧ compareByteSlice (some f.nodeKey) (some c.nodeKey) = .ok (-1) := by
  have hs := h [] n (.here n)
  rw [hk, List.pairwise_cons] at hs
  obtain ⟨h1, h2, h3⟩ := hs.1 c hc
  refine ⟨h1, ?_⟩
  rw [compareByteSlice_some]
  rcases hc' : cmpRec f.nodeKey c.nodeKey with r | - | -
  · rw [cmpRec_ok _ _ _ hc', h1]; rfl
  · exact absurd hc' (cmpRec_not_err _ _)
  · rw [cmpRec_panic_iff] at hc'
    exact absurd hc'.1 h3

theorem Stack.tail {root f : UNode α} {l : List (UNode α)} {ps : List (List (UNode α))} {q : List Bytes} (h : Stack root ((f :: l) :: ps) q) :
    Stack root (l :: ps) q := by
  cases h with
  | base _ h' => exact .base _ ((List.suffix_cons f l).trans h')
  | up _ l' ps q k m h1 h2 h3 h4 => exact .up _ _ _ _ _ m h1 h2 h3 ((List.suffix_cons f l).trans h4)

/-- The loop over the nodes of the start. -/
theorem startLoop_at {n e : UNode α} {ks : List Bytes} (h : At n ks e) : SiblingsOrdered n → ks ≠ [] → ∀ (i : StartIter α) (s : Bytes)
    (ps : List (List (UNode α))), i.pending = some s → i.base.paths = n.kids :: ps →
    (¬ Leftmost n (some s) ks → i.startLoop (RangeIter.endPath n ks).1 = none) ∧
    (Leftmost n (some s) ks → ∃ q k P ps' ps'' anc, ks = q ++ [k] ∧ At n q P ∧ P.kids.head? = some e ∧
      i.startLoop (RangeIter.endPath n ks).1 = some (match i.startChild with
        | none => ⟨{ i.base with paths := P.kids :: ps' }, i.startNodes, none, i.initialized, none⟩
        | some c => ⟨{ i.base with paths := e.kids :: ps'' }, i.startNodes, some c, i.initialized, some c⟩) ∧
      (n.kids :: ps).flatMap descendAll = anc ++ (P.kids :: ps').flatMap descendAll ∧ (∀ m ∈ anc, ∃ j, At n j m ∧ j <+: ks ∧ j.length < ks.length) ∧
      (∀ root q0, At root q0 n → Stack root (n.kids :: ps) q0 → Stack root (P.kids :: ps') (q0 ++ q)) ∧ ps'' = P.kids.tail :: ps') := by
  induction h with
  | here => intro _ h; exact absurd rfl h
  | child n c m ks hc hm ih =>
    intro ho _ i s ps hp hps
    have hep : (RangeIter.endPath n (c.nodeKey :: ks)).1 = c :: (RangeIter.endPath c ks).1 := by
      rw [RangeIter.endPath, getChild_at ho hc]
    have hoc := at_sub ho (.child n c c [] hc (.here c))
    rw [hep, StartIter.startLoop]
    rcases hk : n.kids with - | ⟨f, l⟩
    · rw [hk] at hc
      cases hc
    rw [hk] at hps
    obtain ⟨t1, t2⟩ := touch_some i hp hps
    have hL : Leftmost n (some s) (c.nodeKey :: ks) ↔ f = c ∧ compare c.nodeKey s ≠ .gt ∧ (c.nodeKey <+: s → c.nodeKey = s) ∧
        Leftmost c (some c.nodeKey) ks := by
      rw [Leftmost, hk]
      constructor
      · rintro ⟨d, h1, h2, h3, h4⟩
        obtain rfl : f = d := by simpa using h1
        have : f = c := same_key (ho [] n (.here n)) (by rw [hk]; simp) hc h2
        subst this
        exact ⟨rfl, (h3 s rfl).1, (h3 s rfl).2, h4⟩
      · rintro ⟨rfl, h2, h3, h4⟩
        refine ⟨f, rfl, rfl, ?_, h4⟩
        intro s' hs'
        cases hs'
        exact ⟨h2, h3⟩
    by_cases hfc : f = c
    · obtain ⟨k0, hk0⟩ : ∃ k0, k0 = f.nodeKey := ⟨_, rfl⟩
      subst hfc
      by_cases hpre : f.nodeKey <+: s ∧ f.nodeKey ≠ s
      · rw [t1 hpre]
        refine ⟨fun _ => rfl, fun h => ?_⟩
        exact absurd ((hL.mp h).2.2.1 hpre.1) hpre.2
      · rw [t2 hpre]
        simp only
        by_cases hlt : compare s f.nodeKey = .lt
        · rw [if_pos hlt]
          refine ⟨fun _ => rfl, fun h => ?_⟩
          exact absurd (Std.OrientedCmp.gt_of_lt hlt) (hL.mp h).2.1
        · rw [if_neg hlt]
          have hL' : Leftmost n (some s) (f.nodeKey :: ks) ↔ Leftmost f (some f.nodeKey) ks := by
            rw [hL]
            constructor
            · exact fun h => h.2.2.2
            · refine fun h => ⟨rfl, ?_, ?_, h⟩
              · intro hgt
                exact hlt (Std.OrientedCmp.lt_of_gt hgt)
              · intro h1
                by_contra h2
                exact hpre ⟨h1, h2⟩
          rw [hL']
          simp only [compareByteSlice_self, lt_irrefl, if_true, if_false]
          rcases ks with - | ⟨k, ks⟩
          · have hfm : m = f := by cases hm; rfl
            subst hfm
            simp only [Leftmost, RangeIter.endPath]
            refine ⟨fun h => absurd trivial h, fun _ => ⟨[], m.nodeKey, n, ps, l :: ps, [], rfl, .here n, by rw [hk]; rfl, ?_, by rw [hk]; rfl,
              by simp, ?_, by rw [hk]; rfl⟩⟩
            · rcases hsc : i.startChild with - | sc
              · simp [hk]
              · simp
            · intro root q0 _ hs
              rw [List.append_nil, hk]
              exact hs
          · have hlen := (endPath_at hoc hm).2.1
            rcases hr : (RangeIter.endPath f (k :: ks)).1 with - | ⟨r, rest⟩
            · rw [hr] at hlen
              simp at hlen
            · simp only
              rw [← hr]
              obtain ⟨i1, i2⟩ := ih hoc (by simp) ⟨{ i.base with paths := f.kids :: l :: ps }, i.startNodes, i.startChild, i.initialized,
                some f.nodeKey⟩ f.nodeKey (l :: ps) rfl rfl
              refine ⟨i1, fun h => ?_⟩
              obtain ⟨q, k', P, ps', ps'', anc, h1, h2, h3, h4, h5, h6, h7, h8⟩ := i2 h
              refine ⟨f.nodeKey :: q, k', P, ps', ps'', f :: anc, by rw [h1]; rfl, .child n f P q hc h2, h3, h4, ?_, ?_, ?_, h8⟩
              · rw [List.cons_append, ← h5, List.flatMap_cons, List.flatMap_cons, List.flatMap_cons, walkAll_cons, walk_eq]
                simp
              · intro x hx
                rcases List.mem_cons.mp hx with rfl | hx
                · exact ⟨[x.nodeKey], .child n x x [] hc (.here x), by simp, by simp⟩
                · obtain ⟨j, j1, j2, j3⟩ := h6 x hx
                  exact ⟨f.nodeKey :: j, .child n f x j hc j1, by simpa using j2, by simpa using j3⟩
              · intro root q0 hat hs
                have hat' : At root (q0 ++ [f.nodeKey]) f := at_append hat (.child n f f [] hc (.here f))
                have hsib := ho [] n (.here n)
                rw [hk, List.pairwise_cons] at hsib
                have := h7 root (q0 ++ [f.nodeKey]) hat' (.up _ _ _ _ _ f hs.tail (fun m hm => (hsib.1 m hm).1) hat' (List.suffix_refl _))
                rw [List.append_assoc] at this
                exact this
    · refine ⟨fun _ => ?_, fun h => absurd (hL.mp h).1 hfc⟩
      have hcl : c ∈ l := by
        rw [hk] at hc
        rcases List.mem_cons.mp hc with h | h
        · exact absurd h.symm hfc
        · exact h
      obtain ⟨-, hcmp⟩ := first_below ho hk hcl
      by_cases hpre : f.nodeKey <+: s ∧ f.nodeKey ≠ s
      · rw [t1 hpre]
      · rw [t2 hpre]
        simp only
        by_cases hlt : compare s f.nodeKey = .lt
        · rw [if_pos hlt]
        · rw [if_neg hlt]
          simp [hcmp]

theorem leftmost_first (n : UNode α) (k : Bytes) (ks : List Bytes) : Leftmost n none (k :: ks) ↔ Leftmost n (some k) (k :: ks) := by
  rw [Leftmost, Leftmost]
  constructor
  · rintro ⟨c, h1, h2, -, h4⟩
    refine ⟨c, h1, h2, ?_, h4⟩
    intro s hs
    cases hs
    exact ⟨by rw [Std.ReflOrd.compare_self]; simp, fun _ => rfl⟩
  · rintro ⟨c, h1, h2, -, h4⟩
    exact ⟨c, h1, h2, by simp, h4⟩

/-- `checkStart` for a start of which at least the first key is in the trie. -/
theorem checkStart_at {root e : UNode α} {ks : List Bytes} (h : At root ks e) (ho : SiblingsOrdered root) (hne : ks ≠ []) (en : List (UNode α))
    (ec sc : Option Bytes) (ms : List Bool) (i : StartIter α)
    (hi : i = ⟨⟨root, true, en, ec, [], ms⟩, (RangeIter.endPath root ks).1, sc, false, none⟩) :
    (¬ Leftmost root none ks → i.checkStart = none) ∧
    (Leftmost root none ks → ∃ q k P ps' ps'' anc, ks = q ++ [k] ∧ At root q P ∧ P.kids.head? = some e ∧
      i.checkStart = some (match sc with
        | none => ⟨⟨root, false, en, ec, P.kids :: ps', ms⟩, (RangeIter.endPath root ks).1, none, true, none⟩
        | some c => ⟨⟨root, false, en, ec, e.kids :: ps'', ms⟩, (RangeIter.endPath root ks).1, some c, true, some c⟩) ∧
      descendAll root.kids = anc ++ (P.kids :: ps').flatMap descendAll ∧ (∀ m ∈ anc, ∃ j, At root j m ∧ j <+: ks ∧ j.length < ks.length) ∧
      Stack root (P.kids :: ps') q ∧ ps'' = P.kids.tail :: ps') := by
  subst hi
  have hk : root.kids.length ≠ 0 := by
    cases h with
    | here => exact absurd rfl hne
    | child _ c _ _ hm _ => simpa using List.ne_nil_of_mem hm
  have hlen := (endPath_at ho h).2.1
  have hat := (endPath_at ho h).2.2
  rcases hr : (RangeIter.endPath root ks).1 with - | ⟨s, rest⟩
  · rw [hr] at hlen
    exact absurd (List.length_eq_zero_iff.mp hlen.symm) hne
  rcases ks with - | ⟨k, ks⟩
  · exact absurd rfl hne
  have hs : k = s.nodeKey := by
    rw [hr] at hat
    simpa using (hat 0 s (by simp)).2
  rw [leftmost_first]
  obtain ⟨h1, h2⟩ := startLoop_at h ho hne ⟨⟨root, false, en, ec, [root.kids], ms⟩, s :: rest, sc, true, some k⟩ k [] rfl rfl
  rw [hr] at h1 h2
  have hcs : StartIter.checkStart (⟨⟨root, true, en, ec, [], ms⟩, s :: rest, sc, false, none⟩ : StartIter α) =
      StartIter.startLoop ⟨⟨root, false, en, ec, [root.kids], ms⟩, s :: rest, sc, true, some k⟩ (s :: rest) := by
    unfold StartIter.checkStart
    simp [hk, hs]
  rw [hcs]
  refine ⟨h1, fun h => ?_⟩
  obtain ⟨q, k', P, ps', ps'', anc, h1, h2, h3, h4, h5, h6, h7, h8⟩ := h2 h
  refine ⟨q, k', P, ps', ps'', anc, h1, h2, h3, h4, ?_, h6, ?_, h8⟩
  · rw [← h5]
    simp
  · exact h7 root [] (.here root) (.base _ (List.suffix_refl _))

theorem run_crash (i : StartIter α) (h : i.checkStart = none) (cs : List IterCall) : i.run cs = if cs = [] then [] else [.crash] := by
  rcases cs with - | ⟨c, cs⟩
  · rfl
  · simp [StartIter.run, StartIter.call, StartIter.checks, h]

theorem run_init (i i' : StartIter α) (h : i.checkStart = some i') (h' : i'.initialized = true) (cs : List IterCall) : i.run cs = i'.run cs := by
  rcases cs with - | ⟨c, cs⟩
  · rfl
  · have h1 : i'.checkStart = some i' := by simp [StartIter.checkStart, h']
    have h2 : i.checks = i'.checks := by simp [StartIter.checks, h, h1]
    have h3 : (i.call c).2 = (i'.call c).2 ∧ ((i.call c).1 = (i'.call c).1 ∨ (i.call c).2 = .crash) := by
      unfold StartIter.call
      rw [h2]
      rcases i'.checks with - | j
      · simp
      · simp
    rw [StartIter.run, StartIter.run, ← h3.1]
    rcases h3.2 with h4 | h4
    · rw [h4]
    · rw [h4]

/-! ### C178 Range iterators with a start, without end -/

theorem new_start {root : UNode α} {ks : List Bytes} {stop : Option (List Bytes)} {i : StartIter α} (h : StartIter.new root (some ks) stop = some i) :
    ∃ b, RangeIter.new root stop = some b ∧ i = ⟨b, (RangeIter.endPath root ks).1, (RangeIter.endPath root ks).2, false, none⟩ := by
  unfold StartIter.new at h
  rcases hb : RangeIter.new root stop with - | b
  · rw [hb] at h
    cases h
  · rw [hb] at h
    refine ⟨b, rfl, ?_⟩
    rcases stop with - | stop
    · exact (Option.some.inj h).symm
    · simp only at h
      split at h
      · split at h
        · cases h
        · exact (Option.some.inj h).symm
      · cases h

/-- C178, exactly, for a start in the trie and no end: if the start is reached through first children whose keys do not grow, the iterator
visits the start, its first child and so on, and gets stuck; otherwise the first call panics. -/
theorem C178_start_partial (root s p : UNode α) (ho : SiblingsOrdered root) (q : List Bytes) (k : Bytes)
    (hs : At root (q ++ [k]) s) (hp : At root q p) (stop : Option (List Bytes)) (hstop : NoEnd root stop) (i : StartIter α)
    (hi : StartIter.new root (some (q ++ [k])) stop = some i) (cs : List IterCall) :
    (Leftmost root none (q ++ [k]) → p.kids.head? = some s ∧ i.run cs = stuckRun ((trailAll p.kids).map UNode.entry) cs) ∧
    (¬ Leftmost root none (q ++ [k]) → i.run cs = if cs = [] then [] else [.crash]) := by
  obtain ⟨b, hb, rfl⟩ := new_start hi
  obtain ⟨ec, rfl⟩ := new_noEnd hb hstop
  rw [(endPath_at ho hs).1]
  obtain ⟨h1, h2⟩ := checkStart_at hs ho (by simp) [] ec none [] _ rfl
  refine ⟨fun h => ?_, fun h => run_crash _ (h1 h) cs⟩
  obtain ⟨q', k', P, ps', _, _, e1, e2, e3, e4, -⟩ := h2 h
  obtain ⟨rfl, rfl⟩ : q = q' ∧ k = k' := by simpa using e1
  obtain rfl := at_unique ho hp e2
  refine ⟨e3, ?_⟩
  rw [run_init _ _ e4 rfl, base_run _ _ rfl (.inl rfl) (.inr rfl)]
  exact stuck_run cs _ rfl rfl _ _ rfl

/-- C178, exactly, for a start of which only a beginning is in the trie, and no end: if the beginning is reached through first children
whose keys do not grow, the iterator visits the children of the last node unless the first missing key is below them, and gets stuck;
otherwise the first call panics. -/
theorem C178_missing_partial (root p : UNode α) (ho : SiblingsOrdered root) (hk : root.kids ≠ []) (q rest : List Bytes) (k : Bytes)
    (hp : At root q p) (hmiss : ¬ ∃ c, At p [k] c) (stop : Option (List Bytes)) (hstop : NoEnd root stop) (i : StartIter α)
    (hi : StartIter.new root (some (q ++ k :: rest)) stop = some i) (cs : List IterCall) :
    (Leftmost root none q → (∀ f, p.kids.head? = some f → f.nodeKey <+: k → i.run cs = failRun cs) ∧
      (∀ f, p.kids.head? = some f → ¬ f.nodeKey <+: k → compare k f.nodeKey ≠ .lt → i.run cs = stuckRun ((trailAll p.kids).map UNode.entry) cs) ∧
      ((∀ f, p.kids.head? = some f → compare k f.nodeKey = .lt) → i.run cs = stuckRun [] cs)) ∧
    (¬ Leftmost root none q → i.run cs = if cs = [] then [] else [.crash]) := by
  obtain ⟨b, hb, rfl⟩ := new_start hi
  obtain ⟨ec, rfl⟩ := new_noEnd hb hstop
  obtain ⟨m1, m2⟩ := endPath_missing ho hp rest hmiss
  rw [m1, m2]
  have hk' : root.kids.length ≠ 0 := by simpa using hk
  have hstate : (¬ Leftmost root none q → StartIter.checkStart (⟨⟨root, true, [], ec, [], []⟩, (RangeIter.endPath root q).1, some k, false, none⟩ :
      StartIter α) = none) ∧ (Leftmost root none q → ∃ ps,
      StartIter.checkStart (⟨⟨root, true, [], ec, [], []⟩, (RangeIter.endPath root q).1, some k, false, none⟩ : StartIter α) =
        some ⟨⟨root, false, [], ec, p.kids :: ps, []⟩, (RangeIter.endPath root q).1, some k, true, some k⟩) := by
    rcases q with - | ⟨a, q⟩
    · have : root = p := at_unique ho (.here root) hp
      subst this
      refine ⟨fun h => absurd trivial h, fun _ => ⟨[], ?_⟩⟩
      simp [StartIter.checkStart, RangeIter.endPath, hk']
    · obtain ⟨h1, h2⟩ := checkStart_at hp ho (by simp) [] ec (some k) [] _ rfl
      refine ⟨h1, fun h => ?_⟩
      obtain ⟨_, _, _, _, ps, _, -, -, -, e4, -⟩ := h2 h
      exact ⟨ps, e4⟩
  refine ⟨fun h => ?_, fun h => run_crash _ (hstate.1 h) cs⟩
  obtain ⟨ps, hcs⟩ := hstate.2 h
  rw [run_init _ _ hcs rfl]
  rcases hpk : p.kids with - | ⟨f, l⟩
  · refine ⟨by simp, by simp, fun _ => ?_⟩
    obtain ⟨-, h2⟩ := late_run (⟨⟨root, false, [], ec, [] :: ps, []⟩, (RangeIter.endPath root q).1, some k, true, some k⟩ : StartIter α)
      rfl rfl rfl [] ps rfl cs
    obtain ⟨l', e1, e2⟩ := h2 _ rfl
    simp only [List.cons.injEq] at e1
    rw [e2, ← e1.1, trailAll]
    rfl
  · have hne : f.nodeKey ≠ k := by
      rintro rfl
      exact hmiss ⟨f, .child p f f [] (by rw [hpk]; simp) (.here f)⟩
    obtain ⟨h1, h2⟩ := late_run (⟨⟨root, false, [], ec, (f :: l) :: ps, []⟩, (RangeIter.endPath root q).1, some k, true, some k⟩ : StartIter α)
      rfl rfl rfl _ ps rfl cs
    obtain ⟨t1, t2⟩ := touch_some (⟨⟨root, false, [], ec, (f :: l) :: ps, []⟩, (RangeIter.endPath root q).1, some k, true, some k⟩ : StartIter α)
      (s := k) (f := f) (l := l) (ps := ps) rfl rfl
    have hcmp : ∀ a b : Bytes, a <+: b → compare b a ≠ .lt := by
      rintro a - ⟨t, rfl⟩
      induction a with
      | nil => cases t <;> simp [compare, List.compareLex_nil_nil, List.compareLex_cons_nil]
      | cons x a ih =>
        rw [List.cons_append]
        simpa [compare, List.compareLex_cons_cons, compareOfLessAndEq] using ih
    refine ⟨?_, ?_, ?_⟩
    · intro f' hf' hpre
      obtain rfl : f = f' := by simpa using hf'
      exact h1 (t1 ⟨hpre, hne⟩)
    · intro f' hf' hpre hlt
      obtain rfl : f = f' := by simpa using hf'
      obtain ⟨l', e1, e2⟩ := h2 _ (t2 (fun h => hpre h.1))
      simp only [if_neg hlt, List.cons.injEq] at e1
      rw [e2, ← e1.1]
    · intro hall
      have hlt := hall f rfl
      obtain ⟨l', e1, e2⟩ := h2 _ (t2 (fun h => hcmp _ _ h.1 hlt))
      simp only [if_pos hlt, List.cons.injEq] at e1
      rw [e2, ← e1.1, trailAll]
      rfl

/-- C178: an empty start is no start. -/
theorem C178_empty_partial (root : UNode α) (stop : Option (List Bytes)) (i : StartIter α) (hi : StartIter.new root (some []) stop = some i) (b : RangeIter α)
    (hb : RangeIter.new root stop = some b) (cs : List IterCall) : i.run cs = b.run cs := by
  obtain ⟨b', hb', rfl⟩ := new_start hi
  rw [hb] at hb'
  cases hb'
  exact base_run _ _ rfl (.inr ⟨rfl, rfl⟩) (.inl rfl)

/-- C178, exactly, for a root without children: the root is returned forever, whatever the start. -/
theorem C178_leaf_partial (root : UNode α) (start : List Bytes) (stop : Option (List Bytes)) (hk : root.kids = []) (i : StartIter α)
    (hi : StartIter.new root (some start) stop = some i) (cs : List IterCall) :
    i.run cs = cs.map fun c => if c = .hasNext then .bool true else .yield root.entry := by
  obtain ⟨b, hb, rfl⟩ := new_start hi
  rw [← C176_leaf_partial root stop b hb hk]
  have h1 : (RangeIter.endPath root start).1 = [] := by
    rcases start with - | ⟨k, ks⟩
    · rfl
    · have : root.getChild k = none := by simp [UNode.getChild, hk]
      simp [RangeIter.endPath, this]
  have h2 : b.root = root := by
    unfold RangeIter.new at hb
    split at hb
    · cases hb
    · rcases stop with - | stop <;> cases hb <;> rfl
  rw [h1]
  have h3 : ∃ i', StartIter.checkStart (⟨b, [], (RangeIter.endPath root start).2, false, none⟩ : StartIter α) = some i' ∧
      i' = ⟨b, [], (RangeIter.endPath root start).2, true, none⟩ := by
    unfold StartIter.checkStart
    rcases (RangeIter.endPath root start).2 with - | k <;> simp [h2, hk]
  obtain ⟨i', h3, rfl⟩ := h3
  rw [run_init _ _ h3 rfl]
  exact base_run _ _ rfl (.inl rfl) (.inl rfl)

/-! ### Iterators with start and end -/

theorem cmp_some (a b : List Bytes) : compare (a.map some) (b.map some) = compare a b := by
  induction a generalizing b with
  | nil => cases b <;> simp [compare, List.compareLex_nil_nil, List.compareLex_nil_cons]
  | cons x a ih =>
    cases b with
    | nil => simp [compare, List.compareLex_cons_nil]
    | cons y b =>
      rw [cmp_cons, ← ih]
      simp only [List.map_cons]
      simp [compare, List.compareLex_cons_cons]

/-- The constructor panics if the start is above the end. -/
theorem new_both {root : UNode α} {start stop : List Bytes} {i : StartIter α} (h : StartIter.new root (some start) (some stop) = some i) :
    compare start stop ≠ .gt := by
  unfold StartIter.new at h
  split at h
  · cases h
  · simp only at h
    split at h
    · rename_i r hr
      split at h
      · cases h
      · rename_i hc
        rw [KeyObj.compare_eq] at hr
        have := keyCmpRec_ok _ _ _ hr
        simp only [StartIter.keyOf, KeyObj.subKeys, newKey] at this
        rw [cmp_some] at this
        intro hg
        rw [hg] at this
        rw [this] at hc
        simp [ordInt] at hc
    · cases h

/-- The nodes left in all iterators but the last come after those of the last. -/
theorem Stack.after {root : UNode α} (hf : FullKeysArePaths root) {ps : List (List (UNode α))} {q : List Bytes} (h : Stack root ps q) :
    ∀ m ∈ ps.tail.flatMap descendAll, ∀ z, compare (q ++ z) m.full = .lt := by
  induction h with
  | base => simp
  | up l l' ps q k n h1 h2 h3 h4 ih =>
    intro m hm z
    rw [List.tail_cons, List.flatMap_cons, List.mem_append] at hm
    rcases hm with hm | hm
    · obtain ⟨c, hc, ks, hks⟩ := mem_walk_aux.2 l' hm
      obtain ⟨p, hp, hsuf⟩ := h1.top
      have : m.full = q ++ c.nodeKey :: ks := hf _ _ (at_append hp (.child p c m ks (hsuf.subset hc) hks))
      rw [this, List.append_assoc, cmp_append, List.singleton_append, cmp_cons, h2 c hc]
      rfl
    · rw [List.append_assoc]
      exact ih m hm _

theorem cmp_prefix (a t : List Bytes) : compare (a ++ t) a ≠ .lt := by
  have := cmp_append a t []
  rw [List.append_nil] at this
  rw [this]
  cases t <;> simp [compare, List.compareLex_nil_nil, List.compareLex_cons_nil]

/-- No node left is before the start. -/
theorem Stack.above {root P e : UNode α} (hf : FullKeysArePaths root) (ho : SiblingsOrdered root) {ps : List (List (UNode α))} {q : List Bytes}
    {k : Bytes} (h : Stack root (P.kids :: ps) q) (hP : At root q P) (he : P.kids.head? = some e) (hk : e.nodeKey = k) :
    ∀ m ∈ (P.kids :: ps).flatMap descendAll, compare m.full (q ++ [k]) ≠ .lt := by
  subst hk
  intro m hm
  rw [List.flatMap_cons, List.mem_append] at hm
  rcases hm with hm | hm
  · obtain ⟨c, hc, ks, hks⟩ := mem_walk_aux.2 P.kids hm
    have hfull : m.full = q ++ c.nodeKey :: ks := hf _ _ (at_append hP (.child P c m ks hc hks))
    rw [hfull, cmp_append, cmp_cons]
    have hs := ho q P hP
    rcases hpk : P.kids with - | ⟨f, l⟩
    · rw [hpk] at hc
      cases hc
    rw [hpk] at he hc hs
    obtain rfl : f = e := by simpa using he
    rw [List.pairwise_cons] at hs
    rcases List.mem_cons.mp hc with rfl | hc
    · rw [Std.ReflOrd.compare_self]
      cases ks <;> simp [compare, List.compareLex_nil_nil, List.compareLex_cons_nil]
    · rw [Std.OrientedCmp.gt_of_lt (hs.1 c hc).1]
      simp
  · have := h.after hf m hm [e.nodeKey]
    rw [Std.OrientedCmp.gt_of_lt this]
    simp

/-- Below the ancestor of the start, the end is not looked at. -/
theorem quiet_endLoop (en : List (UNode α)) (ec : Option Bytes) (r : List (UNode α)) (ms : List Bool) (hms : ∀ j : Nat, ms[j]? ≠ some true) :
    ∀ ps : List (List (UNode α)), ps.length + 1 ≤ en.length → ps.flatMap descendAll = [] ∨ ∃ n l ps1,
      RangeIter.endLoop en ec (ps ++ [r]) ms = some (((n :: l) :: ps1) ++ [r], ms) ∧ ((n :: l) :: ps1).flatMap descendAll = ps.flatMap descendAll := by
  intro ps
  induction ps with
  | nil => simp
  | cons l ps ih =>
    intro hlen
    simp only [List.length_cons] at hlen
    obtain ⟨e, he⟩ : ∃ e, en[(ps ++ [r]).length]? = some e := ⟨_, List.getElem?_eq_getElem (by simp; omega)⟩
    rw [List.cons_append, RangeIter.endLoop, he]
    rcases l with - | ⟨n, l⟩
    · simp only [List.flatMap_cons, walkAll_nil, List.nil_append]
      exact ih (by omega)
    · right
      refine ⟨n, l, ps, ?_, rfl⟩
      simp only
      rw [if_pos ⟨by simp, hms _⟩]
      rfl

theorem quiet_run (root : UNode α) (en : List (UNode α)) (ec : Option Bytes) (r : List (UNode α)) (ms : List Bool) (hms : ∀ j : Nat, ms[j]? ≠ some true)
    (k : Nat) : ∀ ps : List (List (UNode α)),
      WalkRes.nil ∈ RangeIter.run ⟨root, false, en, ec, ps ++ [r], ms⟩ (List.replicate k .next) →
      ∀ m ∈ ps.flatMap descendAll, WalkRes.yield m.entry ∈ RangeIter.run ⟨root, false, en, ec, ps ++ [r], ms⟩ (List.replicate k .next) := by
  induction k with
  | zero => intro ps h; simp [RangeIter.run] at h
  | succ k ih =>
    intro ps hnil m hm
    have hlen : ps.length + 1 ≤ en.length := by
      by_contra hc
      exact (never_ends root en ec ms _ (ps ++ [r]) (by simp; omega)).1 hnil
    have hen : en.length ≠ 0 := by omega
    rcases quiet_endLoop en ec r ms hms ps hlen with h | ⟨n, l, ps1, h1, h2⟩
    · rw [h] at hm
      cases hm
    have hce : RangeIter.checkEnd (⟨root, false, en, ec, ps ++ [r], ms⟩ : RangeIter α) =
        some ⟨root, false, en, ec, ((n :: l) :: ps1) ++ [r], ms⟩ := by
      simp [RangeIter.checkEnd, hen, h1]
    have hpush : KeyIter.push n (l :: (ps1 ++ [r])) = KeyIter.push n (l :: ps1) ++ [r] := by
      unfold KeyIter.push
      split <;> rfl
    rw [← h2, List.flatMap_cons, walkAll_cons, walk_eq] at hm
    have hm' : m = n ∨ m ∈ (KeyIter.push n (l :: ps1)).flatMap descendAll := by
      rw [push_walk, List.flatMap_cons]
      simpa [or_assoc] using hm
    rw [List.replicate_succ] at hnil ⊢
    rcases hfin : RangeIter.checkEnd (⟨root, false, en, ec, KeyIter.push n (l :: ps1) ++ [r], ms⟩ : RangeIter α) with - | b
    · exfalso
      simp only [RangeIter.run, RangeIter.call, RangeIter.next, hce, RangeIter.nextBody, Bool.false_eq_true, if_false, List.cons_append, hpush,
        RangeIter.finish, hfin] at hnil
      simp at hnil
    · have hrun : RangeIter.run (⟨root, false, en, ec, ps ++ [r], ms⟩ : RangeIter α) (.next :: List.replicate k .next) =
          .yield n.entry :: b.run (List.replicate k .next) := by
        simp only [RangeIter.run, RangeIter.call, RangeIter.next, hce, RangeIter.nextBody, Bool.false_eq_true, if_false, List.cons_append, hpush,
          RangeIter.finish, hfin]
      rw [hrun] at hnil ⊢
      rcases hm' with rfl | hm'
      · simp
      right
      have hnil : WalkRes.nil ∈ b.run (List.replicate k .next) := by simpa using hnil
      by_cases hl : (KeyIter.push n (l :: ps1)).length + 1 ≤ en.length
      · rcases quiet_endLoop en ec r ms hms _ hl with h | ⟨n', l', ps2, g1, g2⟩
        · rw [h] at hm'
          cases hm'
        · have hb : b = ⟨root, false, en, ec, ((n' :: l') :: ps2) ++ [r], ms⟩ := by
            unfold RangeIter.checkEnd at hfin
            simp only [hen, Bool.false_eq_true, or_self, if_false, g1, Option.map_some, Option.some.injEq] at hfin
            exact hfin.symm
          subst hb
          exact ih _ hnil m (by rw [g2]; exact hm')
      · have hb : b = ⟨root, false, en, ec, KeyIter.push n (l :: ps1) ++ [r], ms⟩ := by
          rw [baseCheckEnd_skip _ (.inr (.inr (.inr (by simp; omega))))] at hfin
          exact (Option.some.inj hfin).symm
        subst hb
        exact ih _ hnil m hm'

theorem rangeRun_yield {β : Type} (l : List β) (b : β) (cs : List IterCall) (h : WalkRes.yield b ∈ rangeRun l cs) : b ∈ l := by
  induction cs generalizing l with
  | nil => rcases l <;> simp [rangeRun] at h
  | cons c cs ih =>
    rcases l with - | ⟨x, l⟩
    · cases c <;> simp [rangeRun] at h <;> exact absurd (ih _ h) (by simp)
    · cases c
      · simp only [rangeRun, List.mem_cons, WalkRes.yield.injEq] at h
        rcases h with rfl | h
        · simp
        · exact List.mem_cons_of_mem _ (ih _ h)
      · simp only [rangeRun, List.mem_cons, reduceCtorEq, false_or] at h
        exact ih _ h
      · simp only [rangeRun, List.mem_cons, WalkRes.yield.injEq] at h
        rcases h with rfl | h
        · simp
        · exact ih _ h

theorem cmp_le_trans {a b c : List Bytes} (h1 : compare b a ≠ .lt) (h2 : compare b c = .lt) : compare a c = .lt := by
  have h1' : (compare a b).isLE := by
    have : compare a b ≠ .gt := fun h => h1 (Std.OrientedCmp.lt_of_gt h)
    revert this
    rcases compare a b <;> simp
  exact Std.TransCmp.lt_of_isLE_of_lt h1' h2

/-- What checking the start leaves. -/
theorem from_start {root s : UNode α} (hf : FullKeysArePaths root) (ho : SiblingsOrdered root) {start : List Bytes} (hs : At root start s)
    {anc : List (UNode α)} {P : UNode α} {ps : List (List (UNode α))} {q : List Bytes} {k : Bytes} (hk : start = q ++ [k]) (hP : At root q P)
    (hh : P.kids.head? = some s) (h1 : descendAll root.kids = anc ++ (P.kids :: ps).flatMap descendAll)
    (h2 : ∀ m ∈ anc, ∃ j, At root j m ∧ j <+: start ∧ j.length < start.length) (h3 : Stack root (P.kids :: ps) q) :
    ((descend root).filter fun n => compare n.full start ≠ .lt) = (P.kids :: ps).flatMap descendAll := by
  have hsk : s.nodeKey = k := by
    have hm : s ∈ P.kids := List.mem_of_head? hh
    have h4 := hf _ _ hs
    have h5 := hf _ _ (at_append hP (.child P s s [] hm (.here s)))
    rw [h4, hk] at h5
    simpa using h5.symm
  have habove := h3.above hf ho hP hh hsk
  rw [walk_eq, h1, ← List.cons_append, List.filter_append]
  have e1 : (root :: anc).filter (fun n => compare n.full start ≠ .lt) = [] := by
    rw [List.filter_eq_nil_iff]
    intro m hm
    have hlt : compare m.full start = .lt := by
      rcases List.mem_cons.mp hm with hm | hm
      · rw [hm, hf [] root (.here _)]
        exact prefix_lt _ _ List.nil_prefix (by rw [hk]; simp)
      · obtain ⟨j, j1, j2, j3⟩ := h2 m hm
        rw [hf _ _ j1]
        exact prefix_lt _ _ j2 j3
    simp [hlt]
  rw [e1, List.nil_append, List.filter_eq_self]
  intro m hm
  have := habove m hm
  rw [← hk] at this
  simpa using this

theorem not_below_append {a s : List Bytes} (h : compare a s ≠ .lt) (z : List Bytes) : compare (a ++ z) s ≠ .lt := by
  intro hlt
  rcases prefix_or_below a z s hlt with hp | hp
  · by_cases hl : a.length < s.length
    · exact h (prefix_lt _ _ hp hl)
    · rw [hp.eq_of_length_le (by omega)] at hlt
      exact cmp_prefix s z hlt
  · exact h (by simpa using hp [])

/-- The first of the iterators. -/
theorem Stack.bottom {root : UNode α} {ps : List (List (UNode α))} {q : List Bytes} (h : Stack root ps q) : ∀ a q', q = a :: q' →
    ∃ ps0 r, ps = ps0 ++ [r] ∧ ∀ m ∈ r, m ∈ root.kids ∧ compare a m.nodeKey = .lt := by
  induction h with
  | base => intro a q' h; cases h
  | up l l' ps q k n h1 h2 h3 h4 ih =>
    intro a q' hq
    rcases q with - | ⟨b, q⟩
    · obtain ⟨rfl, -⟩ : k = a ∧ [] = q' := by simpa using hq
      have hlen := h1.length
      have hps : ps = [] := by simpa using hlen
      subst hps
      refine ⟨[l], l', rfl, fun m hm => ⟨?_, h2 m hm⟩⟩
      obtain ⟨r, hr1, hr2⟩ := h1.top
      cases hr1
      exact hr2.subset hm
    · obtain ⟨rfl, -⟩ : b = a ∧ _ := by simpa using hq
      obtain ⟨ps0, r, e1, e2⟩ := ih b q rfl
      exact ⟨l :: ps0, r, by rw [e1]; rfl, e2⟩

/-! ### C178 Range iterators with start and end -/

/-- The full claim of C178: a range iterator visits the nodes from its start on, up to its end if it has one, and then ends. -/
def RangeVisitsBetween (α : Type) : Prop := ∀ (root : UNode α) (start : List Bytes) (stop : Option (List Bytes)) (i : StartIter α) (cs : List IterCall),
  FullKeysArePaths root → SiblingsOrdered root → StartIter.new root (some start) stop = some i →
  i.run cs = rangeRun (((descend root).filter fun n => compare n.full start ≠ .lt ∧ ∀ e ∈ stop, compare n.full e = .lt).map UNode.entry) cs

/-- C178, exactly, for a start and an end in the trie: the iterator visits the nodes from the start on and before the end, and then ends, if
and only if the start is reached through first children whose keys do not grow, it has only one key or its first key is not that of the end,
and no node in the range is deeper than the end. -/
theorem C178_between_partial (root s e : UNode α) (hf : FullKeysArePaths root) (ho : SiblingsOrdered root) (start stop : List Bytes)
    (hs : At root start s) (he : At root stop e) (hne : start ≠ []) (hne' : stop ≠ []) (i : StartIter α)
    (hi : StartIter.new root (some start) (some stop) = some i) :
    (∀ cs, i.run cs = rangeRun (((descend root).filter fun n => compare n.full start ≠ .lt ∧ compare n.full stop = .lt).map UNode.entry) cs) ↔
      Leftmost root none start ∧ (start.length = 1 ∨ start.head? ≠ stop.head?) ∧
        ∀ n ∈ descend root, compare n.full start ≠ .lt → compare n.full stop = .lt → n.full.length ≤ stop.length := by
  have hle := new_both hi
  obtain ⟨b, hb, rfl⟩ := new_start hi
  obtain rfl := new_end hf ho he hb
  rw [(endPath_at ho hs).1]
  obtain ⟨-, e2, e3⟩ := endPath_at ho he
  obtain ⟨en, hen⟩ : ∃ en, en = (RangeIter.endPath root stop).1 := ⟨_, rfl⟩
  rw [← hen] at e2 e3 ⊢
  obtain ⟨h1, h2⟩ := checkStart_at hs ho hne en none none (en.map fun _ => false) _ rfl
  have hms : ∀ j : Nat, (en.map fun _ => false)[j]? ≠ some true := by
    intro j
    rw [List.getElem?_map]
    simp
  by_cases hL : Leftmost root none start
  · obtain ⟨q, k, P, ps, _, anc, hk, hP, hh, hcs, hd, hanc, hst, -⟩ := h2 hL
    have hfrom := from_start hf ho hs hk hP hh hd hanc hst
    have hbet : ((descend root).filter fun n => compare n.full start ≠ .lt ∧ compare n.full stop = .lt) =
        beforeEnd stop none ((P.kids :: ps).flatMap descendAll) := by
      rw [← hfrom, beforeEnd, List.filter_filter]
      refine List.filter_congr fun m _ => ?_
      simp only [upTo_none, ne_eq, Bool.decide_and, decide_not]
      rw [Bool.and_comm]
    have hrun : ∀ cs, StartIter.run (⟨⟨root, true, en, none, [], en.map fun _ => false⟩, (RangeIter.endPath root start).1, none, false, none⟩ :
        StartIter α) cs = RangeIter.run ⟨root, false, en, none, P.kids :: ps, en.map fun _ => false⟩ cs := by
      intro cs
      rw [run_init _ _ hcs rfl, base_run _ _ rfl (.inl rfl) (.inr rfl)]
    simp only [hrun]
    have hsl := hst.length
    have hkl : start.length = q.length + 1 := by rw [hk]; simp
    have hsmem : s ∈ descend root := at_mem_walk hs
    have hsfull := hf _ _ hs
    have hrest : ∀ m, m ∈ (P.kids :: ps).flatMap descendAll ↔ m ∈ descend root ∧ compare m.full start ≠ .lt := by
      intro m
      rw [← hfrom, List.mem_filter]
      simp
    by_cases hlen : start.length ≤ stop.length
    · by_cases hq : start.length = 1 ∨ start.head? ≠ stop.head?
      · have hready : RangeReady root stop (P.kids :: ps) (en.map fun _ => false) := by
          refine ⟨by simpa using e2, .inr ⟨P.kids, ps, q, rfl, hst, by omega, ?_⟩⟩
          rcases q with - | ⟨a, q⟩
          · exact ⟨.inl List.nil_prefix, by simp, fun j _ h => absurd h (hms j)⟩
          · have hhead : start.head? ≠ stop.head? := by
              rcases hq with hq | hq
              · simp [hk] at hq
              · exact hq
            rcases stop with - | ⟨b, stop⟩
            · exact absurd rfl hne'
            have hab : a ≠ b := by
              rw [hk] at hhead
              simpa using hhead
            have hlt : compare a b = .lt := by
              rw [hk, List.cons_append, cmp_cons] at hle
              rcases hc : compare a b
              · rfl
              · exact absurd (Std.LawfulEqOrd.eq_of_compare hc) hab
              · rw [hc] at hle
                simp at hle
            refine ⟨.inr fun z => ?_, ?_, fun j _ h => absurd h (hms j)⟩
            · rw [List.cons_append, cmp_cons, hlt]
              rfl
            · intro i _
              refine ⟨fun h => absurd h (hms i), fun h => ?_⟩
              rw [List.take_succ_cons, List.cons_prefix_cons] at h
              exact absurd h.1 hab
        have hcond : (∀ n ∈ beforeEnd stop none ((P.kids :: ps).flatMap descendAll), n.kids ≠ [] → n.full.length < stop.length) ↔
            ∀ n ∈ descend root, compare n.full start ≠ .lt → compare n.full stop = .lt → n.full.length ≤ stop.length := by
          constructor
          · intro h n hn hge hlt
            by_contra hc
            obtain ⟨ks, hks⟩ := mem_walk_aux.1 root hn
            rw [hf _ _ hks] at hlt hc hge
            rw [← List.take_append_drop stop.length ks] at hlt hks hge
            obtain ⟨m, a1, a2⟩ := at_prefix hks
            have hlm : (ks.take stop.length).length = stop.length := by rw [List.length_take]; omega
            have hm : compare m.full stop = .lt := by
              rw [hf _ _ a1]
              by_contra hc
              exact not_below_append hc _ hlt
            have hm' : compare m.full start ≠ .lt := by
              rw [hf _ _ a1]
              intro hc
              rcases prefix_or_below (ks.take stop.length) [] start (by simpa using hc) with hp | hp
              · rw [hp.eq_of_length_le (by omega), Std.ReflOrd.compare_self] at hc
                cases hc
              · exact hge (hp _)
            have hkm : m.kids ≠ [] := by
              generalize hd : ks.drop stop.length = d at a2
              cases a2 with
              | here =>
                have := List.drop_eq_nil_iff.mp hd
                omega
              | child _ c _ _ hc _ => exact List.ne_nil_of_mem hc
            have := h m (List.mem_filter.mpr ⟨(hrest m).mpr ⟨at_mem_walk a1, hm'⟩, by simpa [upTo_none] using hm⟩) hkm
            rw [hf _ _ a1, hlm] at this
            omega
          · intro h n hn hnk
            obtain ⟨n1, n2⟩ := List.mem_filter.mp hn
            obtain ⟨n3, n4⟩ := (hrest n).mp n1
            have n2 : compare n.full stop = .lt := by simpa [upTo_none] using n2
            obtain ⟨ks, hks⟩ := mem_walk_aux.1 root n3
            refine lt_of_le_of_ne (h n n3 n4 n2) fun hl => ?_
            obtain ⟨c, c1, c2, c3⟩ := push_deep hf hks n2 hl hnk
            have hac := at_append hks (.child n c c [] c1 (.here c))
            have hc4 : compare c.full start ≠ .lt := by
              rw [hf _ _ hac, ← hf _ _ hks]
              exact not_below_append n4 _
            have := h c (at_mem_walk hac) hc4 c2
            omega
        constructor
        · intro h
          refine ⟨hL, hq, ?_⟩
          rw [← hcond]
          have := rangeRun_nexts (((descend root).filter fun n => compare n.full start ≠ .lt ∧ compare n.full stop = .lt).map UNode.entry)
          rw [← h] at this
          exact shallow_of_end hf ho hne' e2 e3 _ _ _ hready (by simp at hsl ⊢; omega) this
        · rintro ⟨-, -, h⟩ cs
          rw [hbet]
          exact run_ready hf ho hne' e2 e3 cs _ _ hready (hcond.mpr h)
      · refine ⟨fun h => ?_, fun h => absurd h.2.1 hq⟩
        exfalso
        rw [not_or, not_not] at hq
        have hnil := rangeRun_nexts (((descend root).filter fun n => compare n.full start ≠ .lt ∧ compare n.full stop = .lt).map UNode.entry)
        obtain ⟨cs, hcsd⟩ : ∃ m, m = ((((descend root).filter fun n => compare n.full start ≠ .lt ∧ compare n.full stop = .lt).map
          UNode.entry).length + 1) := ⟨_, rfl⟩
        rw [← hcsd] at hnil
        rcases q with - | ⟨a, q⟩
        · exact absurd hkl (by simpa using hq.1)
        obtain ⟨ps0, r, hpr, hr⟩ := hst.bottom a q rfl
        have hstop : stop.head? = some a := by
          rw [← hq.2, hk]
          rfl
        have hege : e ∈ (P.kids :: ps).flatMap descendAll := by
          rw [hrest, hf _ _ he]
          exact ⟨at_mem_walk he, fun hc => hle (Std.OrientedCmp.gt_of_lt hc)⟩
        have hemem : e ∈ ps0.flatMap descendAll := by
          rw [hpr, List.flatMap_append, List.mem_append] at hege
          refine hege.resolve_right fun hc => ?_
          rw [List.flatMap_cons, List.flatMap_nil, List.append_nil] at hc
          obtain ⟨c, hc, ks, hks⟩ := mem_walk_aux.2 r hc
          have := hf _ _ (.child root c e ks (hr c hc).1 hks)
          rw [hf _ _ he] at this
          rw [this] at hstop
          obtain rfl : c.nodeKey = a := by simpa using hstop
          have := (hr c hc).2
          rw [Std.ReflOrd.compare_self] at this
          cases this
        rw [← h, hpr] at hnil
        have hy := quiet_run root en none r _ hms cs ps0 hnil e hemem
        rw [← hpr, h] at hy
        obtain ⟨m, m1, m2⟩ := List.mem_map.mp (rangeRun_yield _ _ _ hy)
        have m3 := (List.mem_filter.mp m1).2
        have m4 : m.full = stop := by
          rw [← hf _ _ he]
          exact congrArg Prod.fst m2
        rw [m4, Std.ReflOrd.compare_self] at m3
        simp at m3
    · constructor
      · intro h
        exfalso
        have hnil := rangeRun_nexts (((descend root).filter fun n => compare n.full start ≠ .lt ∧ compare n.full stop = .lt).map UNode.entry)
        rw [← h] at hnil
        exact (never_ends root en none _ _ _ (by simp only [List.length_cons] at hsl ⊢; omega)).1 hnil
      · rintro ⟨-, -, h⟩
        exfalso
        refine hlen ?_
        have := h s hsmem
        rw [hsfull] at this
        refine this (by rw [Std.ReflOrd.compare_self]; simp) ?_
        rcases hc : compare start stop
        · rfl
        · rw [Std.LawfulEqOrd.eq_of_compare hc] at hlen
          exact absurd (le_refl _) hlen
        · exact absurd hc hle
  · refine ⟨fun h => ?_, fun h => absurd h.1 hL⟩
    exfalso
    have hnil := rangeRun_nexts (((descend root).filter fun n => compare n.full start ≠ .lt ∧ compare n.full stop = .lt).map UNode.entry)
    rw [← h, run_crash _ (h1 hL)] at hnil
    split at hnil <;> simp at hnil

/-! ### Cases -/

/-- A trie with the nodes "c", "c b", "c d", "e" and "e a". -/
def startTrie : UNode Nat :=
  .node [] [] 0 [.node [99] [[99]] 1 [.node [98] [[99], [98]] 2 [], .node [100] [[99], [100]] 3 []],
    .node [101] [[101]] 4 [.node [97] [[101], [97]] 5 []]]

theorem startTrie_nodes {ks : List Bytes} {n : UNode Nat} (h : At startTrie ks n) : (ks, n) ∈ [([], startTrie),
    ([[99]], .node [99] [[99]] 1 [.node [98] [[99], [98]] 2 [], .node [100] [[99], [100]] 3 []]), ([[99], [98]], .node [98] [[99], [98]] 2 []),
    ([[99], [100]], .node [100] [[99], [100]] 3 []), ([[101]], .node [101] [[101]] 4 [.node [97] [[101], [97]] 5 []]),
    ([[101], [97]], .node [97] [[101], [97]] 5 [])] := by
  cases h with
  | here => simp
  | child _ c _ ks hm h =>
    simp only [startTrie, UNode.kids, List.mem_cons, List.not_mem_nil, or_false] at hm
    rcases hm with rfl | rfl
    · cases h with
      | here => simp [UNode.nodeKey]
      | child _ c _ ks hm h =>
        simp only [UNode.kids, List.mem_cons, List.not_mem_nil, or_false] at hm
        rcases hm with rfl | rfl
        · cases h with
          | here => simp [UNode.nodeKey]
          | child _ c _ ks hm h => simp [UNode.kids] at hm
        · cases h with
          | here => simp [UNode.nodeKey]
          | child _ c _ ks hm h => simp [UNode.kids] at hm
    · cases h with
      | here => simp [UNode.nodeKey]
      | child _ c _ ks hm h =>
        simp only [UNode.kids, List.mem_cons, List.not_mem_nil, or_false] at hm
        subst hm
        cases h with
        | here => simp [UNode.nodeKey]
        | child _ c _ ks hm h => simp [UNode.kids] at hm

theorem startTrie_paths : FullKeysArePaths startTrie := by
  intro ks n h
  have := startTrie_nodes h
  simp only [List.mem_cons, Prod.mk.injEq, List.not_mem_nil, or_false] at this
  rcases this with ⟨rfl, rfl⟩ | ⟨rfl, rfl⟩ | ⟨rfl, rfl⟩ | ⟨rfl, rfl⟩ | ⟨rfl, rfl⟩ | ⟨rfl, rfl⟩ <;> rfl

theorem startTrie_ordered : SiblingsOrdered startTrie := by
  intro ks n h
  have := startTrie_nodes h
  simp only [List.mem_cons, Prod.mk.injEq, List.not_mem_nil, or_false] at this
  rcases this with ⟨rfl, rfl⟩ | ⟨rfl, rfl⟩ | ⟨rfl, rfl⟩ | ⟨rfl, rfl⟩ | ⟨rfl, rfl⟩ | ⟨rfl, rfl⟩ <;> decide

theorem startTrie_c : At startTrie [[99]] (.node [99] [[99]] 1 [.node [98] [[99], [98]] 2 [], .node [100] [[99], [100]] 3 []]) :=
  .child _ (.node [99] [[99]] 1 [.node [98] [[99], [98]] 2 [], .node [100] [[99], [100]] 3 []]) _ _ (by simp [startTrie, UNode.kids]) (.here _)

theorem startTrie_cb : At startTrie [[99], [98]] (.node [98] [[99], [98]] 2 []) :=
  at_append startTrie_c (.child _ (.node [98] [[99], [98]] 2 []) _ _ (by simp [UNode.kids]) (.here _))

theorem startTrie_cd : At startTrie [[99], [100]] (.node [100] [[99], [100]] 3 []) :=
  at_append startTrie_c (.child _ (.node [100] [[99], [100]] 3 []) _ _ (by simp [UNode.kids]) (.here _))

theorem startTrie_ea : At startTrie [[101], [97]] (.node [97] [[101], [97]] 5 []) :=
  .child _ (.node [101] [[101]] 4 [.node [97] [[101], [97]] 5 []]) _ _ (by simp [startTrie, UNode.kids])
    (.child _ (.node [97] [[101], [97]] 5 []) _ _ (by simp [UNode.kids]) (.here _))

theorem startTrie_leftmost : Leftmost startTrie none [[99], [98]] :=
  ⟨_, rfl, rfl, by simp, _, rfl, rfl, by decide, trivial⟩

/-- From "c b" to "e a". -/
example : ∃ i, StartIter.new startTrie (some [[99], [98]]) (some [[101], [97]]) = some i ∧ ∀ cs, i.run cs =
    rangeRun [([[99], [98]], 2), ([[99], [100]], 3), ([[101]], 4)] cs :=
  ⟨_, rfl, (C178_between_partial startTrie _ _ startTrie_paths startTrie_ordered [[99], [98]] [[101], [97]] startTrie_cb startTrie_ea (by simp)
    (by simp) _ rfl).mpr ⟨startTrie_leftmost, by decide, by decide⟩⟩
/-- From "c b" to "c d": both have the same first key, and the end is visited too. -/
example : ∃ i, StartIter.new startTrie (some [[99], [98]]) (some [[99], [100]]) = some i ∧
    i.run [.next, .next, .next] = [.yield ([[99], [98]], 2), .yield ([[99], [100]], 3), .nil] := ⟨_, rfl, by decide⟩
example := C178_between_partial startTrie _ _ startTrie_paths startTrie_ordered [[99], [98]] [[99], [100]] startTrie_cb startTrie_cd (by simp)
    (by simp) _ rfl
/-- From "c b" without end. -/
example := (C178_start_partial startTrie _ _ startTrie_ordered [[99]] [98] startTrie_cb startTrie_c none (by simp [NoEnd]) _ rfl
  [.next, .next, .next, .next]).1 startTrie_leftmost
/-- From "c d", the second child of "c". -/
example := (C178_start_partial startTrie _ _ startTrie_ordered [[99]] [100] startTrie_cd startTrie_c none (by simp [NoEnd]) _ rfl
  [.next]).2 (by rintro ⟨c, h1, -, -, d, h2, h3, -⟩; cases h1; cases h2; simp [UNode.nodeKey] at h3)
/-- From "c c", which is missing, all children of "c" are visited. -/
example := ((C178_missing_partial startTrie _ startTrie_ordered (by simp [startTrie, UNode.kids]) [[99]] [] [99] startTrie_c
  (by
    rintro ⟨c, hc⟩
    have := startTrie_nodes (at_append startTrie_c hc)
    simp at this)
  none (by simp [NoEnd]) _ rfl [.next, .next, .next]).1 ⟨_, rfl, rfl, by simp, trivial⟩).2.1 (.node [98] [[99], [98]] 2 []) rfl (by decide) (by decide)
example : ∃ i, StartIter.new startTrie (some [[99], [99]]) none = some i ∧
    i.run [.next, .next, .next] = [.yield ([[99], [98]], 2), .yield ([[99], [100]], 3), .hang] := ⟨_, rfl, by decide⟩

example := C178_empty_partial startTrie (some [[101], [97]]) _ rfl _ rfl [.next, .next]
example := C178_leaf_partial (.node [] [] 3 [] : UNode Nat) [[97]] none rfl _ rfl [.next, .next]

/-- C178 is false: from "c d" the first call panics. -/
theorem C178_refuted : ¬ RangeVisitsBetween Nat := by
  intro h
  have := h startTrie [[99], [100]] none _ [.next] startTrie_paths startTrie_ordered rfl
  revert this
  decide

end Poodle.Props
