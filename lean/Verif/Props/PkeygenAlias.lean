import Verif.Props.PkeygenMain

/-
Properties C139, C140, C141 and C225 (continued): the key generator with an arbitrary alias (/repo/src/main/pkeygen.go:79-95).
-/

namespace Poodle.Props
open Poodle Poodle.Spec

theorem walk_erase_dir {t : FsTree} {q : List Path} : ∀ (rest cur : List Path),
    (∀ d, (t.erase q).walk cur rest = .stop (.dir d) → t.walk cur rest = .stop (.dir d)) ∧
    (∀ b l r, (t.erase q).walk cur rest = .link b l r → t.walk cur rest = .link b l r) := by
  intro rest
  induction rest with
  | nil => intro cur; simp [FsTree.walk]
  | cons n rest ih =>
    intro cur
    rw [FsTree.walk, FsTree.walk]
    by_cases h1 : n = [] ∨ n = ['.']
    · rw [if_pos h1, if_pos h1]; exact ih cur
    rw [if_neg h1, if_neg h1]
    by_cases h2 : n = ['.', '.']
    · rw [if_pos h2, if_pos h2]; exact ih _
    rw [if_neg h2, if_neg h2]
    by_cases e : cur ++ [n] = q
    · rw [e, FsTree.get_erase_self]
      refine ⟨fun d hd => ?_, fun b l r hl => ?_⟩
      · simp only [FsWalk.stop.injEq] at hd
        split at hd <;> simp at hd
      · simp at hl
    · rw [FsTree.get_erase_ne _ e]
      cases hg : t.get (cur ++ [n]) with
      | none => exact ⟨fun _ h => h, fun _ _ _ h => h⟩
      | some x =>
        cases x with
        | dir => exact ih _
        | file c => exact ⟨fun _ h => h, fun _ _ _ h => h⟩
        | link l => exact ⟨fun _ h => h, fun _ _ _ h => h⟩

theorem resolve_erase_dir {t : FsTree} {q d : List Path} : ∀ (k : Nat) (cur rest : List Path),
    (t.erase q).resolve k cur rest = .dir d → t.resolve k cur rest = .dir d := by
  intro k
  induction k with
  | zero =>
    intro cur rest h
    rw [FsTree.resolve] at h ⊢
    have hw := walk_erase_dir (t := t) (q := q) rest cur
    cases hc : (t.erase q).walk cur rest with
    | stop l =>
      rw [hc] at h
      simp only at h
      subst h
      rw [hw.1 d hc]
    | link b l r => rw [hc] at h; simp at h
  | succ k ih =>
    intro cur rest h
    rw [FsTree.resolve] at h ⊢
    have hw := walk_erase_dir (t := t) (q := q) rest cur
    cases hc : (t.erase q).walk cur rest with
    | stop l =>
      rw [hc] at h
      simp only at h
      subst h
      rw [hw.1 d hc]
    | link b l r =>
      rw [hc] at h
      rw [hw.2 b l r hc]
      exact ih _ _ h

/-- After something was deleted, a path names the same place as before, or none. -/
theorem place_erase {t : FsTree} {q r p : List Path} (h : (t.erase q).place p = some r) : t.place p = some r := by
  unfold FsTree.place at h ⊢
  cases hl : p.getLast? with
  | none => rw [hl] at h; simp at h
  | some n =>
    rw [hl] at h
    simp only at h ⊢
    split at h
    · simp at h
    · rename_i hn
      rw [if_neg hn]
      cases hr : (t.erase q).resolve 40 [] p.dropLast with
      | dir d =>
        rw [hr] at h
        rw [resolve_erase_dir 40 _ _ hr]
        exact h
      | _ => rw [hr] at h; simp at h

/-- Making an alias changes at most the place its path names, and no directory with something in it. -/
theorem makeAlias_place (i : PkInput) (f : PkFaults) (u s : FsTree) (hs : s ∈ (makeAlias i f u).1 ∨ s = (makeAlias i f u).2.1) (r : List Path)
    (hr : s.get r ≠ u.get r) : u.place (splitPath (etcDir i.cls ++ "/".toList ++ i.aliasName)) = some r ∧
      ¬ (u.get r = some .dir ∧ u.hasChild r = true) := by
  have hrem : ∀ (p : Path) (ok : Bool) (u : FsTree), removeT p ok u = ([], u, .err) ∨
      ∃ q, u.place (splitPath p) = some q ∧ removeT p ok u = ([u.erase q], u.erase q, .ok ()) ∧ ¬ (u.get q = some .dir ∧ u.hasChild q = true) := by
    intro p ok u
    unfold removeT PkRun.step
    cases ok with
    | false => left; simp
    | true =>
      simp only [Bool.not_true, Bool.false_eq_true, if_false]
      cases hp : u.place (splitPath p) with
      | none => left; rfl
      | some q =>
        simp only
        cases hg : u.get q with
        | none => left; rfl
        | some x =>
          cases x with
          | dir =>
            simp only
            by_cases hc : u.hasChild q = true
            · left; rw [if_pos hc]
            · right; exact ⟨q, rfl, by rw [if_neg hc], fun h => hc h.2⟩
          | file c => right; exact ⟨q, rfl, rfl, by simp [hg]⟩
          | link l => right; exact ⟨q, rfl, rfl, by simp [hg]⟩
  have hsym : ∀ (tg p : Path) (ok : Bool) (u : FsTree), symlinkT tg p ok u = ([], u, .err) ∨
      ∃ q, u.place (splitPath p) = some q ∧ symlinkT tg p ok u = ([u.set q (.link tg)], u.set q (.link tg), .ok ()) ∧ u.get q = none := by
    intro tg p ok u
    unfold symlinkT PkRun.step
    cases ok with
    | false => left; simp
    | true =>
      simp only [Bool.not_true, Bool.false_eq_true, if_false]
      cases hp : u.place (splitPath p) with
      | none => left; rfl
      | some q =>
        simp only
        cases hg : u.get q with
        | none => right; exact ⟨q, rfl, rfl, hg⟩
        | some x => left; rfl
  have hset : ∀ {v : FsTree} {q : List Path} {e : FsEntry}, (v.set q e).get r ≠ v.get r → r = q := by
    intro v q e h
    by_contra hne
    exact h (FsTree.get_set_ne _ _ hne)
  have her : ∀ {v : FsTree} {q : List Path}, (v.erase q).get r ≠ v.get r → r = q := by
    intro v q h
    by_contra hne
    exact h (FsTree.get_erase_ne _ hne)
  generalize hP : etcDir i.cls ++ "/".toList ++ i.aliasName = P at *
  generalize hT : etcDir i.cls ++ "/".toList ++ keyId i.x = T at *
  have hm : makeAlias i f = (removeExisting P f.remove).bind fun _ => symlinkT T P f.symlink := by rw [makeAlias, hP, hT]
  rw [hm] at hs
  have h1 : removeExisting P f.remove u = ([], u, .ok ()) ∨ removeExisting P f.remove u = ([], u, .err) ∨
      ∃ q, u.place (splitPath P) = some q ∧ removeExisting P f.remove u = ([u.erase q], u.erase q, .ok ()) ∧
        ¬ (u.get q = some .dir ∧ u.hasChild q = true) := by
    unfold removeExisting
    split
    · exact .inl rfl
    · exact .inr (hrem _ _ _)
  rcases h1 with h1 | h1 | ⟨q, hq, h1, hd⟩
  · simp only [PkRun.bind, h1, List.nil_append] at hs
    rcases hsym T P f.symlink u with h2 | ⟨q, hq, h2, hg⟩
    · rw [h2] at hs
      simp only [List.not_mem_nil, false_or] at hs
      exact absurd (by rw [hs]) hr
    · rw [h2] at hs
      simp only [List.mem_singleton, or_self] at hs
      subst hs
      rw [hset hr, hq, hg]
      simp
  · simp only [PkRun.bind, h1, List.not_mem_nil, false_or] at hs
    exact absurd (by rw [hs]) hr
  · simp only [PkRun.bind, h1] at hs
    by_cases e : r = q
    · rw [e, hq]; exact ⟨rfl, hd⟩
    rcases hsym T P f.symlink (u.erase q) with h2 | ⟨q', hq', h2, -⟩
    · rw [h2] at hs
      simp only [List.append_nil, List.mem_singleton, or_self] at hs
      subst hs
      exact absurd (her hr) e
    · rw [h2] at hs
      simp only [List.mem_append, List.mem_singleton, or_assoc, or_self] at hs
      rw [place_erase hq'] at hq
      obtain rfl := Option.some.inj hq
      rcases hs with hs | hs
      · subst hs; exact absurd (her hr) e
      · subst hs
        exact absurd (hset (by rw [FsTree.get_erase_ne _ e]; exact hr)) e

/-- C225 with any alias: besides what the key itself needs, at most one place changes, in all states of a run: the one the path of the alias
names in a tree that holds the saved key and otherwise differs from the one at the start only as the key needs. -/
theorem C225_any_alias_partial (A : Aead) (i : PkInput) (f : PkFaults) (t : FsTree) (cls : KeyClass) (hi : GoodInput i)
    (hn : NormalTree t cls) (hf : FreshId t cls (keyId i.x)) :
    ∃ o : Option (List Path), (∀ q, o = some q → i.aliasName ≠ [] ∧ ∃ u, Stored u cls (keyId i.x)
        (privContent A (pkeygenSecret (i.pass1.getD [])) i.nonce i.d) (pubContent i.x) ∧
        (∀ r, u.get r ≠ t.get r → Expected A cls { i with aliasName := [] } t u r) ∧
        u.place (splitPath (etcDir cls ++ "/".toList ++ i.aliasName)) = some q) ∧
      ∀ s r, MainPasses A (ClassName cls) i f t s → s.get r ≠ t.get r → o ≠ some r → Expected A cls { i with aliasName := [] } t s r := by
  obtain ⟨e1, e2, -⟩ := main_of_process A i f t cls
  have hs' : ∀ s, MainPasses A (ClassName cls) i f t s → s = t ∨ s ∈ (processKey A { i with cls := cls } f t).1 ∨
      s = (processKey A { i with cls := cls } f t).2.1 := by
    intro s hs
    unfold MainPasses at hs
    rw [e1, e2] at hs
    exact hs
  rcases processKey_spec A { i with cls := cls } f t ⟨hi.x0, hi.x1, hi.d1, hi.nonce⟩ hn hf with ⟨h, -⟩ | ⟨p, hp, -, l, hl, hrest⟩
  · refine ⟨none, by simp, fun s r hs hr _ => ?_⟩
    have := hs' s hs
    rw [h] at this
    simp only [List.not_mem_nil, false_or, or_self] at this
    exact absurd (by rw [this]) hr
  have hgp : GoodPass { i with aliasName := [] } p := goodPass_of_prompt (i := { i with aliasName := [] }) hp
  have hp1 : i.pass1.getD [] = p := by
    cases h1 : i.pass1 with
    | none => simp [promptPassphrase, h1] at hp
    | some x =>
      simp only [promptPassphrase, h1] at hp
      split at hp
      · simp at hp
      · simp only [if_true] at hp
        cases h2 : i.pass2 with
        | none => rw [h2] at hp; simp at hp
        | some y =>
          rw [h2] at hp
          simp only at hp
          split at hp
          · exact Res.ok.inj hp
          · simp at hp
  have hsave : ∀ s r, SaveState cls (keyId i.x) (privContent A (pkeygenSecret p) i.nonce i.d) (pubContent i.x) t s → s.get r ≠ t.get r →
      Expected A cls { i with aliasName := [] } t s r := fun s r h hr => saveState_expected (i := { i with aliasName := [] }) hgp h r hr
  rcases hrest with ⟨s0, r0, h1, -, h2, -⟩ | ⟨t1, g1, g2, g3⟩
  · refine ⟨none, by simp, fun s r hs hr _ => ?_⟩
    have := hs' s hs
    rw [h1] at this
    rcases this with rfl | hm | rfl
    · exact absurd rfl hr
    · exact hsave s r (hl s hm) hr
    · exact hsave _ r h2 hr
  have hu : SaveState cls (keyId i.x) (privContent A (pkeygenSecret p) i.nonce i.d) (pubContent i.x) t
      (savedTree cls (keyId i.x) (privContent A (pkeygenSecret p) i.nonce i.d) (pubContent i.x) t1) :=
    .inr ⟨t1, (pubContent i.x).length, g1, g2, .inr (by rw [List.take_length])⟩
  have hst := saved_stored (c1 := privContent A (pkeygenSecret p) i.nonce i.d) (c2 := pubContent i.x) g2
  generalize savedTree cls (keyId i.x) (privContent A (pkeygenSecret p) i.nonce i.d) (pubContent i.x) t1 = u at *
  by_cases ha : i.aliasName = []
  · refine ⟨none, by simp, fun s r hs hr _ => ?_⟩
    have := hs' s hs
    rw [g3, if_pos ha] at this
    rcases this with rfl | hm | rfl
    · exact absurd rfl hr
    · exact hsave s r (hl s hm) hr
    · exact hsave _ r hu hr
  · refine ⟨u.place (splitPath (etcDir cls ++ "/".toList ++ i.aliasName)), fun q hq => ⟨ha, u, by rw [hp1]; exact hst, fun r hr => hsave u r hu hr, hq⟩, fun s r hs hr hne => ?_⟩
    have := hs' s hs
    rw [g3, if_neg ha] at this
    have hmk : (s ∈ (makeAlias { i with cls := cls } f u).1 ∨ s = (makeAlias { i with cls := cls } f u).2.1) →
        Expected A cls { i with aliasName := [] } t s r := by
      intro hm
      have hsu : s.get r = u.get r := by
        by_contra hc
        exact hne (makeAlias_place { i with cls := cls } f u s hm r hc).1
      exact expected_other (hsave u r hu (by rw [← hsu]; exact hr)) hsu
    rcases this with rfl | hm | hm
    · exact absurd rfl hr
    · rcases List.mem_append.mp hm with hm | hm
      · exact hsave s r (hl s hm) hr
      · exact hmk (.inl hm)
    · exact hmk (.inr hm)

example := C225_any_alias_partial trivialAead (exInput "../../passwd" true "passphrase") noFaults exTreeOut .node (exInput_good _ _ _)
    (normalB_spec (by decide +kernel)) (freshB_spec (by decide +kernel))

/-! ### C140 -/

/-- C140 with any alias: there is at most one place such that every key pair whose two files are not in that place is still stored in every
state of the run and loads as before, under its identifier and under all its aliases that are not in that place. -/
theorem C140_any_alias_partial (A : Aead) (i : PkInput) (f : PkFaults) (t : FsTree) (hi : GoodInput i) (hn : NormalTree t i.cls)
    (hf : FreshId t i.cls (keyId i.x)) :
    ∃ o : Option (List Path), ∀ s, Passes (processKey A i f) t s → ∀ cls id c1 c2, SimpleName id → Stored t cls id c1 c2 →
      o ≠ some (placeOf cls id ++ [privName cls]) → o ≠ some (placeOf cls id ++ [pubName cls]) →
      Stored s cls id c1 c2 ∧ ∀ n, n = id ∨ (SimpleName n ∧ t.get (placeOf cls n) = some (aliasLink cls id) ∧ o ≠ some (placeOf cls n)) →
        loadPubKey s.view cls n = loadPubKey t.view cls n ∧ ∀ secret, loadPrivKey A s.view cls n secret = loadPrivKey A t.view cls n secret := by
  have hunder : ∀ r, t.get r ≠ none → ¬ placeOf i.cls (keyId i.x) <+: r := by
    rintro r h0 ⟨p, rfl⟩
    apply h0
    have := hf.empty p
    simpa [placeOf] using this
  obtain ⟨o, ho⟩ : ∃ o : Option (List Path), ∀ s, Passes (processKey A i f) t s → ∀ r, t.get r ≠ none →
      (o ≠ some r ∨ (t.get r = some .dir ∧ t.hasChild r = true)) → s.get r = t.get r := by
    rcases processKey_spec A i f t hi hn hf with ⟨h, -⟩ | ⟨p, -, -, l, hl, hrest⟩
    · refine ⟨none, fun s hs r _ _ => ?_⟩
      unfold Passes at hs
      rw [h] at hs
      simp only [List.not_mem_nil, false_or, or_self] at hs
      rw [hs]
    have hsave : ∀ s r, SaveState i.cls (keyId i.x) (privContent A (pkeygenSecret p) i.nonce i.d) (pubContent i.x) t s → t.get r ≠ none →
        s.get r = t.get r := fun s r h h0 => (saveState_get h r (hunder r h0)).resolve_right fun h' => h0 h'.2.2.1
    rcases hrest with ⟨s0, r0, h1, -, h2, -⟩ | ⟨t1, g1, g2, g3⟩
    · refine ⟨none, fun s hs r h0 _ => ?_⟩
      unfold Passes at hs
      rw [h1] at hs
      rcases hs with rfl | hm | rfl
      · rfl
      · exact hsave s r (hl s hm) h0
      · exact hsave _ r h2 h0
    have hu : SaveState i.cls (keyId i.x) (privContent A (pkeygenSecret p) i.nonce i.d) (pubContent i.x) t
        (savedTree i.cls (keyId i.x) (privContent A (pkeygenSecret p) i.nonce i.d) (pubContent i.x) t1) :=
      .inr ⟨t1, (pubContent i.x).length, g1, g2, .inr (by rw [List.take_length])⟩
    generalize savedTree i.cls (keyId i.x) (privContent A (pkeygenSecret p) i.nonce i.d) (pubContent i.x) t1 = u at *
    by_cases ha : i.aliasName = []
    · refine ⟨none, fun s hs r h0 _ => ?_⟩
      unfold Passes at hs
      rw [g3, if_pos ha] at hs
      rcases hs with rfl | hm | rfl
      · rfl
      · exact hsave s r (hl s hm) h0
      · exact hsave _ r hu h0
    · refine ⟨u.place (splitPath (etcDir i.cls ++ "/".toList ++ i.aliasName)), fun s hs r h0 hne => ?_⟩
      unfold Passes at hs
      rw [g3, if_neg ha] at hs
      have hmk : (s ∈ (makeAlias i f u).1 ∨ s = (makeAlias i f u).2.1) → s.get r = t.get r := by
        intro hm
        rw [← hsave u r hu h0]
        by_contra hc
        obtain ⟨k1, k2⟩ := makeAlias_place i f u s hm r hc
        rcases hne with hne | ⟨hd, hch⟩
        · exact hne k1
        · apply k2
          refine ⟨by rw [hsave u r hu h0, hd], ?_⟩
          rw [FsTree.hasChild_iff] at hch ⊢
          obtain ⟨n, hn'⟩ := hch
          exact ⟨n, by rw [hsave u _ hu hn']; exact hn'⟩
      rcases hs with rfl | hm | hm
      · rfl
      · rcases List.mem_append.mp hm with hm | hm
        · exact hsave s r (hl s hm) h0
        · exact hmk (.inl hm)
      · exact hmk (.inr hm)
  refine ⟨o, fun s hs cls id c1 c2 hid hst hq1 hq2 => ?_⟩
  have hdirs : ∀ q, q ≠ [] → q <+: etcNames cls ++ [id] → s.get q = some .dir := by
    intro q hq0 hq
    have hd := hst.dirs q hq0 hq
    rw [ho s hs q (by rw [hd]; simp) (.inr ⟨hd, ?_⟩), hd]
    rw [FsTree.hasChild_iff]
    obtain ⟨k, hk⟩ := hq
    cases k with
    | nil => exact ⟨privName cls, by rw [List.append_nil] at hk; rw [hk, hst.priv]; simp⟩
    | cons n k => exact ⟨n, by rw [hst.dirs (q ++ [n]) (by simp) ⟨k, by simpa using hk⟩]; simp⟩
  have hst' : Stored s cls id c1 c2 := ⟨hdirs, (ho s hs _ (fun h => by simpa [h] using hst.priv.symm.trans h) (.inl hq1)).trans hst.priv,
    (ho s hs _ (fun h => by simpa [h] using hst.pub.symm.trans h) (.inl hq2)).trans hst.pub⟩
  refine ⟨hst', ?_⟩
  rintro n (rfl | ⟨hn', hl, hne⟩)
  · have h1 := view_stored hid hst
    have h2 := view_stored hid hst'
    exact ⟨loadPub_congr (by rw [h1.2, h2.2]), fun _ => loadPriv_congr (by rw [h1.1, h2.1])⟩
  · have hl' : s.get (placeOf cls n) = some (aliasLink cls id) := by
      rw [ho s hs _ (by rw [hl]; simp) (.inl hne), hl]
    have h1 := view_alias hn' hid hst hl
    have h2 := view_alias hn' hid hst' hl'
    exact ⟨loadPub_congr (by rw [h1.2, h2.2]), fun _ => loadPriv_congr (by rw [h1.1, h2.1])⟩

example := C140_any_alias_partial trivialAead (exInput "aa/node_id" true "passphrase") noFaults exTree (exInput_good _ _ _) exTree_normal exTree_fresh

/-- C140 with any alias: a run damages at most one of the key pairs that were stored. -/
theorem C140_one_partial (A : Aead) (i : PkInput) (f : PkFaults) (t : FsTree) (hi : GoodInput i) (hn : NormalTree t i.cls)
    (hf : FreshId t i.cls (keyId i.x)) (s s' : FsTree) (hs : Passes (processKey A i f) t s) (hs' : Passes (processKey A i f) t s')
    (cls cls' : KeyClass) (id id' : Path) (c1 c2 c1' c2' : Bytes) (hid : SimpleName id) (hid' : SimpleName id')
    (hst : Stored t cls id c1 c2) (hst' : Stored t cls' id' c1' c2') (hne : (cls, id) ≠ (cls', id')) :
    Stored s cls id c1 c2 ∨ Stored s' cls' id' c1' c2' := by
  obtain ⟨o, ho⟩ := C140_any_alias_partial A i f t hi hn hf
  have hsame : ∀ a b, placeOf cls id ++ [a] ≠ placeOf cls' id' ++ [b] := by
    intro a b h
    have h1 := (List.append_inj' h rfl).1
    have h2 := List.append_inj' h1 rfl
    simp only [List.cons.injEq, and_true] at h2
    exact hne (by rw [etcNames_injective h2.1, h2.2])
  by_cases h : o ≠ some (placeOf cls id ++ [privName cls]) ∧ o ≠ some (placeOf cls id ++ [pubName cls])
  · exact .inl (ho s hs cls id c1 c2 hid hst h.1 h.2).1
  · refine .inr (ho s' hs' cls' id' c1' c2' hid' hst' ?_ ?_).1
    all_goals
      intro hc
      subst hc
      apply h
      constructor <;> exact fun e => hsame _ _ (Option.some.inj e).symm
/-- Two key pairs of nodes. -/
def exTreeTwo : FsTree := ⟨(placeOf .node "bb".toList, .dir) :: (placeOf .node "bb".toList ++ ["node_id".toList], .file [7]) ::
  (placeOf .node "bb".toList ++ ["node_id.pub".toList], .file [8]) :: exTree.entries⟩

theorem exTreeTwo_stored : Stored exTreeTwo .node "aa".toList [1, 2] [3] ∧ Stored exTreeTwo .node "bb".toList [7] [8] := by
  have key : ∀ id : Path, (∀ k : Fin 5, 0 < k.val → exTreeTwo.get ((etcNames .node ++ [id]).take k.val) = some .dir) →
      ∀ q, q ≠ [] → q <+: etcNames .node ++ [id] → exTreeTwo.get q = some .dir := by
    intro id h q h0 hq
    have hl := hq.length_le
    simp only [List.length_append, etcNames_length, List.length_singleton] at hl
    have := h ⟨q.length, by omega⟩ (List.length_pos_iff.mpr h0)
    rwa [← List.prefix_iff_eq_take.mp hq] at this
  exact ⟨⟨key _ (by decide +kernel), by decide +kernel, by decide +kernel⟩, ⟨key _ (by decide +kernel), by decide +kernel, by decide +kernel⟩⟩

/-- The run with the alias "aa/node_id" damages the pair "aa", so "bb" is intact. -/
example : Stored (processKey trivialAead (exInput "aa/node_id" true "passphrase") noFaults exTreeTwo).2.1 .node "bb".toList [7] [8] :=
  (C140_one_partial trivialAead (exInput "aa/node_id" true "passphrase") noFaults exTreeTwo (exInput_good _ _ _)
    (normalB_spec (by decide +kernel)) (freshB_spec (by decide +kernel)) _ _ (.inr (.inr rfl)) (.inr (.inr rfl)) .node .node "aa".toList "bb".toList
    [1, 2] [3] [7] [8] (simple_of _ (by decide +kernel)) (simple_of _ (by decide +kernel)) exTreeTwo_stored.1 exTreeTwo_stored.2 (by decide +kernel)).resolve_left
    fun h => absurd h.priv (by decide +kernel)

/-! ### C139 and C141 with any alias -/

/-- C139 for every alias. -/
def UsableAfterRun : Prop := ∀ (A : Aead) (i : PkInput) (f : PkFaults) (t : FsTree), GoodInput i → NormalTree t i.cls → FreshId t i.cls (keyId i.x) →
  (processKey A i f t).2.2 = .ok () → ∃ p, GoodPass i p ∧ ∀ n, n = keyId i.x ∨ (n = i.aliasName ∧ i.aliasName ≠ []) →
    loadPubKey (processKey A i f t).2.1.view i.cls n = .ok i.x ∧ loadPrivKey A (processKey A i f t).2.1.view i.cls n (pkeygenSecret p) = .ok i.d

/-- C141 for every alias: without consent nothing that existed is changed. -/
def NothingReplaced : Prop := ∀ (A : Aead) (i : PkInput) (f : PkFaults) (t s : FsTree), GoodInput i → NormalTree t i.cls →
  FreshId t i.cls (keyId i.x) → ¬ Consent i → Passes (processKey A i f) t s → ∀ r, t.get r ≠ none → s.get r = t.get r

/-- C139 is false: an alias in the directory of the new key replaces the file of the key itself. -/
theorem C139_refuted : ¬ UsableAfterRun := by
  intro h
  let a : Path := keyId 0xabcd ++ "/node_id".toList
  obtain ⟨p, hp, hl⟩ := h trivialAead { exInput "" false "passphrase" with aliasName := a } noFaults exTree
    ⟨by decide +kernel, by decide +kernel, by decide +kernel, by decide +kernel⟩ exTree_normal exTree_fresh (by decide +kernel)
  have h1 := (hl (keyId 0xabcd) (.inl rfl)).2
  have hp1 := Option.some.inj hp.1
  subst hp1
  exact absurd h1 (by decide +kernel)

/-- A file system in which no key was ever stored. -/
def exTreeNew : FsTree := ⟨[(["etc".toList], .dir), (["etc".toList, "passwd".toList], .file [9])]⟩

/-- C141 is false: in a file system without keys, nothing is found under the alias "../../passwd" before the directories are made, and then
/etc/passwd is replaced without a question. -/
theorem C141_refuted : ¬ NothingReplaced := by
  intro h
  have := h trivialAead (exInput "../../passwd" false "passphrase") noFaults exTreeNew _ (exInput_good _ _ _) (normalB_spec (by decide +kernel))
    (freshB_spec (by decide +kernel)) (by simp [Consent, exInput]) (.inr (.inr rfl)) ["etc".toList, "passwd".toList] (by decide +kernel)
  exact absurd this (by decide +kernel)

theorem splitPath_alias (c : KeyClass) (a : Path) : splitPath (etcDir c ++ "/".toList ++ a) = [] :: (etcNames c ++ splitPath a) := by
  have : etcDir c ++ "/".toList ++ a = etcDir c ++ '/' :: a := by simp
  rw [this, splitPath_slash, splitPath_etcDir, List.cons_append]

/-- Resolution that does not mention a name does not end under it. -/
theorem resolve_avoids {t : FsTree} {E : List Path} {id : Path} (hl : ∀ p l, t.get p = some (.link l) → id ∉ splitPath l) (k : Nat) :
    ∀ cur rest, ¬ E ++ [id] <+: cur → id ∉ rest → ∀ d, t.resolve k cur rest = .dir d → ¬ E ++ [id] <+: d := by
  have hw : ∀ rest cur, ¬ E ++ [id] <+: cur → id ∉ rest → ∀ d, t.walk cur rest = .stop (.dir d) → ¬ E ++ [id] <+: d := by
    intro rest
    induction rest with
    | nil => intro cur hc _ d h; simp only [FsTree.walk, FsWalk.stop.injEq, FsLook.dir.injEq] at h; rwa [← h]
    | cons n rest ih =>
      intro cur hc hid d h
      simp only [List.mem_cons, not_or] at hid
      rw [FsTree.walk] at h
      split at h
      · exact ih cur hc hid.2 d h
      split at h
      · exact ih _ (fun hp => hc (hp.trans (List.dropLast_prefix cur))) hid.2 d h
      have hcn : ¬ E ++ [id] <+: cur ++ [n] := by
        intro hp
        rcases List.prefix_concat_iff.mp hp with e | hp
        · exact hid.1 ((List.append_inj' e rfl).2 |> List.cons.inj |>.1)
        · exact hc hp
      split at h
      · simp only [FsWalk.stop.injEq] at h; split at h <;> simp at h
      · exact ih _ hcn hid.2 d h
      · simp only [FsWalk.stop.injEq] at h; split at h <;> simp at h
      · simp at h
  induction k with
  | zero =>
    intro cur rest hc hid d h
    rw [FsTree.resolve] at h
    split at h
    · rename_i l hwl
      subst h
      exact hw rest cur hc hid d hwl
    · simp at h
  | succ k ih =>
    intro cur rest hc hid d h
    rw [FsTree.resolve] at h
    split at h
    · rename_i l hwl
      subst h
      exact hw rest cur hc hid d hwl
    · rename_i b l r hwl
      obtain ⟨⟨q, hq⟩, h2, h3⟩ := (FsTree.walk_agree (s := t) (t := t) (E := E) (id := id) (fun _ _ => rfl) rest cur hc hid).2 b l r hwl
      refine ih _ _ ?_ ?_ d h
      · split
        · intro hp; have := List.prefix_nil.mp hp; simp at this
        · exact h2
      · simp only [List.mem_append, not_or]
        exact ⟨hl q l hq, h3⟩

theorem saved_links {cls : KeyClass} {id : Path} {c1 c2 : Bytes} {t t1 : FsTree} (hg : FsTree.Grow (etcNames cls ++ [id]) t t1) (p : List Path) (l : Path)
    (h : (savedTree cls id c1 c2 t1).get p = some (.link l)) : t.get p = some (.link l) := by
  rw [savedTree] at h
  by_cases e1 : p = etcNames cls ++ [id] ++ [pubName cls]
  · rw [e1, FsTree.get_set_self] at h; simp at h
  rw [FsTree.get_set_ne _ _ e1] at h
  by_cases e2 : p = etcNames cls ++ [id] ++ [privName cls]
  · rw [e2, FsTree.get_set_self] at h; simp at h
  rw [FsTree.get_set_ne _ _ e2] at h
  rcases hg p with h' | ⟨-, -, -, h'⟩
  · rw [← h', h]
  · rw [h'] at h; simp at h

/-- The place an alias names does not lie under the new identifier, if the alias does not mention it. -/
theorem alias_avoids {i : PkInput} {c1 c2 : Bytes} {t t1 : FsTree} (hi : GoodInput i) (hf : FreshId t i.cls (keyId i.x))
    (hg : FsTree.Grow (etcNames i.cls ++ [keyId i.x]) t t1) (hm : keyId i.x ∉ splitPath i.aliasName) (r : List Path)
    (h : (savedTree i.cls (keyId i.x) c1 c2 t1).place (splitPath (etcDir i.cls ++ "/".toList ++ i.aliasName)) = some r) :
    ¬ etcNames i.cls ++ [keyId i.x] <+: r := by
  rw [splitPath_alias] at h
  have hmem : keyId i.x ∉ [] :: (etcNames i.cls ++ splitPath i.aliasName) := by
    simp only [List.mem_cons, List.mem_append, not_or]
    exact ⟨(keyId_simple hi.x0).1.1, keyId_not_etc _ _, hm⟩
  unfold FsTree.place at h
  cases hl : ([] :: (etcNames i.cls ++ splitPath i.aliasName)).getLast? with
  | none => rw [hl] at h; simp at h
  | some n =>
    rw [hl] at h
    simp only at h
    split at h
    · simp at h
    split at h
    · rename_i d hd
      simp only [Option.some.injEq] at h
      subst h
      intro hp
      rcases List.prefix_concat_iff.mp hp with e | hp
      · have e' := (List.append_inj' e rfl).2 |> List.cons.inj |>.1
        exact hmem (e' ▸ List.mem_of_getLast? hl)
      · exact resolve_avoids (fun p l h => hf.unnamed p l (saved_links hg p l h)) 40 [] _
          (fun hp => by have := List.prefix_nil.mp hp; simp at this) (fun hc => hmem (List.mem_of_mem_dropLast hc)) d hd hp
    · simp at h

/-- A key pair stays stored when an alias is made that names no place under its identifier. -/
theorem makeAlias_stored {i : PkInput} {f : PkFaults} {u : FsTree} {c1 c2 : Bytes} (hst : Stored u i.cls (keyId i.x) c1 c2)
    (hav : ∀ r, u.place (splitPath (etcDir i.cls ++ "/".toList ++ i.aliasName)) = some r → ¬ etcNames i.cls ++ [keyId i.x] <+: r) :
    Stored (makeAlias i f u).2.1 i.cls (keyId i.x) c1 c2 := by
  have hkeep : ∀ r, etcNames i.cls ++ [keyId i.x] <+: r ∨ (u.get r = some .dir ∧ u.hasChild r = true) → (makeAlias i f u).2.1.get r = u.get r := by
    intro r hr
    by_contra hc
    obtain ⟨k1, k2⟩ := makeAlias_place i f u _ (.inr rfl) r hc
    rcases hr with hr | hr
    · exact hav r k1 hr
    · exact k2 hr
  refine ⟨fun q h0 hq => ?_, ?_, ?_⟩
  · have hd := hst.dirs q h0 hq
    show (makeAlias i f u).2.1.get q = _
    rw [hkeep q (.inr ⟨hd, ?_⟩), hd]
    rw [FsTree.hasChild_iff]
    obtain ⟨k, hk⟩ := hq
    cases k with
    | nil => exact ⟨privName i.cls, by rw [List.append_nil] at hk; rw [hk, hst.priv]; simp⟩
    | cons n k => exact ⟨n, by rw [hst.dirs (q ++ [n]) (by simp) ⟨k, by simpa using hk⟩]; simp⟩
  · exact (hkeep _ (.inl (List.prefix_append _ _))).trans hst.priv
  · exact (hkeep _ (.inl (List.prefix_append _ _))).trans hst.pub

/-- C139 with any alias that does not mention the new identifier (which is not known before the run): after a successful run the key pair
loads under its identifier. -/
theorem C139_id_partial (A : Aead) (i : PkInput) (f : PkFaults) (t : FsTree) (hi : GoodInput i) (hn : NormalTree t i.cls)
    (hf : FreshId t i.cls (keyId i.x)) (hm : keyId i.x ∉ splitPath i.aliasName) (hok : (processKey A i f t).2.2 = .ok ()) :
    ∃ p, GoodPass i p ∧ loadPubKey (processKey A i f t).2.1.view i.cls (keyId i.x) = .ok i.x ∧
      loadPrivKey A (processKey A i f t).2.1.view i.cls (keyId i.x) (pkeygenSecret p) = .ok i.d := by
  rcases processKey_spec A i f t hi hn hf with ⟨h, -⟩ | ⟨p, hp, -, l, -, hrest⟩
  · rw [h] at hok; simp at hok
  refine ⟨p, goodPass_of_prompt hp, ?_⟩
  rcases hrest with ⟨s0, r0, h1, h2, -⟩ | ⟨t1, g1, g2, g3⟩
  · rw [h1] at hok; exact absurd hok h2
  have hst := saved_stored (c1 := privContent A (pkeygenSecret p) i.nonce i.d) (c2 := pubContent i.x) g2
  have hav := fun r => alias_avoids (c1 := privContent A (pkeygenSecret p) i.nonce i.d) (c2 := pubContent i.x) hi hf g1 hm r
  generalize savedTree i.cls (keyId i.x) (privContent A (pkeygenSecret p) i.nonce i.d) (pubContent i.x) t1 = u at *
  suffices h : Stored (processKey A i f t).2.1 i.cls (keyId i.x) (privContent A (pkeygenSecret p) i.nonce i.d) (pubContent i.x) from
    loads_of_stored (keyId_simple hi.x0) hi.x1 hi.d1 hi.nonce (pkeygenSecret_ok p) h
  by_cases ha : i.aliasName = []
  · rw [g3, if_pos ha]; exact hst
  rw [g3, if_neg ha]
  exact makeAlias_stored hst hav

example := C139_id_partial trivialAead (exInput "../../passwd" true "passphrase") noFaults exTreeOut (exInput_good _ _ _)
    (normalB_spec (by decide +kernel)) (freshB_spec (by decide +kernel)) (by decide +kernel) (by decide +kernel)

/-- Making an alias that is not seen to exist changes nothing that is there. -/
theorem makeAlias_unseen (i : PkInput) (f : PkFaults) (u s : FsTree) (hs : s ∈ (makeAlias i f u).1 ∨ s = (makeAlias i f u).2.1)
    (hno : (u.stat (etcDir i.cls ++ "/".toList ++ i.aliasName)).notExist = true) (r : List Path) (hr : u.get r ≠ none) : s.get r = u.get r := by
  have h1 : removeExisting (etcDir i.cls ++ "/".toList ++ i.aliasName) f.remove u = ([], u, .ok ()) := by
    rw [removeExisting, if_pos hno]
  rw [makeAlias] at hs
  simp only [PkRun.bind, h1, List.nil_append] at hs
  unfold symlinkT PkRun.step at hs
  cases hok : f.symlink with
  | false =>
    simp only [hok, Bool.not_false, if_true, List.not_mem_nil, false_or] at hs
    rw [hs]
  | true =>
    simp only [hok, Bool.not_true, Bool.false_eq_true, if_false] at hs
    cases hp : u.place (splitPath (etcDir i.cls ++ "/".toList ++ i.aliasName)) with
    | none => rw [hp] at hs; simp only [List.not_mem_nil, false_or] at hs; rw [hs]
    | some q =>
      rw [hp] at hs
      simp only at hs
      cases hg : u.get q with
      | none =>
        rw [hg] at hs
        simp only [List.mem_singleton, or_self] at hs
        rw [hs, FsTree.get_set_ne]
        rintro rfl
        exact hr hg
      | some x => rw [hg] at hs; simp only [List.not_mem_nil, false_or] at hs; rw [hs]

/-- Walking in a directory that has only one entry, without naming it and without leaving. -/
theorem walk_alone {u : FsTree} {E : List Path} {id : Path} (h : ∀ n, n ≠ id → u.get (E ++ [n]) = none) : ∀ rest : List Path, id ∉ rest →
    ['.', '.'] ∉ rest → ∃ l, u.walk E rest = .stop l ∧ ∀ d, l = .dir d → d = E := by
  intro rest
  induction rest with
  | nil => intro _ _; exact ⟨_, rfl, by simp⟩
  | cons n rest ih =>
    intro h1 h2
    simp only [List.mem_cons, not_or] at h1 h2
    rw [FsTree.walk]
    split
    · exact ih h1.2 h2.2
    · rw [if_neg (Ne.symm h2.1), h n (Ne.symm h1.1)]
      refine ⟨_, rfl, ?_⟩
      intro d hd
      split at hd <;> simp at hd

/-- C141 with any alias that does not mention the new identifier: without -force and without the answer y or Y, if the directory of the class
existed or the alias has no component "..", nothing that existed is changed in any state of the run. -/
theorem C141_any_alias_partial (A : Aead) (i : PkInput) (f : PkFaults) (t : FsTree) (hi : GoodInput i) (hn : NormalTree t i.cls)
    (hf : FreshId t i.cls (keyId i.x)) (hno : ¬ Consent i) (hm : keyId i.x ∉ splitPath i.aliasName)
    (hc : t.get (etcNames i.cls) ≠ none ∨ ['.', '.'] ∉ splitPath i.aliasName) (s : FsTree) (hs : Passes (processKey A i f) t s)
    (r : List Path) (h0 : t.get r ≠ none) : s.get r = t.get r := by
  have hunder : ∀ r, t.get r ≠ none → ¬ placeOf i.cls (keyId i.x) <+: r := by
    rintro r h0 ⟨p, rfl⟩
    apply h0
    have := hf.empty p
    simpa [placeOf] using this
  unfold Passes at hs
  rcases processKey_spec A i f t hi hn hf with ⟨h, -⟩ | ⟨p, -, hcons, l, hl, hrest⟩
  · rw [h] at hs
    simp only [List.not_mem_nil, false_or, or_self] at hs
    rw [hs]
  have hsave : ∀ s r, SaveState i.cls (keyId i.x) (privContent A (pkeygenSecret p) i.nonce i.d) (pubContent i.x) t s → t.get r ≠ none →
      s.get r = t.get r := fun s r h h0 => (saveState_get h r (hunder r h0)).resolve_right fun h' => h0 h'.2.2.1
  rcases hrest with ⟨s0, r0, h1, -, h2, -⟩ | ⟨t1, g1, g2, g3⟩
  · rw [h1] at hs
    rcases hs with rfl | hm | rfl
    · rfl
    · exact hsave s r (hl s hm) h0
    · exact hsave _ r h2 h0
  have hu : SaveState i.cls (keyId i.x) (privContent A (pkeygenSecret p) i.nonce i.d) (pubContent i.x) t
      (savedTree i.cls (keyId i.x) (privContent A (pkeygenSecret p) i.nonce i.d) (pubContent i.x) t1) :=
    .inr ⟨t1, (pubContent i.x).length, g1, g2, .inr (by rw [List.take_length])⟩
  have hst := saved_stored (c1 := privContent A (pkeygenSecret p) i.nonce i.d) (c2 := pubContent i.x) g2
  have hget := fun r => saved_get (c1 := privContent A (pkeygenSecret p) i.nonce i.d) (c2 := pubContent i.x) g1 r
  generalize savedTree i.cls (keyId i.x) (privContent A (pkeygenSecret p) i.nonce i.d) (pubContent i.x) t1 = u at *
  by_cases ha : i.aliasName = []
  · rw [g3, if_pos ha] at hs
    rcases hs with rfl | hm | rfl
    · rfl
    · exact hsave s r (hl s hm) h0
    · exact hsave _ r hu h0
  rw [g3, if_neg ha] at hs
  have hmem : keyId i.x ∉ [] :: (etcNames i.cls ++ splitPath i.aliasName) := by
    simp only [List.mem_cons, List.mem_append, not_or]
    exact ⟨(keyId_simple hi.x0).1.1, keyId_not_etc _ _, hm⟩
  have hnot : (t.stat (etcDir i.cls ++ "/".toList ++ i.aliasName)).notExist = true := by
    rcases hcons with h | h | h
    · exact absurd h ha
    · exact h
    · exact absurd h hno
  have hmk : (s ∈ (makeAlias i f u).1 ∨ s = (makeAlias i f u).2.1) → s.get r = t.get r := by
    intro hs
    have h0u : u.get r ≠ none := by rw [hsave u r hu h0]; exact h0
    rw [← hsave u r hu h0]
    by_cases hE : t.get (etcNames i.cls) ≠ none
    · -- the class had its directory: the alias is seen as before
      have hT : t.AllDirs (etcNames i.cls) := by
        have hl3 := etcNames_length i.cls
        have e : etcNames i.cls = (etcNames i.cls).dropLast ++ [(etcNames i.cls).getLast (by intro h; rw [h] at hl3; simp at hl3)] :=
          (List.dropLast_append_getLast _).symm
        rw [e, FsTree.allDirs_snoc, ← e]
        refine ⟨allDirs_parents hn.parents _ _ (by rw [← e]; exact hE), ?_⟩
        rcases hn.plain (etcNames i.cls) (by intro h; rw [h] at hl3; simp at hl3) List.prefix_rfl with h | h
        · exact absurd h hE
        · exact h
      refine makeAlias_unseen i f u s hs ?_ r h0u
      rw [← hnot, FsTree.stat, FsTree.stat, splitPath_alias]
      rw [FsTree.resolve_agree (E := etcNames i.cls) (id := keyId i.x) ?_ hf.unnamed]
      · intro h; have := List.prefix_nil.mp h; simp at this
      · exact hmem
      · intro r hr
        rcases hget r hr with h | ⟨h0, h1, h2, -⟩
        · exact h
        · rw [hT r h0 h1] at h2; simp at h2
    · -- the directory of the class is new: nothing else is in it
      have hdots : ['.', '.'] ∉ splitPath i.aliasName := hc.resolve_left hE
      simp only [ne_eq, not_not] at hE
      have hchild : ∀ n, t.get (etcNames i.cls ++ [n]) = none := by
        intro n
        by_contra h
        rcases hn.parents _ _ h with h' | h'
        · have := etcNames_length i.cls; rw [h'] at this; simp at this
        · rw [hE] at h'; simp at h'
      have halone : ∀ n, n ≠ keyId i.x → u.get (etcNames i.cls ++ [n]) = none := by
        intro n hne
        have hnp : ¬ etcNames i.cls ++ [keyId i.x] <+: etcNames i.cls ++ [n] := by
          have := not_prefix_alias (E := etcNames i.cls) hne []
          simpa using this
        rcases hget _ hnp with h | ⟨-, h, -⟩
        · rw [h, hchild]
        · have := h.length_le; simp at this
      by_contra hne
      obtain ⟨k1, -⟩ := makeAlias_place i f u s hs r hne
      rw [splitPath_alias] at k1
      unfold FsTree.place at k1
      have hsne := splitPath_ne_nil i.aliasName
      have hdl : ([] :: (etcNames i.cls ++ splitPath i.aliasName)).dropLast = [] :: (etcNames i.cls ++ (splitPath i.aliasName).dropLast) := by
        rw [List.dropLast_cons_of_ne_nil (by simp [hsne]), List.dropLast_append_of_ne_nil hsne]
      cases hlast : ([] :: (etcNames i.cls ++ splitPath i.aliasName)).getLast? with
      | none => rw [hlast] at k1; simp at k1
      | some n =>
        rw [hlast] at k1
        simp only at k1
        split at k1
        · simp at k1
        split at k1
        · rename_i d hd
          simp only [Option.some.injEq] at k1
          rw [hdl, FsTree.resolve_skip] at hd
          have hE' : u.AllDirs (etcNames i.cls) := FsTree.AllDirs.prefix hst.dirs (List.prefix_append _ _)
          obtain ⟨lk, hw, hlk⟩ := walk_alone halone (splitPath i.aliasName).dropLast (fun h => hm (List.mem_of_mem_dropLast h))
            (fun h => hdots (List.mem_of_mem_dropLast h))
          have hw' : u.walk [] (etcNames i.cls ++ (splitPath i.aliasName).dropLast) = .stop lk := by
            rw [FsTree.walk_dirs u _ (proper_etc i.cls) [] _ (by simpa using hE'), List.nil_append, hw]
          rw [FsTree.resolve_walk hw'] at hd
          rw [hlk d hd] at k1
          rw [← k1, hchild] at h0
          exact h0 rfl
        · simp at k1
  rcases hs with rfl | hm | hm
  · rfl
  · rcases List.mem_append.mp hm with hm | hm
    · exact hsave s r (hl s hm) h0
    · exact hmk (.inl hm)
  · exact hmk (.inr hm)

example := C141_any_alias_partial trivialAead (exInput "../../new" false "passphrase") noFaults exTreeOut (exInput_good _ _ _)
    (normalB_spec (by decide +kernel)) (freshB_spec (by decide +kernel)) (by simp [Consent, exInput]) (by decide +kernel) (.inl (by decide +kernel))
    _ (.inr (.inr rfl)) ["etc".toList, "passwd".toList] (by decide +kernel)

end Poodle.Props
