import Verif.Props.PkeygenAlias

/-
Property C139 (continued): loading a key pair under an alias with slashes (/repo/src/main/pkeygen.go:79-95,
/repo/src/util/lc_util.go:218-294).
-/

namespace Poodle.Props
open Poodle Poodle.Spec

theorem walk_append {t : FsTree} (b : List Path) : ∀ (a cur : List Path),
    (∀ d, t.walk cur a = .stop (.dir d) → t.walk cur (a ++ b) = t.walk d b) ∧
    (∀ base l r, t.walk cur a = .link base l r → t.walk cur (a ++ b) = .link base l (r ++ b)) := by
  intro a
  induction a with
  | nil =>
    intro cur
    refine ⟨fun d h => ?_, fun base l r h => ?_⟩
    · simp only [FsTree.walk, FsWalk.stop.injEq, FsLook.dir.injEq] at h
      rw [h, List.nil_append]
    · simp [FsTree.walk] at h
  | cons n a ih =>
    intro cur
    rw [List.cons_append, FsTree.walk, FsTree.walk]
    by_cases h1 : n = [] ∨ n = ['.']
    · rw [if_pos h1, if_pos h1]; exact ih cur
    rw [if_neg h1, if_neg h1]
    by_cases h2 : n = ['.', '.']
    · rw [if_pos h2, if_pos h2]; exact ih _
    rw [if_neg h2, if_neg h2]
    cases hg : t.get (cur ++ [n]) with
    | none =>
      refine ⟨fun d h => ?_, fun base l r h => by simp at h⟩
      simp only [FsWalk.stop.injEq] at h
      split at h <;> simp at h
    | some x =>
      cases x with
      | dir => exact ih _
      | file c =>
        refine ⟨fun d h => ?_, fun base l r h => by simp at h⟩
        simp only [FsWalk.stop.injEq] at h
        split at h <;> simp at h
      | link l =>
        refine ⟨fun d h => by simp at h, fun base l' r h => ?_⟩
        simp only [FsWalk.link.injEq] at h
        obtain ⟨rfl, rfl, rfl⟩ := h
        rfl

/-- A path to a directory uses some number of links, with fewer it is not resolved, and what follows has the remaining ones. -/
theorem resolve_append {t : FsTree} (b : List Path) : ∀ (k : Nat) (cur a d : List Path), t.resolve k cur a = .dir d →
    ∃ j, j ≤ k ∧ (∀ m, t.resolve (j + m) cur (a ++ b) = t.resolve m d b) ∧ (∀ m, t.resolve (j + m) cur a = .dir d) ∧
      ∀ i, i < j → t.resolve i cur a = .loop := by
  intro k
  have stop : ∀ cur a d, t.walk cur a = .stop (.dir d) → ∀ m, t.resolve m cur (a ++ b) = t.resolve m d b := by
    intro cur a d h m
    have := (walk_append b a cur).1 d h
    cases m <;> rw [FsTree.resolve, FsTree.resolve, this]
  induction k with
  | zero =>
    intro cur a d h
    have hr := h
    rw [FsTree.resolve] at h
    cases hw : t.walk cur a with
    | stop l =>
      rw [hw] at h
      simp only at h
      subst h
      exact ⟨0, Nat.le_refl _, fun m => by rw [Nat.zero_add]; exact stop cur a d hw m, fun m => FsTree.resolve_walk hw, fun i hi => by omega⟩
    | link base l r => rw [hw] at h; simp at h
  | succ k ih =>
    intro cur a d h
    rw [FsTree.resolve] at h
    cases hw : t.walk cur a with
    | stop l =>
      rw [hw] at h
      simp only at h
      subst h
      exact ⟨0, Nat.zero_le _, fun m => by rw [Nat.zero_add]; exact stop cur a d hw m, fun m => FsTree.resolve_walk hw, fun i hi => by omega⟩
    | link base l r =>
      rw [hw] at h
      simp only at h
      obtain ⟨j, h1, h2, h3, h4⟩ := ih _ _ _ h
      have hw' := (walk_append b a cur).2 base l r hw
      refine ⟨j + 1, by omega, fun m => ?_, fun m => ?_, fun i hi => ?_⟩
      · rw [show j + 1 + m = (j + m) + 1 by omega, FsTree.resolve, hw']
        simp only
        rw [← List.append_assoc]
        exact h2 m
      · rw [show j + 1 + m = (j + m) + 1 by omega, FsTree.resolve, hw]
        exact h3 m
      · cases i with
        | zero => rw [FsTree.resolve, hw]
        | succ i =>
          rw [FsTree.resolve, hw]
          exact h4 i (by omega)

theorem erase_set_absent (t : FsTree) (q : List Path) (e : FsEntry) (h : t.get q = none) : (t.set q e).erase q = t := by
  obtain ⟨l⟩ := t
  simp only [FsTree.get, Option.map_eq_none_iff, List.find?_eq_none, decide_eq_true_eq] at h
  simp only [FsTree.set, FsTree.erase, FsTree.mk.injEq]
  rw [List.filter_cons_of_neg (by simp)]
  exact List.filter_eq_self.mpr fun x hx => by simpa using h x hx

/-- What a successful making of an alias ends with. -/
theorem makeAlias_made {i : PkInput} {f : PkFaults} {u : FsTree} (h : (makeAlias i f u).2.2 = .ok ()) :
    ∃ d n, (splitPath (etcDir i.cls ++ "/".toList ++ i.aliasName)).getLast? = some n ∧ Proper n ∧
      (makeAlias i f u).2.1.resolve 40 [] (splitPath (etcDir i.cls ++ "/".toList ++ i.aliasName)).dropLast = .dir d ∧
      (makeAlias i f u).2.1.get (d ++ [n]) = some (aliasLink i.cls (keyId i.x)) := by
  have key : ∀ (target p : Path) (ok : Bool) (v : FsTree), (symlinkT target p ok v).2.2 = .ok () →
      ∃ d n, (splitPath p).getLast? = some n ∧ Proper n ∧ (symlinkT target p ok v).2.1.resolve 40 [] (splitPath p).dropLast = .dir d ∧
        (symlinkT target p ok v).2.1.get (d ++ [n]) = some (.link target) := by
    intro target p ok v h
    unfold symlinkT PkRun.step at h ⊢
    cases ok with
    | false => simp at h
    | true =>
      simp only [Bool.not_true, Bool.false_eq_true, if_false] at h ⊢
      cases hp : v.place (splitPath p) with
      | none => rw [hp] at h; simp at h
      | some q =>
        rw [hp] at h
        simp only at h ⊢
        cases hg : v.get q with
        | some x => rw [hg] at h; simp at h
        | none =>
          simp only
          unfold FsTree.place at hp
          cases hl : (splitPath p).getLast? with
          | none => rw [hl] at hp; simp at hp
          | some n =>
            rw [hl] at hp
            simp only at hp
            split at hp
            · simp at hp
            rename_i hn
            cases hr : v.resolve 40 [] (splitPath p).dropLast with
            | dir d =>
              rw [hr] at hp
              simp only [Option.some.injEq] at hp
              subst hp
              simp only [not_or] at hn
              refine ⟨d, n, rfl, hn, ?_, FsTree.get_set_self _ _ _⟩
              refine resolve_erase_dir (q := d ++ [n]) 40 _ _ ?_
              rw [erase_set_absent _ _ _ hg]
              exact hr
            | _ => rw [hr] at hp; simp at hp
  unfold makeAlias PkRun.bind at h ⊢
  generalize removeExisting _ _ u = x at h ⊢
  obtain ⟨l, v, r⟩ := x
  cases r with
  | ok a => exact key _ _ _ v h
  | err => simp at h
  | panic => simp at h

/-- C139 with any alias that does not mention the new identifier, exactly: after a successful run the key pair loads under the alias if the
directory the alias is in is reached with at most 39 links; otherwise both keys are refused, as the system follows no more than 40. -/
theorem C139_alias_partial (A : Aead) (i : PkInput) (f : PkFaults) (t : FsTree) (hi : GoodInput i) (hn : NormalTree t i.cls)
    (hf : FreshId t i.cls (keyId i.x)) (hm : keyId i.x ∉ splitPath i.aliasName) (ha : i.aliasName ≠ [])
    (hok : (processKey A i f t).2.2 = .ok ()) :
    ∃ p, GoodPass i p ∧
      ((∃ d, (processKey A i f t).2.1.resolve 39 [] (splitPath (etcDir i.cls ++ "/".toList ++ i.aliasName)).dropLast = .dir d) →
        loadPubKey (processKey A i f t).2.1.view i.cls i.aliasName = .ok i.x ∧
        loadPrivKey A (processKey A i f t).2.1.view i.cls i.aliasName (pkeygenSecret p) = .ok i.d) ∧
      ((¬ ∃ d, (processKey A i f t).2.1.resolve 39 [] (splitPath (etcDir i.cls ++ "/".toList ++ i.aliasName)).dropLast = .dir d) →
        loadPubKey (processKey A i f t).2.1.view i.cls i.aliasName = .err ∧
        ∀ secret, loadPrivKey A (processKey A i f t).2.1.view i.cls i.aliasName secret = .err) := by
  have hid := keyId_simple hi.x0
  rcases processKey_spec A i f t hi hn hf with ⟨h, -⟩ | ⟨p, hp, -, l, -, hrest⟩
  · rw [h] at hok; simp at hok
  refine ⟨p, goodPass_of_prompt hp, ?_⟩
  rcases hrest with ⟨s0, r0, h1, h2, -⟩ | ⟨t1, g1, g2, g3⟩
  · rw [h1] at hok; exact absurd hok h2
  have hst := saved_stored (c1 := privContent A (pkeygenSecret p) i.nonce i.d) (c2 := pubContent i.x) g2
  have hav := fun r => alias_avoids (c1 := privContent A (pkeygenSecret p) i.nonce i.d) (c2 := pubContent i.x) hi hf g1 hm r
  generalize savedTree i.cls (keyId i.x) (privContent A (pkeygenSecret p) i.nonce i.d) (pubContent i.x) t1 = u at *
  rw [if_neg ha] at g3
  have hS : Stored (processKey A i f t).2.1 i.cls (keyId i.x) (privContent A (pkeygenSecret p) i.nonce i.d) (pubContent i.x) := by
    rw [g3]; exact makeAlias_stored hst hav
  have hmade : (makeAlias i f u).2.2 = .ok () := by rw [g3] at hok; exact hok
  obtain ⟨d, n, m1, m2, m3, m4⟩ := makeAlias_made hmade
  have hs : (processKey A i f t).2.1 = (makeAlias i f u).2.1 := by rw [g3]
  rw [← hs] at m3 m4
  generalize (processKey A i f t).2.1 = s at *
  have hlast : splitPath (etcDir i.cls ++ "/".toList ++ i.aliasName) = (splitPath (etcDir i.cls ++ "/".toList ++ i.aliasName)).dropLast ++ [n] := by
    have h0 : splitPath (etcDir i.cls ++ "/".toList ++ i.aliasName) ≠ [] := splitPath_ne_nil _
    rw [List.getLast?_eq_some_getLast h0, Option.some.injEq] at m1
    rw [← m1, List.dropLast_append_getLast]
  have hpriv : splitPath (privKeyPath i.cls i.aliasName) = splitPath (etcDir i.cls ++ "/".toList ++ i.aliasName) ++ [privName i.cls] := by
    rw [privKeyPath_eq, splitPath_slash, splitPath_name (privName_slash i.cls)]
    rfl
  have hpub : splitPath (pubKeyPath i.cls i.aliasName) = splitPath (etcDir i.cls ++ "/".toList ++ i.aliasName) ++ [pubName i.cls] := by
    rw [pubKeyPath_eq, splitPath_slash, splitPath_name (pubName_slash i.cls)]
    rfl
  generalize splitPath (etcDir i.cls ++ "/".toList ++ i.aliasName) = P at *
  have hh : (etcDir i.cls ++ "/".toList ++ keyId i.x).head? = some '/' := by cases i.cls <;> rfl
  have file : ∀ (w : Path), Proper w → ∀ c, s.get (etcNames i.cls ++ [keyId i.x] ++ [w]) = some (.file c) →
      ((∃ d, s.resolve 39 [] P.dropLast = .dir d) → s.resolve 40 [] (P ++ [w]) = .file (etcNames i.cls ++ [keyId i.x] ++ [w]) c) ∧
      ((¬ ∃ d, s.resolve 39 [] P.dropLast = .dir d) → s.resolve 40 [] (P ++ [w]) = .loop) := by
    intro w hw c hc
    have hwalk : s.walk d (n :: [w]) = .link d (etcDir i.cls ++ "/".toList ++ keyId i.x) [w] := by
      rw [FsTree.walk_proper _ _ _ m2, m4, aliasLink]
    obtain ⟨j, j1, j2, j3, j4⟩ := resolve_append (n :: [w]) 40 [] P.dropLast d m3
    have hPw : P ++ [w] = P.dropLast ++ (n :: [w]) := by rw [hlast]; simp
    have hrest : ∀ m, s.resolve (m + 1) d (n :: [w]) = .file (etcNames i.cls ++ [keyId i.x] ++ [w]) c := by
      intro m
      rw [FsTree.resolve, hwalk]
      simp only
      rw [if_pos hh, splitPath_etc i.cls (keyId i.x) hid.2, List.cons_append, FsTree.resolve_last s m _ (proper_key hid) hS.dirs w hw, hc]
    have hzero : s.resolve 0 d (n :: [w]) = .loop := by rw [FsTree.resolve, hwalk]
    rw [hPw]
    constructor
    · rintro ⟨d', hd'⟩
      have hj : j ≤ 39 := by
        by_contra hgt
        rw [j4 39 (by omega)] at hd'
        simp at hd'
      rw [show (40 : Nat) = j + ((39 - j) + 1) by omega, j2]
      exact hrest _
    · intro hno
      have hj : j = 40 := by
        by_contra hne
        refine hno ⟨d, ?_⟩
        rw [show (39 : Nat) = j + (39 - j) by omega]
        exact j3 _
      subst hj
      have := j2 0
      rw [hzero] at this
      exact this
  have hv : ∀ (path w : Path), splitPath path = P ++ [w] → Proper w → ∀ c, s.get (etcNames i.cls ++ [keyId i.x] ++ [w]) = some (.file c) →
      ((∃ d, s.resolve 39 [] P.dropLast = .dir d) → s.view path = some c) ∧ ((¬ ∃ d, s.resolve 39 [] P.dropLast = .dir d) → s.view path = none) := by
    intro path w hpath hw c hc
    rw [FsTree.view, FsTree.stat, hpath]
    exact ⟨fun h => by rw [(file w hw c hc).1 h], fun h => by rw [(file w hw c hc).2 h]⟩
  have v1 := hv _ _ hpriv (proper_priv i.cls) _ hS.priv
  have v2 := hv _ _ hpub (proper_pub i.cls) _ hS.pub
  have h4 := view_stored hid hS
  have h5 := loads_of_stored hid hi.x1 hi.d1 hi.nonce (pkeygenSecret_ok p) hS
  refine ⟨fun h => ⟨?_, ?_⟩, fun h => ⟨?_, fun secret => ?_⟩⟩
  · rw [loadPub_congr (fs' := s.view) (cls' := i.cls) (id' := keyId i.x) (by rw [v2.1 h, h4.2])]; exact h5.1
  · rw [loadPriv_congr (fs' := s.view) (cls' := i.cls) (id' := keyId i.x) (by rw [v1.1 h, h4.1])]; exact h5.2
  · rw [loadPubKey, loadKeyData, v2.2 h]; rfl
  · rw [loadPrivKey, loadKeyData, v1.2 h]; rfl


/-- /etc/passwd becomes an alias of the key. -/
example : loadPubKey (processKey trivialAead (exInput "../../passwd" true "passphrase") noFaults exTreeOut).2.1.view .node "../../passwd".toList =
    .ok 0xabcd := by
  obtain ⟨p, -, h, -⟩ := C139_alias_partial trivialAead (exInput "../../passwd" true "passphrase") noFaults exTreeOut (exInput_good _ _ _)
    (normalB_spec (by decide +kernel)) (freshB_spec (by decide +kernel)) (by decide +kernel) (by decide +kernel) (by decide +kernel)
  exact (h ⟨["etc".toList], by decide +kernel⟩).1

/-- C139 for every alias that does not mention the new identifier. -/
def UsableUnderAlias : Prop := ∀ (A : Aead) (i : PkInput) (f : PkFaults) (t : FsTree), GoodInput i → NormalTree t i.cls →
  FreshId t i.cls (keyId i.x) → keyId i.x ∉ splitPath i.aliasName → i.aliasName ≠ [] → (processKey A i f t).2.2 = .ok () →
  loadPubKey (processKey A i f t).2.1.view i.cls i.aliasName = .ok i.x

/-- A file system with a link to the directory it is in. -/
def exTreeHere : FsTree := ⟨[(["etc".toList], .dir), (["etc".toList, "poodle".toList], .dir), (etcNames .node, .dir),
  (placeOf .node "here".toList, .link ".".toList)]⟩

/-- An alias with a way of 40 links. -/
def longAlias : Path := (List.replicate 40 "here/".toList).flatten ++ "new".toList

/-- C139 is false even for aliases that do not mention the identifier: the run succeeds, but the alias is of no use if 40 links lead to its
place. -/
theorem C139_links_refuted : ¬ UsableUnderAlias := by
  intro h
  have := h trivialAead { exInput "" false "passphrase" with aliasName := longAlias } noFaults exTreeHere
    ⟨by decide +kernel, by decide +kernel, by decide +kernel, by decide +kernel⟩ (normalB_spec (by decide +kernel))
    (freshB_spec (by decide +kernel)) (by decide +kernel) (by decide +kernel) (by decide +kernel)
  exact absurd this (by decide +kernel)

end Poodle.Props
