import Verif.Model.PkeygenMain
import Verif.Props.Pkeygen

/-
Property C225: what a run of the key generator changes (/repo/src/main/pkeygen.go:45-123).
-/

namespace Poodle.Props
open Poodle Poodle.Spec

/-! ### C225 The key generator changes only what belongs to the key it makes -/

/-- A state of a run: the first one, one on the way, or the last one. -/
def MainPasses (A : Aead) (name : String) (i : PkInput) (f : PkFaults) (t s : FsTree) : Prop :=
  s = t ∨ s ∈ (pkeygenMain A name i f t).1 ∨ s = (pkeygenMain A name i f t).2.1

/-- The names of the classes, as in the usage of the program. -/
def ClassName : KeyClass → String
  | .node => "node"
  | .cluster => "cluster"
  | .universe => "universe"
  | .service => "service"
  | .federation => "federation"

/-- The full claim: whatever the alias, in every state of a run nothing outside the directory of the class differs from what it was, except
that directories around it were made. -/
def StaysInClass : Prop := ∀ (A : Aead) (i : PkInput) (f : PkFaults) (t s : FsTree) (cls : KeyClass) (r : List Path),
  GoodInput i → NormalTree t cls → FreshId t cls (keyId i.x) → MainPasses A (ClassName cls) i f t s → s.get r ≠ t.get r →
  etcNames cls <+: r ∨ (r <+: etcNames cls ∧ t.get r = none ∧ s.get r = some .dir)

/-- A file system with a file outside. -/
def exTreeOut : FsTree := ⟨(["etc".toList, "passwd".toList], .file [9]) :: exTree.entries⟩

/-- C225 is false: the alias "../../passwd" with -force replaces the file /etc/passwd by a link. -/
theorem C225_refuted : ¬ StaysInClass := by
  intro h
  have := h trivialAead (exInput "../../passwd" true "passphrase") noFaults exTreeOut _ .node ["etc".toList, "passwd".toList] (exInput_good _ _ _)
    (normalB_spec (by decide +kernel)) (freshB_spec (by decide +kernel)) (.inr (.inr rfl)) (by decide +kernel)
  exact absurd this (by decide +kernel)

/-- C225: a name that is none of the five classes ends the program with status 2 and changes nothing. -/
theorem C225_usage (A : Aead) (name : String) (i : PkInput) (f : PkFaults) (t : FsTree) :
    ((pkeygenMain A name i f t).2.2 = .two ↔ ∀ cls, name ≠ ClassName cls) ∧
    ((pkeygenMain A name i f t).2.2 = .two → ∀ s, MainPasses A name i f t s → s = t) := by
  have key : (∀ cls, name ≠ ClassName cls) ↔ pkClass name = none := by
    unfold pkClass
    constructor
    · intro h
      have h1 : name ≠ "node" := h .node
      have h2 : name ≠ "cluster" := h .cluster
      have h3 : name ≠ "universe" := h .universe
      have h4 : name ≠ "service" := h .service
      have h5 : name ≠ "federation" := h .federation
      rw [if_neg h1, if_neg h2, if_neg h3, if_neg h4, if_neg h5]
    · rintro h cls rfl
      cases cls <;> exact absurd h (by decide)
  rw [key]
  unfold MainPasses pkeygenMain
  cases hc : pkClass name with
  | none => simp
  | some cls =>
    simp only [reduceCtorEq, iff_false]
    rcases h : processKey A { i with cls := cls } f t with ⟨l, t', r⟩
    cases r <;> simp

theorem pkClass_name (cls : KeyClass) : pkClass (ClassName cls) = some cls := by cases cls <;> decide

theorem main_of_process (A : Aead) (i : PkInput) (f : PkFaults) (t : FsTree) (cls : KeyClass) :
    (pkeygenMain A (ClassName cls) i f t).1 = (processKey A { i with cls := cls } f t).1 ∧
    (pkeygenMain A (ClassName cls) i f t).2.1 = (processKey A { i with cls := cls } f t).2.1 ∧
    ((pkeygenMain A (ClassName cls) i f t).2.2 = .zero ↔ (processKey A { i with cls := cls } f t).2.2 = .ok ()) := by
  simp only [pkeygenMain, pkClass_name]
  rcases h : processKey A { i with cls := cls } f t with ⟨l, t', r⟩
  cases r <;> simp

example := C225_usage trivialAead "Node" (exInput "" false "passphrase") noFaults exTree

/-- What a run may leave at a place: the directories around the key and its own, made where there was nothing; the two files of the key,
complete or cut off; and the alias, as a link to the key or removed. -/
def Expected (A : Aead) (cls : KeyClass) (i : PkInput) (t s : FsTree) (r : List Path) : Prop :=
  (r ≠ [] ∧ r <+: placeOf cls (keyId i.x) ∧ t.get r = none ∧ s.get r = some .dir) ∨
  (∃ p k, GoodPass i p ∧ r = placeOf cls (keyId i.x) ++ [privName cls] ∧
    s.get r = some (.file ((privContent A (pkeygenSecret p) i.nonce i.d).take k))) ∨
  (∃ k, r = placeOf cls (keyId i.x) ++ [pubName cls] ∧ s.get r = some (.file ((pubContent i.x).take k))) ∨
  (i.aliasName ≠ [] ∧ r = placeOf cls i.aliasName ∧ (s.get r = some (aliasLink cls (keyId i.x)) ∨ (s.get r = none ∧ Consent i)))

theorem saveState_expected {A : Aead} {cls : KeyClass} {i : PkInput} {p : Bytes} {t s : FsTree} (hp : GoodPass i p)
    (h : SaveState cls (keyId i.x) (privContent A (pkeygenSecret p) i.nonce i.d) (pubContent i.x) t s) (r : List Path) (hr : s.get r ≠ t.get r) :
    Expected A cls i t s r := by
  rcases h with h | ⟨t1, k, h, -, rfl | rfl⟩
  · rcases h r with h | h
    · exact absurd h hr
    · exact .inl h
  · by_cases e : r = etcNames cls ++ [keyId i.x] ++ [privName cls]
    · subst e
      exact .inr (.inl ⟨p, k, hp, rfl, FsTree.get_set_self _ _ _⟩)
    · rw [FsTree.get_set_ne _ _ e] at hr
      rcases h r with h | ⟨h0, h1, h2, h3⟩
      · exact absurd h hr
      · exact .inl ⟨h0, h1, h2, by rw [FsTree.get_set_ne _ _ e]; exact h3⟩
  · by_cases e2 : r = etcNames cls ++ [keyId i.x] ++ [pubName cls]
    · subst e2
      exact .inr (.inr (.inl ⟨k, rfl, FsTree.get_set_self _ _ _⟩))
    by_cases e : r = etcNames cls ++ [keyId i.x] ++ [privName cls]
    · subst e
      refine .inr (.inl ⟨p, (privContent A (pkeygenSecret p) i.nonce i.d).length, hp, rfl, ?_⟩)
      rw [savedTree, FsTree.get_set_ne _ _ e2, FsTree.get_set_self, List.take_length]
    · rw [savedTree, FsTree.get_set_ne _ _ e2, FsTree.get_set_ne _ _ e] at hr
      rcases h r with h | ⟨h0, h1, h2, h3⟩
      · exact absurd h hr
      · exact .inl ⟨h0, h1, h2, by rw [savedTree, FsTree.get_set_ne _ _ e2, FsTree.get_set_ne _ _ e]; exact h3⟩

theorem expected_other {A : Aead} {cls : KeyClass} {i : PkInput} {t s s' : FsTree} {r : List Path} (h : Expected A cls i t s r)
    (e : s'.get r = s.get r) : Expected A cls i t s' r := by
  unfold Expected at *
  rw [e]
  exact h

theorem process_expected (A : Aead) (i : PkInput) (f : PkFaults) (t : FsTree) (hi : GoodInput i) (hn : NormalTree t i.cls)
    (hf : FreshId t i.cls (keyId i.x)) (ha : i.aliasName = [] ∨ SimpleName i.aliasName) (s : FsTree) (hs : Passes (processKey A i f) t s)
    (r : List Path) (hr : s.get r ≠ t.get r) : Expected A i.cls i t s r := by
  rcases hs with rfl | hs
  · exact absurd rfl hr
  rcases run_cases A i f t hi hn hf ha with ⟨h, -⟩ | ⟨p, hp, -, l, hl, h⟩
  · rw [h] at hs
    simp only [List.not_mem_nil, false_or] at hs
    subst hs; exact absurd rfl hr
  have hp := goodPass_of_prompt hp
  rcases h with ⟨s', r', h1, -, h2, -⟩ | ⟨t1, g1, g2, h⟩
  · rw [h1] at hs
    rcases hs with hs | rfl
    · exact saveState_expected hp (hl s hs) r hr
    · exact saveState_expected hp h2 r hr
  have hu : SaveState i.cls (keyId i.x) (privContent A (pkeygenSecret p) i.nonce i.d) (pubContent i.x) t
      (savedTree i.cls (keyId i.x) (privContent A (pkeygenSecret p) i.nonce i.d) (pubContent i.x) t1) :=
    .inr ⟨t1, (pubContent i.x).length, g1, g2, .inr (by rw [List.take_length])⟩
  rcases h with ⟨h0, h⟩ | ⟨h0, hne, hq, ⟨o1, o2, o3, o4, -, h⟩ | ⟨o1, o2, o3, o4, -, h⟩ | ⟨o1, o2, h⟩⟩
  · rw [h] at hs
    rcases hs with hs | rfl
    · exact saveState_expected hp (hl s hs) r hr
    · exact saveState_expected hp hu r hr
  all_goals
    rw [h] at hs
    simp only [List.mem_append, List.mem_cons, List.not_mem_nil, or_false] at hs
    by_cases e : r = etcNames i.cls ++ [i.aliasName]
  · subst e
    rw [or_assoc, or_assoc, or_self] at hs
    rcases hs with hs | rfl | rfl
    · exact saveState_expected hp (hl s hs) _ hr
    · exact .inr (.inr (.inr ⟨h0, rfl, .inr ⟨FsTree.get_erase_self _ _, o2⟩⟩))
    · exact .inr (.inr (.inr ⟨h0, rfl, .inl (FsTree.get_set_self _ _ _)⟩))
  · rw [or_assoc, or_assoc, or_self] at hs
    rcases hs with hs | rfl | rfl
    · exact saveState_expected hp (hl s hs) _ hr
    · rw [FsTree.get_erase_ne _ e] at hr
      exact expected_other (saveState_expected hp hu r hr) (FsTree.get_erase_ne _ e)
    · rw [FsTree.get_set_ne _ _ e, FsTree.get_erase_ne _ e] at hr
      exact expected_other (saveState_expected hp hu r hr) (by rw [FsTree.get_set_ne _ _ e, FsTree.get_erase_ne _ e])
  · subst e
    rw [or_assoc, or_self] at hs
    rcases hs with hs | rfl
    · exact saveState_expected hp (hl s hs) _ hr
    · exact .inr (.inr (.inr ⟨h0, rfl, .inr ⟨FsTree.get_erase_self _ _, o2⟩⟩))
  · rw [or_assoc, or_self] at hs
    rcases hs with hs | rfl
    · exact saveState_expected hp (hl s hs) _ hr
    · rw [FsTree.get_erase_ne _ e] at hr
      exact expected_other (saveState_expected hp hu r hr) (FsTree.get_erase_ne _ e)
  · subst e
    rw [or_assoc, or_self] at hs
    rcases hs with hs | rfl
    · exact saveState_expected hp (hl s hs) _ hr
    · exact .inr (.inr (.inr ⟨h0, rfl, .inl (FsTree.get_set_self _ _ _)⟩))
  · rw [or_assoc, or_self] at hs
    rcases hs with hs | rfl
    · exact saveState_expected hp (hl s hs) _ hr
    · rw [FsTree.get_set_ne _ _ e] at hr
      exact expected_other (saveState_expected hp hu r hr) (FsTree.get_set_ne _ _ e)

/-- C225: with no alias, or an alias that is a single name, in every state of every run of the program with the name of a class - stopped
anywhere, with any fault - every place that differs from what it was is one of the key that is made, with what is to be there: the
directories that were missing, the two files, complete or cut off, and the alias. -/
theorem C225_places_partial (A : Aead) (i : PkInput) (f : PkFaults) (t : FsTree) (cls : KeyClass) (hi : GoodInput i) (hn : NormalTree t cls)
    (hf : FreshId t cls (keyId i.x)) (ha : i.aliasName = [] ∨ SimpleName i.aliasName) (s : FsTree) (hs : MainPasses A (ClassName cls) i f t s)
    (r : List Path) (hr : s.get r ≠ t.get r) : Expected A cls i t s r := by
  obtain ⟨e1, e2, -⟩ := main_of_process A i f t cls
  have hs' : Passes (processKey A { i with cls := cls } f) t s := by
    unfold MainPasses at hs
    rw [e1, e2] at hs
    exact hs
  exact process_expected A { i with cls := cls } f t ⟨hi.x0, hi.x1, hi.d1, hi.nonce⟩ hn hf ha s hs' r hr

/-- C225: so it stays in the directory of the class. -/
theorem C225_stays_partial (A : Aead) (i : PkInput) (f : PkFaults) (t : FsTree) (cls : KeyClass) (hi : GoodInput i) (hn : NormalTree t cls)
    (hf : FreshId t cls (keyId i.x)) (ha : i.aliasName = [] ∨ SimpleName i.aliasName) (s : FsTree) (hs : MainPasses A (ClassName cls) i f t s)
    (r : List Path) (hr : s.get r ≠ t.get r) : etcNames cls <+: r ∨ (r <+: etcNames cls ∧ t.get r = none ∧ s.get r = some .dir) := by
  rcases C225_places_partial A i f t cls hi hn hf ha s hs r hr with ⟨-, h1, h2, h3⟩ | ⟨_, _, -, rfl, -⟩ | ⟨_, rfl, -⟩ | ⟨-, rfl, -⟩
  · rcases List.prefix_concat_iff.mp h1 with rfl | h
    · exact .inl (List.prefix_append _ _)
    · exact .inr ⟨h, h2, h3⟩
  · exact .inl (by simp [placeOf])
  · exact .inl (by simp [placeOf])
  · exact .inl (List.prefix_append _ _)

/-- C225: if the program ends with status 0, both keys load under the class that was named, by identifier and alias. -/
theorem C225_usable_partial (A : Aead) (i : PkInput) (f : PkFaults) (t : FsTree) (cls : KeyClass) (hi : GoodInput i) (hn : NormalTree t cls)
    (hf : FreshId t cls (keyId i.x)) (ha : i.aliasName = [] ∨ SimpleName i.aliasName) (hok : (pkeygenMain A (ClassName cls) i f t).2.2 = .zero) :
    ∃ p, GoodPass i p ∧ ∀ n, n = keyId i.x ∨ (n = i.aliasName ∧ i.aliasName ≠ []) →
      loadPubKey (pkeygenMain A (ClassName cls) i f t).2.1.view cls n = .ok i.x ∧
      loadPrivKey A (pkeygenMain A (ClassName cls) i f t).2.1.view cls n (pkeygenSecret p) = .ok i.d := by
  obtain ⟨-, e2, e3⟩ := main_of_process A i f t cls
  rw [e2]
  exact C139_usable_partial A { i with cls := cls } f t ⟨hi.x0, hi.x1, hi.d1, hi.nonce⟩ hn hf ha (e3.mp hok)

example := C225_places_partial trivialAead (exInput "main" true "passphrase") noFaults exTree .node (exInput_good _ _ _) exTree_normal exTree_fresh
  (.inr (simple_of _ (by decide +kernel))) _ (.inr (.inr rfl)) (placeOf .node "main".toList) (by decide +kernel)
example := C225_stays_partial trivialAead (exInput "main" true "passphrase") noFaults exTree .node (exInput_good _ _ _) exTree_normal exTree_fresh
  (.inr (simple_of _ (by decide +kernel))) _ (.inr (.inr rfl)) (placeOf .node "main".toList) (by decide +kernel)
example := C225_usable_partial trivialAead (exInput "main" true "passphrase") noFaults exTree .node (exInput_good _ _ _) exTree_normal exTree_fresh
  (.inr (simple_of _ (by decide +kernel))) (by decide +kernel)

end Poodle.Props
