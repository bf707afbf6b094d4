import Verif.Lemmas.PkeygenRun

/-
Properties C139-C145: the key generator (/repo/src/main/pkeygen.go) on a file system with directories and symbolic links, and the
functions of /repo/src/util/lc_util.go that ask for a passphrase.
-/

namespace Poodle.Props
open Poodle.Spec

/-! ### Checking the hypotheses on concrete file systems -/

/-- Decides `NormalTree`. -/
def normalB (t : FsTree) (cls : KeyClass) : Bool :=
  (t.entries.all fun e => decide (e.1.dropLast = [] ∨ t.get e.1.dropLast = some .dir)) &&
  ([1, 2, 3].all fun k => decide (t.get ((etcNames cls).take k) = none ∨ t.get ((etcNames cls).take k) = some .dir))

/-- Decides `FreshId`. -/
def freshB (t : FsTree) (cls : KeyClass) (id : Path) : Bool :=
  (t.entries.all fun e => ! (etcNames cls ++ [id]).isPrefixOf e.1) &&
  t.entries.all fun e => match e.2 with
    | .link l => decide (id ∉ splitPath l)
    | _ => true

theorem normalB_spec {t : FsTree} {cls : KeyClass} (h : normalB t cls = true) : NormalTree t cls := by
  simp only [normalB, Bool.and_eq_true, List.all_eq_true, decide_eq_true_eq] at h
  refine ⟨?_, ?_⟩
  · intro p n hg
    obtain ⟨e, he, h1⟩ := (FsTree.get_ne_none t _).mp hg
    have := h.1 e he
    rwa [h1, List.dropLast_concat] at this
  · intro q h0 hq
    have hl := hq.length_le
    rw [etcNames_length] at hl
    have : q = (etcNames cls).take q.length := List.prefix_iff_eq_take.mp hq
    have hpos : 0 < q.length := List.length_pos_iff.mpr h0
    have h3 : q.length ∈ [1, 2, 3] := by
      simp only [List.mem_cons, List.not_mem_nil, or_false]; omega
    have := h.2 q.length h3
    rwa [← List.prefix_iff_eq_take.mp hq] at this

theorem freshB_spec {t : FsTree} {cls : KeyClass} {id : Path} (h : freshB t cls id = true) : FreshId t cls id := by
  simp only [freshB, Bool.and_eq_true, List.all_eq_true, Bool.not_eq_true'] at h
  refine ⟨?_, ?_⟩
  · intro p
    by_contra hg
    obtain ⟨e, he, h1⟩ := (FsTree.get_ne_none t _).mp hg
    have := h.1 e he
    rw [h1] at this
    have h2 : (etcNames cls ++ [id]).isPrefixOf (etcNames cls ++ id :: p) = true := by
      rw [List.isPrefixOf_iff_prefix]
      exact ⟨p, by simp⟩
    rw [this] at h2
    simp at h2
  · intro p l hg
    rw [FsTree.get, Option.map_eq_some_iff] at hg
    obtain ⟨e, he, h1⟩ := hg
    have := h.2 e (List.mem_of_find?_eq_some he)
    rw [h1] at this
    simpa using this

/-! ### Aliases -/

theorem view_alias {t : FsTree} {cls : KeyClass} {a id : Path} {c1 c2 : Bytes} (ha : SimpleName a) (hid : SimpleName id) (h : Stored t cls id c1 c2)
    (hl : t.get (placeOf cls a) = some (aliasLink cls id)) :
    t.view (privKeyPath cls a) = some c1 ∧ t.view (pubKeyPath cls a) = some c2 := by
  have hE : t.AllDirs (etcNames cls) := FsTree.AllDirs.prefix h.dirs (List.prefix_append _ _)
  have key : ∀ n, Proper n → ∀ p, splitPath p = [] :: (etcNames cls ++ [a] ++ [n]) → ∀ c,
      t.get (etcNames cls ++ [id] ++ [n]) = some (.file c) → t.view p = some c := by
    intro n hn p hp c hc
    have hw : t.walk [] ([] :: (etcNames cls ++ [a] ++ [n])) = .link (etcNames cls) (etcDir cls ++ "/".toList ++ id) [n] := by
      rw [FsTree.walk_skip, List.append_assoc, FsTree.walk_dirs t _ (proper_etc cls) [] _ (by simpa using hE)]
      simp only [List.nil_append, List.cons_append]
      rw [FsTree.walk_proper _ _ _ ha.1]
      rw [placeOf, aliasLink] at hl
      rw [hl]
    have hh : (etcDir cls ++ "/".toList ++ id).head? = some '/' := by cases cls <;> rfl
    rw [FsTree.view, FsTree.stat, hp, show (40 : Nat) = 39 + 1 from rfl, FsTree.resolve, hw]
    simp only
    rw [if_pos hh, splitPath_etc cls id hid.2, List.cons_append, FsTree.resolve_last t 39 _ (proper_key hid) h.dirs n hn, hc]
  exact ⟨key _ (proper_priv cls) _ (splitPath_priv cls a ha.2) _ h.priv, key _ (proper_pub cls) _ (splitPath_pub cls a ha.2) _ h.pub⟩

theorem loadPub_congr {fs fs' : FS} {cls cls' : KeyClass} {id id' : Path} (h : fs (pubKeyPath cls id) = fs' (pubKeyPath cls' id')) :
    loadPubKey fs cls id = loadPubKey fs' cls' id' := by
  rw [loadPubKey, loadPubKey, loadKeyData, loadKeyData, h]

theorem loadPriv_congr {A : Aead} {fs fs' : FS} {cls cls' : KeyClass} {id id' : Path} {secret : Bytes} (h : fs (privKeyPath cls id) = fs' (privKeyPath cls' id')) :
    loadPrivKey A fs cls id secret = loadPrivKey A fs' cls' id' secret := by
  rw [loadPrivKey, loadPrivKey, loadKeyData, loadKeyData, h]

/-- A key pair that is stored stays so if other places change. -/
theorem stored_frame {s t : FsTree} {cls : KeyClass} {id : Path} {c1 c2 : Bytes} (h : Stored t cls id c1 c2)
    (hg : ∀ r, t.get r ≠ none → r <+: etcNames cls ++ [id] ∨ etcNames cls ++ [id] <+: r → s.get r = t.get r) : Stored s cls id c1 c2 := by
  refine ⟨fun q h0 hq => ?_, ?_, ?_⟩
  · rw [hg q (by rw [h.dirs q h0 hq]; simp) (.inl hq)]; exact h.dirs q h0 hq
  · rw [hg _ (by rw [h.priv]; simp) (.inr (List.prefix_append _ _))]; exact h.priv
  · rw [hg _ (by rw [h.pub]; simp) (.inr (List.prefix_append _ _))]; exact h.pub

theorem goodPass_of_prompt {i : PkInput} {p : Bytes} (h : promptPassphrase true i.pass1 i.pass2 = .ok p) : GoodPass i p := by
  rw [promptPassphrase.eq_def] at h
  rcases h1 : i.pass1 with - | a
  · rw [h1] at h; simp at h
  · rw [h1] at h
    simp only [if_true] at h
    split_ifs at h with h8
    rcases h2 : i.pass2 with - | b
    · rw [h2] at h; simp at h
    · rw [h2] at h
      simp only at h
      split_ifs at h with hab
      · cases h
        exact ⟨h1, by rw [h2, hab], by omega⟩

theorem prompt_of_goodPass {i : PkInput} {p : Bytes} (h : GoodPass i p) : promptPassphrase true i.pass1 i.pass2 = .ok p := by
  obtain ⟨h1, h2, h3⟩ := h
  rw [promptPassphrase.eq_def, h1, h2]
  simp only [if_true]
  rw [if_neg (by omega)]

/-- The stored key pair survives making the alias. -/
theorem stored_alias {u s : FsTree} {cls : KeyClass} {a id : Path} {c1 c2 : Bytes} (h : Stored u cls id c1 c2) (hne : a ≠ id)
    (hs : ∀ r, r ≠ etcNames cls ++ [a] → s.get r = u.get r) : Stored s cls id c1 c2 := by
  apply stored_frame h
  intro r _ hr
  apply hs
  rintro rfl
  rcases hr with hr | hr
  · have := List.IsPrefix.eq_of_length hr (by simp)
    have := (List.append_inj' this rfl).2
    simp only [List.cons.injEq, and_true] at this
    exact hne this
  · exact not_prefix_alias (E := etcNames cls) hne [] (by simpa using hr)

/-! ### C139 A generated key is usable under its identifier and its alias -/

/-- C139: if the key generator succeeds, the passphrase was typed in twice, and with the secret made from it both keys load under the
identifier, and under the alias if one was asked for, with the numbers that were generated. -/
theorem C139_usable_partial (A : Aead) (i : PkInput) (f : PkFaults) (t : FsTree) (hi : GoodInput i) (hn : NormalTree t i.cls)
    (hf : FreshId t i.cls (keyId i.x)) (ha : i.aliasName = [] ∨ SimpleName i.aliasName) (hok : (processKey A i f t).2.2 = .ok ()) :
    ∃ p, GoodPass i p ∧ ∀ n, n = keyId i.x ∨ (n = i.aliasName ∧ i.aliasName ≠ []) →
      loadPubKey (processKey A i f t).2.1.view i.cls n = .ok i.x ∧
      loadPrivKey A (processKey A i f t).2.1.view i.cls n (pkeygenSecret p) = .ok i.d := by
  have hid := keyId_simple hi.x0
  rcases run_cases A i f t hi hn hf ha with ⟨h, -⟩ | ⟨p, hp, -, l, -, h⟩
  · rw [h] at hok; simp at hok
  refine ⟨p, goodPass_of_prompt hp, ?_⟩
  have fin : ∀ s : FsTree, Stored s i.cls (keyId i.x) (privContent A (pkeygenSecret p) i.nonce i.d) (pubContent i.x) →
      (i.aliasName ≠ [] → s.get (placeOf i.cls i.aliasName) = some (aliasLink i.cls (keyId i.x))) → ∀ n, n = keyId i.x ∨ (n = i.aliasName ∧ i.aliasName ≠ []) →
      loadPubKey s.view i.cls n = .ok i.x ∧ loadPrivKey A s.view i.cls n (pkeygenSecret p) = .ok i.d := by
    rintro s h1 h2 n (rfl | ⟨rfl, h0⟩)
    · exact loads_of_stored hid hi.x1 hi.d1 hi.nonce (pkeygenSecret_ok p) h1
    · have h3 := view_alias (ha.resolve_left h0) hid h1 (h2 h0)
      have h4 := view_stored hid h1
      have h5 := loads_of_stored hid hi.x1 hi.d1 hi.nonce (pkeygenSecret_ok p) h1
      constructor
      · rw [loadPub_congr (fs' := s.view) (cls' := i.cls) (id' := keyId i.x) (by rw [h3.2, h4.2])]; exact h5.1
      · rw [loadPriv_congr (fs' := s.view) (cls' := i.cls) (id' := keyId i.x) (by rw [h3.1, h4.1])]; exact h5.2
  rcases h with ⟨s, r, h1, h2, -⟩ | ⟨t1, -, g2, h⟩
  · rw [h1] at hok; exact absurd hok h2
  have hst := saved_stored (c1 := privContent A (pkeygenSecret p) i.nonce i.d) (c2 := pubContent i.x) g2
  rcases h with ⟨h0, h⟩ | ⟨h0, hne, -, ⟨-, -, -, -, -, h⟩ | ⟨-, -, -, -, -, h⟩ | ⟨-, -, h⟩⟩
  · rw [h]
    exact fin _ hst (fun hc => absurd h0 hc)
  · rw [h]
    refine fin _ (stored_alias hst hne fun r hr => ?_) (fun _ => FsTree.get_set_self _ _ _)
    rw [FsTree.get_set_ne _ _ hr, FsTree.get_erase_ne _ hr]
  · rw [h] at hok; simp at hok
  · rw [h]
    refine fin _ (stored_alias hst hne fun r hr => ?_) (fun _ => FsTree.get_set_self _ _ _)
    rw [FsTree.get_set_ne _ _ hr]

/-- A file system with a key pair, an alias for it, and an alias that leads nowhere. -/
def exTree : FsTree := ⟨[(["etc".toList], .dir), (["etc".toList, "poodle".toList], .dir), (placeOf .node "aa".toList, .dir), (etcNames .node, .dir),
  (placeOf .node "aa".toList ++ ["node_id".toList], .file [1, 2]), (placeOf .node "aa".toList ++ ["node_id.pub".toList], .file [3]),
  (placeOf .node "main".toList, aliasLink .node "aa".toList), (placeOf .node "lost".toList, aliasLink .node "gone".toList)]⟩

/-- A run of the key generator. -/
def exInput (a : String) (force : Bool) (pass : String) : PkInput :=
  ⟨.node, a.toList, force, [], some (pass.toList.map fun c => UInt8.ofNat c.toNat), some (pass.toList.map fun c => UInt8.ofNat c.toNat), 0xabcd, 77,
    List.replicate 12 5⟩

theorem exTree_normal : NormalTree exTree .node := normalB_spec (by decide +kernel)

theorem exTree_fresh : FreshId exTree .node (keyId 0xabcd) := freshB_spec (by decide +kernel)

theorem exInput_good (a : String) (b : Bool) (p : String) : GoodInput (exInput a b p) := by
  constructor <;> simp [exInput]

theorem exTree_stored : Stored exTree .node "aa".toList [1, 2] [3] := by
  refine ⟨?_, by decide +kernel, by decide +kernel⟩
  intro q h0 hq
  have : q = (etcNames .node ++ ["aa".toList]).take q.length := List.prefix_iff_eq_take.mp hq
  have hl := hq.length_le
  have hpos : 0 < q.length := List.length_pos_iff.mpr h0
  have h4 : ∀ k : Fin 5, 0 < k.val → exTree.get ((etcNames .node ++ ["aa".toList]).take k.val) = some .dir := by decide +kernel
  rw [this]
  exact h4 ⟨q.length, by simp [etcNames_length] at hl; omega⟩ hpos

theorem simple_of (s : Path) (h : decide (s ≠ [] ∧ s ≠ ['.'] ∧ s ≠ ['.', '.'] ∧ '/' ∉ s) = true) : SimpleName s := by
  simp only [decide_eq_true_eq] at h
  exact ⟨⟨h.1, h.2.1, h.2.2.1⟩, h.2.2.2⟩

example : SimpleName (exInput "main" true "passphrase").aliasName ∧
    (processKey trivialAead (exInput "main" true "passphrase") noFaults exTree).2.2 = .ok () ∧
    keyId (exInput "main" true "passphrase").x = "abcd".toList :=
  ⟨simple_of _ (by decide +kernel), by decide +kernel, by decide +kernel⟩

/-! ### C140 Existing keys survive a run -/

/-- All states of a run, place by place. -/
theorem passes_get (A : Aead) (i : PkInput) (f : PkFaults) (t : FsTree) (hi : GoodInput i) (hn : NormalTree t i.cls)
    (hf : FreshId t i.cls (keyId i.x)) (ha : i.aliasName = [] ∨ SimpleName i.aliasName) (s : FsTree) (hs : Passes (processKey A i f) t s) :
    (∀ r, ¬ placeOf i.cls (keyId i.x) <+: r → (r ≠ placeOf i.cls i.aliasName) → t.get r ≠ none → s.get r = t.get r) ∧
    (i.aliasName ≠ [] → i.aliasName ≠ keyId i.x → s.get (placeOf i.cls i.aliasName) = t.get (placeOf i.cls i.aliasName) ∨
      (t.get (placeOf i.cls i.aliasName) = none ∧ s.get (placeOf i.cls i.aliasName) = some (aliasLink i.cls (keyId i.x))) ∨
      (SeenToExist t i.cls i.aliasName ∧ Consent i ∧ ¬ (t.get (placeOf i.cls i.aliasName) = some .dir ∧ t.hasChild (placeOf i.cls i.aliasName) = true) ∧
        (s.get (placeOf i.cls i.aliasName) = none ∨ s.get (placeOf i.cls i.aliasName) = some (aliasLink i.cls (keyId i.x))))) ∧
    (i.aliasName = [] → ∀ r, ¬ placeOf i.cls (keyId i.x) <+: r → t.get r ≠ none → s.get r = t.get r) := by
  have save : ∀ c1 c2 s, SaveState i.cls (keyId i.x) c1 c2 t s → ∀ r, ¬ placeOf i.cls (keyId i.x) <+: r → t.get r ≠ none → s.get r = t.get r := by
    intro c1 c2 s h r hr h0
    rcases saveState_get h r hr with h | ⟨-, -, h, -⟩
    · exact h
    · exact absurd h h0
  have save0 : ∀ c1 c2 s, SaveState i.cls (keyId i.x) c1 c2 t s → i.aliasName ≠ keyId i.x →
      s.get (placeOf i.cls i.aliasName) = t.get (placeOf i.cls i.aliasName) := by
    intro c1 c2 s h hne
    rcases saveState_get h (placeOf i.cls i.aliasName) (fun hp => not_prefix_alias (E := etcNames i.cls) hne [] (by simpa [placeOf] using hp)) with h | ⟨-, h, -, -⟩
    · exact h
    · exact absurd h not_prefix_longer
  have sv : ∀ c1 c2, SaveState i.cls (keyId i.x) c1 c2 t s → _ := fun c1 c2 h =>
    (⟨fun r h1 _ h2 => save c1 c2 s h r h1 h2, fun _ hne => .inl (save0 c1 c2 s h hne), fun _ r h1 h2 => save c1 c2 s h r h1 h2⟩ :
      (∀ r, ¬ placeOf i.cls (keyId i.x) <+: r → (r ≠ placeOf i.cls i.aliasName) → t.get r ≠ none → s.get r = t.get r) ∧
      (i.aliasName ≠ [] → i.aliasName ≠ keyId i.x → s.get (placeOf i.cls i.aliasName) = t.get (placeOf i.cls i.aliasName) ∨
        (t.get (placeOf i.cls i.aliasName) = none ∧ s.get (placeOf i.cls i.aliasName) = some (aliasLink i.cls (keyId i.x))) ∨
        (SeenToExist t i.cls i.aliasName ∧ Consent i ∧ ¬ (t.get (placeOf i.cls i.aliasName) = some .dir ∧ t.hasChild (placeOf i.cls i.aliasName) = true) ∧
          (s.get (placeOf i.cls i.aliasName) = none ∨ s.get (placeOf i.cls i.aliasName) = some (aliasLink i.cls (keyId i.x))))) ∧
      (i.aliasName = [] → ∀ r, ¬ placeOf i.cls (keyId i.x) <+: r → t.get r ≠ none → s.get r = t.get r))
  have st : SaveState i.cls (keyId i.x) [] [] t t := .inl (FsTree.Grow.refl _ _)
  rcases hs with rfl | hs
  · exact sv _ _ st
  rcases run_cases A i f t hi hn hf ha with ⟨h, -⟩ | ⟨p, hp, -, l, hl, h⟩
  · rw [h] at hs
    simp only [List.not_mem_nil, false_or] at hs
    subst hs; exact sv _ _ st
  rcases h with ⟨s', r, h1, -, h2, -⟩ | ⟨t1, g1, g2, h⟩
  · rw [h1] at hs
    rcases hs with hs | rfl
    · exact sv _ _ (hl s hs)
    · exact sv _ _ h2
  have hu : SaveState i.cls (keyId i.x) (privContent A (pkeygenSecret p) i.nonce i.d) (pubContent i.x) t
      (savedTree i.cls (keyId i.x) (privContent A (pkeygenSecret p) i.nonce i.d) (pubContent i.x) t1) :=
    .inr ⟨t1, (pubContent i.x).length, g1, g2, .inr (by rw [List.take_length])⟩
  rcases h with ⟨h0, h⟩ | ⟨h0, hne, hq, ⟨o1, o2, o3, o4, -, h⟩ | ⟨o1, o2, o3, o4, -, h⟩ | ⟨o1, o2, h⟩⟩
  · rw [h] at hs
    rcases hs with hs | rfl
    · exact sv _ _ (hl s hs)
    · exact sv _ _ hu
  · rw [h] at hs
    simp only [List.mem_append, List.mem_cons, List.not_mem_nil, or_false] at hs
    rw [or_assoc, or_assoc, or_self] at hs
    rcases hs with hs | rfl | rfl
    · exact sv _ _ (hl s hs)
    · refine ⟨fun r h1 h2 h3 => ?_, fun _ _ => .inr (.inr ⟨o1, o2, o4, .inl (FsTree.get_erase_self _ _)⟩), fun hc => absurd hc h0⟩
      rw [placeOf] at h2
      rw [FsTree.get_erase_ne _ h2]; exact save _ _ _ hu r h1 h3
    · refine ⟨fun r h1 h2 h3 => ?_, fun _ _ => .inr (.inr ⟨o1, o2, o4, .inr (FsTree.get_set_self _ _ _)⟩), fun hc => absurd hc h0⟩
      rw [placeOf] at h2
      rw [FsTree.get_set_ne _ _ h2, FsTree.get_erase_ne _ h2]; exact save _ _ _ hu r h1 h3
  · rw [h] at hs
    simp only [List.mem_append, List.mem_cons, List.not_mem_nil, or_false] at hs
    rw [or_assoc, or_self] at hs
    rcases hs with hs | rfl
    · exact sv _ _ (hl s hs)
    · refine ⟨fun r h1 h2 h3 => ?_, fun _ _ => .inr (.inr ⟨o1, o2, o4, .inl (FsTree.get_erase_self _ _)⟩), fun hc => absurd hc h0⟩
      rw [placeOf] at h2
      rw [FsTree.get_erase_ne _ h2]; exact save _ _ _ hu r h1 h3
  · rw [h] at hs
    simp only [List.mem_append, List.mem_cons, List.not_mem_nil, or_false] at hs
    rw [or_assoc, or_self] at hs
    rcases hs with hs | rfl
    · exact sv _ _ (hl s hs)
    · refine ⟨fun r h1 h2 h3 => ?_, fun _ _ => .inr (.inl ⟨o2, FsTree.get_set_self _ _ _⟩), fun hc => absurd hc h0⟩
      rw [placeOf] at h2
      rw [FsTree.get_set_ne _ _ h2]; exact save _ _ _ hu r h1 h3

/-- C140, full claim: a key pair that is stored stays so during and after a run, whatever the alias. -/
def KeysSurvive : Prop := ∀ (A : Aead) (i : PkInput) (f : PkFaults) (t s : FsTree) (cls : KeyClass) (id : Path) (c1 c2 : Bytes),
  GoodInput i → NormalTree t i.cls → FreshId t i.cls (keyId i.x) → SimpleName id → Stored t cls id c1 c2 → Passes (processKey A i f) t s →
  Stored s cls id c1 c2

/-- C140 is false: the alias "aa/node_id" with -force replaces the private key of "aa". -/
theorem C140_refuted : ¬ KeysSurvive := by
  intro h
  have := (h trivialAead (exInput "aa/node_id" true "passphrase") noFaults exTree _ .node "aa".toList [1, 2] [3] (exInput_good _ _ _)
    exTree_normal exTree_fresh (simple_of _ (by decide +kernel)) exTree_stored (.inr (.inr rfl))).priv
  exact absurd this (by decide +kernel)

/-- C140: with no alias, or an alias that is a single name, in every state of every run - stopped anywhere, with any fault - every key
pair that was stored is still stored and loads as before, and so it does under every other alias that it has. -/
theorem C140_survive_partial (A : Aead) (i : PkInput) (f : PkFaults) (t : FsTree) (hi : GoodInput i) (hn : NormalTree t i.cls)
    (hf : FreshId t i.cls (keyId i.x)) (ha : i.aliasName = [] ∨ SimpleName i.aliasName) (s : FsTree) (hs : Passes (processKey A i f) t s)
    (cls : KeyClass) (id : Path) (c1 c2 : Bytes) (hid : SimpleName id) (hst : Stored t cls id c1 c2) :
    Stored s cls id c1 c2 ∧ ∀ n, n = id ∨ (SimpleName n ∧ t.get (placeOf cls n) = some (aliasLink cls id) ∧ ¬ (cls = i.cls ∧ n = i.aliasName)) →
      loadPubKey s.view cls n = loadPubKey t.view cls n ∧ ∀ secret, loadPrivKey A s.view cls n secret = loadPrivKey A t.view cls n secret := by
  obtain ⟨g1, g2, g3⟩ := passes_get A i f t hi hn hf ha s hs
  -- the places of an entry that exists do not lie under the new identifier
  have hunder : ∀ r, t.get r ≠ none → ¬ placeOf i.cls (keyId i.x) <+: r := by
    rintro r h0 ⟨p, rfl⟩
    apply h0
    have := hf.empty p
    simpa [placeOf] using this
  have hplace : ∀ c n, placeOf c n = placeOf i.cls i.aliasName → c = i.cls ∧ n = i.aliasName := by
    intro c n h
    have := List.append_inj' h rfl
    simp only [List.cons.injEq, and_true] at this
    exact ⟨etcNames_injective this.1, this.2⟩
  have hgood : ∀ r, t.get r ≠ none → r <+: etcNames cls ++ [id] ∨ etcNames cls ++ [id] <+: r → s.get r = t.get r := by
    intro r h0 hr
    by_cases hq : r = placeOf i.cls i.aliasName
    · by_cases he : i.aliasName = []
      · exact g3 he r (hunder r h0) h0
      have heq : r = placeOf cls id := by
        rcases hr with hr | hr
        · exact List.IsPrefix.eq_of_length hr (by rw [hq]; simp [placeOf, etcNames_length])
        · exact (List.IsPrefix.eq_of_length hr (by rw [hq]; simp [placeOf, etcNames_length])).symm
      have hne : i.aliasName ≠ keyId i.x := by
        intro h
        apply hunder r h0
        rw [hq, h]
      have hdir : t.get r = some .dir := by rw [heq]; exact hst.dirs _ (by simp [placeOf]) List.prefix_rfl
      have hch : t.hasChild r = true := by
        rw [FsTree.hasChild_iff]
        exact ⟨privName cls, by rw [heq]; have := hst.priv; rw [placeOf, this]; simp⟩
      rw [hq] at hdir hch ⊢
      rcases g2 he hne with h | ⟨h, -⟩ | ⟨-, -, h, -⟩
      · exact h
      · rw [hdir] at h; simp at h
      · exact absurd ⟨hdir, hch⟩ h
    · exact g1 r (hunder r h0) hq h0
  have hst' : Stored s cls id c1 c2 := stored_frame hst hgood
  refine ⟨hst', ?_⟩
  rintro n (rfl | ⟨hn', hl, hne⟩)
  · have h1 := view_stored hid hst
    have h2 := view_stored hid hst'
    exact ⟨loadPub_congr (by rw [h1.2, h2.2]), fun _ => loadPriv_congr (by rw [h1.1, h2.1])⟩
  · have hl' : s.get (placeOf cls n) = some (aliasLink cls id) := by
      rw [g1 (placeOf cls n) (hunder _ (by rw [hl]; simp)) (fun h => hne (hplace _ _ h)) (by rw [hl]; simp), hl]
    have h1 := view_alias hn' hid hst hl
    have h2 := view_alias hn' hid hst' hl'
    exact ⟨loadPub_congr (by rw [h1.2, h2.2]), fun _ => loadPriv_congr (by rw [h1.1, h2.1])⟩

example : NormalTree exTree .node ∧ FreshId exTree .node (keyId 0xabcd) ∧ Stored exTree .node "aa".toList [1, 2] [3] ∧
    exTree.get (placeOf .node "main".toList) = some (aliasLink .node "aa".toList) ∧ SimpleName "aa".toList ∧
    (processKey trivialAead (exInput "aa" true "passphrase") noFaults exTree).2.2 = .err ∧
    5 < (processKey trivialAead (exInput "main" true "passphrase") noFaults exTree).1.length :=
  ⟨exTree_normal, exTree_fresh, exTree_stored, by decide +kernel, simple_of _ (by decide +kernel), by decide +kernel, by decide +kernel⟩

/-! ### C141 An alias is not replaced without consent -/

/-- C141: without -force and without the answer y or Y, what is in the place of the alias stays there in every state of the run; and if the
alias is seen to exist, the run fails and changes nothing. -/
theorem C141_consent_partial (A : Aead) (i : PkInput) (f : PkFaults) (t : FsTree) (hi : GoodInput i) (hn : NormalTree t i.cls)
    (hf : FreshId t i.cls (keyId i.x)) (ha : SimpleName i.aliasName) (hno : ¬ Consent i) :
    (SeenToExist t i.cls i.aliasName → processKey A i f t = ([], t, .err)) ∧
    ∀ s, Passes (processKey A i f) t s → t.get (placeOf i.cls i.aliasName) ≠ none → s.get (placeOf i.cls i.aliasName) = t.get (placeOf i.cls i.aliasName) := by
  constructor
  · intro hex
    rcases run_cases A i f t hi hn hf (.inr ha) with ⟨h, -⟩ | ⟨p, -, h | h | h, -⟩
    · exact h
    · exact absurd h ha.1.1
    · exact absurd hex h
    · exact absurd h hno
  · intro s hs h0
    have hne : i.aliasName ≠ keyId i.x := by
      intro h
      apply h0
      have := hf.empty []
      rw [placeOf, h]
      simpa using this
    rcases (passes_get A i f t hi hn hf (.inr ha) s hs).2.1 ha.1.1 hne with h | ⟨h, -⟩ | ⟨-, h, -⟩
    · exact h
    · exact absurd h h0
    · exact absurd h hno

example : SimpleName (exInput "main" false "passphrase").aliasName ∧ ¬ Consent (exInput "main" false "passphrase") ∧
    SeenToExist exTree .node "main".toList ∧ exTree.get (placeOf .node "lost".toList) ≠ none ∧ ¬ SeenToExist exTree .node "lost".toList := by
  refine ⟨simple_of _ (by decide +kernel), ?_, ?_, by decide +kernel, ?_⟩
  · rw [Consent]; decide +kernel
  · rw [SeenToExist]; decide +kernel
  · rw [SeenToExist]; decide +kernel

/-! ### C142 An alias that is replaced is not lost -/

/-- C142, full claim: in every state of a run an alias that exists leads to the old key or to the new one. -/
def AliasKept : Prop := ∀ (A : Aead) (i : PkInput) (f : PkFaults) (t s : FsTree), GoodInput i → NormalTree t i.cls →
  FreshId t i.cls (keyId i.x) → SimpleName i.aliasName → t.get (placeOf i.cls i.aliasName) ≠ none → Passes (processKey A i f) t s →
  s.get (placeOf i.cls i.aliasName) = t.get (placeOf i.cls i.aliasName) ∨ s.get (placeOf i.cls i.aliasName) = some (aliasLink i.cls (keyId i.x))

/-- C142 is false: between the removal and the new link there is no alias; if the link cannot be made, it stays lost. -/
theorem C142_refuted : ¬ AliasKept := by
  intro h
  have := h trivialAead (exInput "main" true "passphrase") { noFaults with symlink := false } exTree _ (exInput_good _ _ _)
    exTree_normal exTree_fresh (simple_of _ (by decide +kernel)) (by decide +kernel) (.inr (.inr rfl))
  exact absurd this (by decide +kernel)

/-- C142: in every state the place of the alias has what it had, or the link to the new key, or - only if the alias was seen to exist, and
with consent - nothing.  At the end of a run that succeeds it has the new link; at the end of one that fails it has what it had, or
nothing if the old alias was removed and the new link could not be made. -/
theorem C142_kept_partial (A : Aead) (i : PkInput) (f : PkFaults) (t : FsTree) (hi : GoodInput i) (hn : NormalTree t i.cls)
    (hf : FreshId t i.cls (keyId i.x)) (ha : SimpleName i.aliasName) (hne : i.aliasName ≠ keyId i.x) :
    (∀ s, Passes (processKey A i f) t s → s.get (placeOf i.cls i.aliasName) = t.get (placeOf i.cls i.aliasName) ∨
      s.get (placeOf i.cls i.aliasName) = some (aliasLink i.cls (keyId i.x)) ∨
      (s.get (placeOf i.cls i.aliasName) = none ∧ SeenToExist t i.cls i.aliasName ∧ Consent i)) ∧
    ((processKey A i f t).2.2 = .ok () → (processKey A i f t).2.1.get (placeOf i.cls i.aliasName) = some (aliasLink i.cls (keyId i.x))) ∧
    ((processKey A i f t).2.2 ≠ .ok () → (processKey A i f t).2.1.get (placeOf i.cls i.aliasName) = t.get (placeOf i.cls i.aliasName) ∨
      ((processKey A i f t).2.1.get (placeOf i.cls i.aliasName) = none ∧ f.symlink = false)) := by
  refine ⟨?_, ?_, ?_⟩
  · intro s hs
    rcases (passes_get A i f t hi hn hf (.inr ha) s hs).2.1 ha.1.1 hne with h | ⟨-, h⟩ | ⟨h1, h2, -, h | h⟩
    · exact .inl h
    · exact .inr (.inl h)
    · exact .inr (.inr ⟨h, h1, h2⟩)
    · exact .inr (.inl h)
  · intro hok
    rcases run_cases A i f t hi hn hf (.inr ha) with ⟨h, -⟩ | ⟨p, -, -, l, -, h⟩
    · rw [h] at hok; simp at hok
    rcases h with ⟨s, r, h1, h2, -⟩ | ⟨t1, -, -, h⟩
    · rw [h1] at hok; exact absurd hok h2
    rcases h with ⟨h0, -⟩ | ⟨-, -, -, ⟨-, -, -, -, -, h⟩ | ⟨-, -, -, -, -, h⟩ | ⟨-, -, h⟩⟩
    · exact absurd h0 ha.1.1
    · rw [h]; exact FsTree.get_set_self _ _ _
    · rw [h] at hok; simp at hok
    · rw [h]; exact FsTree.get_set_self _ _ _
  · intro hok
    rcases run_cases A i f t hi hn hf (.inr ha) with ⟨h, -⟩ | ⟨p, -, -, l, -, h⟩
    · rw [h]; exact .inl rfl
    rcases h with ⟨s, r, h1, h2, h3, -⟩ | ⟨t1, -, -, h⟩
    · rw [h1]
      left
      rcases saveState_get h3 (placeOf i.cls i.aliasName) (fun hp => not_prefix_alias (E := etcNames i.cls) hne [] (by simpa [placeOf] using hp)) with h | ⟨-, h, -, -⟩
      · exact h
      · exact absurd h not_prefix_longer
    rcases h with ⟨h0, -⟩ | ⟨-, -, -, ⟨-, -, -, -, -, h⟩ | ⟨-, -, -, -, o, h⟩ | ⟨-, -, h⟩⟩
    · exact absurd h0 ha.1.1
    · rw [h] at hok; simp at hok
    · rw [h]; exact .inr ⟨FsTree.get_erase_self _ _, o⟩
    · rw [h] at hok; simp at hok

example : (exInput "main" true "passphrase").aliasName ≠ keyId 0xabcd ∧
    (processKey trivialAead (exInput "main" true "passphrase") { noFaults with symlink := false } exTree).2.2 = .err ∧
    (processKey trivialAead (exInput "main" true "passphrase") noFaults exTree).2.2 = .ok () := by decide +kernel

/-! ### C143 With consent an alias can be replaced -/

/-- C143, full claim: with consent, a passphrase typed in twice, and no fault, the run succeeds, unless a directory that is not empty is in
the place of the alias. -/
def AliasReplaceable : Prop := ∀ (A : Aead) (i : PkInput) (t : FsTree) (p : Bytes), GoodInput i → NormalTree t i.cls →
  FreshId t i.cls (keyId i.x) → SimpleName i.aliasName → i.aliasName ≠ keyId i.x → GoodPass i p → Consent i →
  ¬ (t.get (placeOf i.cls i.aliasName) = some .dir ∧ t.hasChild (placeOf i.cls i.aliasName) = true) → (processKey A i noFaults t).2.2 = .ok ()

theorem exInput_pass (a : String) (b : Bool) (p : String) (h : 8 ≤ p.toList.length) :
    GoodPass (exInput a b p) (p.toList.map fun c => UInt8.ofNat c.toNat) := ⟨rfl, rfl, by simpa using h⟩

/-- C143 is false: an alias that leads nowhere is not seen to exist, is not removed, and then is in the way. -/
theorem C143_refuted : ¬ AliasReplaceable := by
  intro h
  have := h trivialAead (exInput "lost" true "passphrase") exTree _ (exInput_good _ _ _) exTree_normal exTree_fresh
    (simple_of _ (by decide +kernel)) (by decide +kernel) (exInput_pass _ _ _ (by decide +kernel)) (.inl rfl) (by decide +kernel)
  exact absurd this (by decide +kernel)

/-- C143: with consent, a passphrase typed in twice and no fault, a run succeeds exactly if the alias is not the identifier and its place is
empty or has something that is seen to exist and is not a directory with entries.  In any case the key pair is stored under its
identifier at the end. -/
theorem C143_replaceable_partial (A : Aead) (i : PkInput) (t : FsTree) (p : Bytes) (hi : GoodInput i) (hn : NormalTree t i.cls)
    (hf : FreshId t i.cls (keyId i.x)) (ha : SimpleName i.aliasName) (hp : GoodPass i p) (hc : Consent i) :
    ((processKey A i noFaults t).2.2 = .ok () ↔ i.aliasName ≠ keyId i.x ∧ (t.get (placeOf i.cls i.aliasName) = none ∨
      (SeenToExist t i.cls i.aliasName ∧ ¬ (t.get (placeOf i.cls i.aliasName) = some .dir ∧ t.hasChild (placeOf i.cls i.aliasName) = true)))) ∧
    loadPubKey (processKey A i noFaults t).2.1.view i.cls (keyId i.x) = .ok i.x ∧
    loadPrivKey A (processKey A i noFaults t).2.1.view i.cls (keyId i.x) (pkeygenSecret p) = .ok i.d := by
  have hid := keyId_simple hi.x0
  rcases run_cases A i noFaults t hi hn hf (.inr ha) with ⟨-, ⟨-, -, h⟩ | h⟩ | ⟨p', hp', -, l, -, h⟩
  · exact absurd hc h
  · rw [prompt_of_goodPass hp] at h; simp at h
  rw [prompt_of_goodPass hp] at hp'
  cases hp'
  have lo : ∀ s : FsTree, Stored s i.cls (keyId i.x) (privContent A (pkeygenSecret p) i.nonce i.d) (pubContent i.x) →
      loadPubKey s.view i.cls (keyId i.x) = .ok i.x ∧ loadPrivKey A s.view i.cls (keyId i.x) (pkeygenSecret p) = .ok i.d :=
    fun s h => loads_of_stored hid hi.x1 hi.d1 hi.nonce (pkeygenSecret_ok p) h
  rcases h with ⟨s, r, h1, h2, -, h | ⟨hst, -, h⟩⟩ | ⟨t1, -, g2, h⟩
  · exact absurd ⟨by simp [noFaults], rfl, rfl⟩ h
  · rw [h1]
    refine ⟨⟨fun hr => absurd hr h2, ?_⟩, lo s hst⟩
    rintro ⟨hne, hq⟩
    exfalso
    rcases h with h | ⟨o1, o2, h | h⟩ | ⟨o1, h | h⟩
    · exact hne h
    · simp [noFaults] at h
    · rcases hq with hq | ⟨-, hq⟩
      · exact o2 hq
      · exact hq h
    · simp [noFaults] at h
    · rcases hq with hq | ⟨hq, -⟩
      · exact h hq
      · exact o1 hq
  have hst := saved_stored (c1 := privContent A (pkeygenSecret p) i.nonce i.d) (c2 := pubContent i.x) g2
  rcases h with ⟨h0, -⟩ | ⟨-, hne, -, ⟨o1, -, -, o2, -, h⟩ | ⟨-, -, -, -, o, -⟩ | ⟨-, o, h⟩⟩
  · exact absurd h0 ha.1.1
  · rw [h]
    refine ⟨⟨fun _ => ⟨hne, .inr ⟨o1, o2⟩⟩, fun _ => rfl⟩, lo _ (stored_alias hst hne fun r hr => ?_)⟩
    rw [FsTree.get_set_ne _ _ hr, FsTree.get_erase_ne _ hr]
  · simp [noFaults] at o
  · rw [h]
    refine ⟨⟨fun _ => ⟨hne, .inl o⟩, fun _ => rfl⟩, lo _ (stored_alias hst hne fun r hr => ?_)⟩
    rw [FsTree.get_set_ne _ _ hr]

example : Consent (exInput "main" true "passphrase") ∧ GoodPass (exInput "main" true "passphrase") ("passphrase".toList.map fun c => UInt8.ofNat c.toNat) ∧
    (processKey trivialAead (exInput "lost" true "passphrase") noFaults exTree).2.2 = .err :=
  ⟨.inl rfl, exInput_pass _ _ _ (by decide +kernel), by decide +kernel⟩

/-! ### C144 A generated key opens with the passphrase it was made with -/

/-- C144, full claim: a generated private key loads with the passphrase that was typed in when it was made. -/
def PassphraseOpens : Prop := ∀ (A : Aead) (i : PkInput) (f : PkFaults) (t : FsTree) (p : Bytes), GoodInput i → NormalTree t i.cls →
  FreshId t i.cls (keyId i.x) → i.aliasName = [] ∨ SimpleName i.aliasName → GoodPass i p → (processKey A i f t).2.2 = .ok () →
  loadPrivKeyPrompt A (processKey A i f t).2.1.view i.cls (keyId i.x) (some p) = .ok i.d

/-- C144 is false: with a passphrase of ten bytes, which the key generator accepts, the key is sealed under that passphrase padded to 16
bytes, and asking for it on loading does not pad it. -/
theorem C144_refuted : ¬ PassphraseOpens := by
  intro h
  have := h trivialAead (exInput "" true "passphrase") noFaults exTree _ (exInput_good _ _ _) exTree_normal exTree_fresh (.inl rfl)
    (exInput_pass _ _ _ (by decide +kernel)) (by decide +kernel)
  exact absurd this (by decide +kernel)

theorem loadPrivKeyPrompt_of_view {A : Aead} {fs : FS} {cls : KeyClass} {id : Path} {p c : Bytes} (hv : fs (privKeyPath cls id) = some c)
    (h8 : 8 ≤ p.length) : loadPrivKeyPrompt A fs cls id (some p) = loadPrivKey A fs cls id p := by
  rw [loadPrivKeyPrompt, hv]
  simp only [promptPassphrase, Bool.false_eq_true, if_false]
  rw [if_neg (by omega)]
  rfl

/-- The private key file at the end of a run that succeeds. -/
theorem run_file (A : Aead) (i : PkInput) (f : PkFaults) (t : FsTree) (p : Bytes) (hi : GoodInput i) (hn : NormalTree t i.cls)
    (hf : FreshId t i.cls (keyId i.x)) (ha : i.aliasName = [] ∨ SimpleName i.aliasName) (hp : GoodPass i p) (hok : (processKey A i f t).2.2 = .ok ()) :
    (processKey A i f t).2.1.view (privKeyPath i.cls (keyId i.x)) = some (privContent A (pkeygenSecret p) i.nonce i.d) := by
  have hid := keyId_simple hi.x0
  rcases run_cases A i f t hi hn hf ha with ⟨h, -⟩ | ⟨p', hp', -, l, -, h⟩
  · rw [h] at hok; simp at hok
  rw [prompt_of_goodPass hp] at hp'
  cases hp'
  rcases h with ⟨s, r, h1, h2, -⟩ | ⟨t1, -, g2, h⟩
  · rw [h1] at hok; exact absurd hok h2
  have hst := saved_stored (c1 := privContent A (pkeygenSecret p) i.nonce i.d) (c2 := pubContent i.x) g2
  rcases h with ⟨h0, h⟩ | ⟨h0, hne, -, ⟨-, -, -, -, -, h⟩ | ⟨-, -, -, -, -, h⟩ | ⟨-, -, h⟩⟩
  · rw [h]
    exact (view_stored hid hst).1
  · rw [h]
    refine (view_stored hid (stored_alias hst hne fun r hr => ?_)).1
    rw [FsTree.get_set_ne _ _ hr, FsTree.get_erase_ne _ hr]
  · rw [h] at hok; simp at hok
  · rw [h]
    refine (view_stored hid (stored_alias hst hne fun r hr => ?_)).1
    rw [FsTree.get_set_ne _ _ hr]

/-- C144: the generated key loads with its passphrase if that has 16 bytes.  If it has not, loading fails: always if the passphrase has not
24 or 32 bytes either, and for a cipher that notices a wrong key in these two cases too. -/
theorem C144_opens_partial (A : Aead) (i : PkInput) (f : PkFaults) (t : FsTree) (p : Bytes) (hi : GoodInput i) (hn : NormalTree t i.cls)
    (hf : FreshId t i.cls (keyId i.x)) (ha : i.aliasName = [] ∨ SimpleName i.aliasName) (hp : GoodPass i p) (hok : (processKey A i f t).2.2 = .ok ()) :
    (p.length = 16 → loadPrivKeyPrompt A (processKey A i f t).2.1.view i.cls (keyId i.x) (some p) = .ok i.d) ∧
    (p.length ≠ 16 → Committing A ∨ (p.length ≠ 24 ∧ p.length ≠ 32) →
      loadPrivKeyPrompt A (processKey A i f t).2.1.view i.cls (keyId i.x) (some p) = .err) := by
  have hv := run_file A i f t p hi hn hf ha hp hok
  rw [loadPrivKeyPrompt_of_view hv hp.2.2]
  constructor
  · intro h16
    have hsec : pkeygenSecret p = p := by simp [pkeygenSecret, h16, List.take_of_length_le]
    rw [hsec] at hv
    have := loadPriv_content A _ i.cls (keyId i.x) i.d p i.nonce (by positivity) (by exact_mod_cast hi.d1) (by simp [aesKeyOk, h16]) hi.nonce hv
    simpa using this
  · intro h16 hc
    rw [loadPrivKey, loadKeyData, hv]
    simp only
    rw [privContent, loadKeyBytes_encode, Res.bind_ok, if_neg (by rw [List.length_append, hi.nonce]; omega)]
    by_cases hk : aesKeyOk p = true
    · rw [if_neg (by simp [hk]), List.take_left' hi.nonce, List.drop_left' hi.nonce]
      have hC : Committing A := by
        rcases hc with h | h
        · exact h
        · simp [aesKeyOk, h16, h.1, h.2] at hk
      rw [hC]
      intro h
      apply h16
      rw [← h]
      simp [pkeygenSecret]; omega
    · rw [if_pos (by simpa using hk)]

/-- A cipher that notices a wrong key: it writes the key in front, after its length. -/
def keyFirstAead : Aead where
  sealed k _ m := List.replicate k.length 1 ++ 0 :: (k ++ m)
  opened k _ c := if List.replicate k.length 1 ++ 0 :: k <+: c then some (c.drop (2 * k.length + 1)) else none
  law k _ m := by
    have e : List.replicate k.length (1 : UInt8) ++ 0 :: (k ++ m) = (List.replicate k.length 1 ++ 0 :: k) ++ m := by simp
    rw [e, if_pos (List.prefix_append _ _), List.drop_left' (by simp; omega)]

theorem keyFirst_committing : Committing keyFirstAead := by
  intro k k' nonce m hne
  have key : ∀ (n n' : Nat) (a b : Bytes), List.replicate n' (1 : UInt8) ++ 0 :: a <+: List.replicate n 1 ++ 0 :: b → n = n' ∧ a <+: b := by
    intro n
    induction n with
    | zero =>
      intro n' a b h
      cases n' with
      | zero => simpa using h
      | succ n' => simp [List.replicate_succ] at h
    | succ n ih =>
      intro n' a b h
      cases n' with
      | zero => simp [List.replicate_succ] at h
      | succ n' =>
        simp only [List.replicate_succ, List.cons_append, List.cons_prefix_cons, true_and] at h
        have := ih n' a b h
        exact ⟨by omega, this.2⟩
  simp only [keyFirstAead]
  rw [if_neg]
  intro h
  obtain ⟨h1, h2⟩ := key _ _ _ _ h
  apply hne
  have := List.prefix_of_prefix_length_le (List.prefix_append k m) h2 (by omega)
  exact List.IsPrefix.eq_of_length this h1

example : Committing keyFirstAead := keyFirst_committing

example : (processKey trivialAead (exInput "main" true "sixteen bytes ok") noFaults exTree).2.2 = .ok () ∧
    (processKey trivialAead (exInput "main" true "passphrase") noFaults exTree).2.2 = .ok () ∧
    "sixteen bytes ok".toList.length = 16 ∧ "passphrase".toList.length = 10 := by decide +kernel

/-! ### C145 A passphrase that is accepted on saving can be used -/

/-- C145, full claim: every passphrase that the prompt accepts can be used for saving. -/
def PassphraseSaves : Prop := ∀ (A : Aead) (fs : FS) (cls : KeyClass) (id : Path) (pub priv : Int) (p nonce : Bytes),
  promptPassphrase false (some p) none = .ok p → (saveKeyPairPrompt A fs cls id pub priv (some p) nonce .dir .done .done).2 = .ok ()

/-- C145 is false: a passphrase of ten bytes is accepted by the prompt and then refused by AES. -/
theorem C145_refuted : ¬ PassphraseSaves := by
  intro h
  have := h trivialAead (fun _ => none) .node "aa".toList 1 1 (List.replicate 10 0) (List.replicate 12 0) (by decide +kernel)
  exact absurd this (by decide +kernel)

/-- C145: saving with a prompt succeeds, if the directory is there and both writes complete, exactly for passphrases of 16, 24 or 32 bytes.
With any other it fails or panics and no file changes.  A key saved so loads with the same passphrase, as does the public key. -/
theorem C145_saves_partial (A : Aead) (fs : FS) (cls : KeyClass) (id : Path) (pub priv : Int) (p nonce : Bytes) :
    ((saveKeyPairPrompt A fs cls id pub priv (some p) nonce .dir .done .done).2 = .ok () ↔ p.length = 16 ∨ p.length = 24 ∨ p.length = 32) ∧
    (∀ d e1 e2, ¬ (p.length = 16 ∨ p.length = 24 ∨ p.length = 32) →
      (saveKeyPairPrompt A fs cls id pub priv (some p) nonce d e1 e2).2 ≠ .ok () ∧
      ∀ s ∈ (saveKeyPairPrompt A fs cls id pub priv (some p) nonce d e1 e2).1, s = fs) ∧
    (∀ d e1 e2, 0 ≤ pub → pub < 2 ^ 256 → 0 ≤ priv → priv < 2 ^ 256 → nonce.length = 12 →
      (saveKeyPairPrompt A fs cls id pub priv (some p) nonce d e1 e2).2 = .ok () →
      loadPubKey ((saveKeyPairPrompt A fs cls id pub priv (some p) nonce d e1 e2).1.getLastD fs) cls id = .ok pub.toNat ∧
      loadPrivKeyPrompt A ((saveKeyPairPrompt A fs cls id pub priv (some p) nonce d e1 e2).1.getLastD fs) cls id (some p) = .ok priv.toNat) := by
  have hlong : 8 ≤ p.length → ∀ d e1 e2, saveKeyPairPrompt A fs cls id pub priv (some p) nonce d e1 e2 = saveKeyPair A fs cls id pub priv p nonce d e1 e2 := by
    intro h d e1 e2
    simp only [saveKeyPairPrompt, promptPassphrase, Bool.false_eq_true, if_false]
    rw [if_neg (by omega)]
  have hshort : p.length < 8 → ∀ d e1 e2, saveKeyPairPrompt A fs cls id pub priv (some p) nonce d e1 e2 = ([fs], .err) := by
    intro h d e1 e2
    simp only [saveKeyPairPrompt, promptPassphrase, Bool.false_eq_true, if_false]
    rw [if_pos h]
  have hbad : ∀ d e1 e2, ¬ (p.length = 16 ∨ p.length = 24 ∨ p.length = 32) →
      (saveKeyPairPrompt A fs cls id pub priv (some p) nonce d e1 e2).2 ≠ .ok () ∧
      ∀ s ∈ (saveKeyPairPrompt A fs cls id pub priv (some p) nonce d e1 e2).1, s = fs := by
    intro d e1 e2 h
    by_cases h8 : p.length < 8
    · rw [hshort h8]; simp
    · rw [hlong (by omega)]
      have hk : aesKeyOk p = false := by
        simp only [not_or] at h
        simp [aesKeyOk, h.1, h.2.1, h.2.2]
      cases d <;> simp [saveKeyPair, hk]
  refine ⟨⟨fun h => ?_, fun h => ?_⟩, hbad, ?_⟩
  · by_contra hc
    exact (hbad _ _ _ hc).1 h
  · rw [hlong (by rcases h with h | h | h <;> omega)]
    exact C72_succeeds A fs cls id pub priv p nonce h
  · intro d e1 e2 h1 h2 h3 h4 h5 h6
    have hl : p.length = 16 ∨ p.length = 24 ∨ p.length = 32 := by
      by_contra hc
      exact (hbad _ _ _ hc).1 h6
    have h8 : 8 ≤ p.length := by rcases hl with h | h | h <;> omega
    rw [hlong h8] at h6 ⊢
    obtain ⟨fs', r1, r2, r3, -⟩ := C72_roundtrip A fs cls id pub priv p nonce d e1 e2 h1 h2 h3 h4 h5
      (saveKeyPair A fs cls id pub priv p nonce d e1 e2).1 (by rw [← h6])
    have hlast : (saveKeyPair A fs cls id pub priv p nonce d e1 e2).1.getLastD fs = fs' := by
      rw [List.getLastD_eq_getLast?, r1]; rfl
    rw [hlast]
    refine ⟨r2, ?_⟩
    rcases hv : fs' (privKeyPath cls id) with - | c
    · rw [loadPrivKey, loadKeyData, hv] at r3
      simp at r3
    · rw [loadPrivKeyPrompt_of_view hv h8]; exact r3

example : (saveKeyPairPrompt trivialAead (fun _ => none) .node "aa".toList 5 7 (some (List.replicate 24 1)) (List.replicate 12 0) .dir .done .done).2 = .ok () ∧
    (saveKeyPairPrompt trivialAead (fun _ => none) .node "aa".toList 5 7 (some (List.replicate 20 1)) (List.replicate 12 0) .dir .done .done).2 = .err := by
  decide +kernel

end Poodle.Props
