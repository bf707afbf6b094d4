import Verif.Lemmas.Pkeygen
import Verif.Props.KeyFile

/-
Runs of the key generator.
-/

namespace Poodle
open Poodle.Spec Poodle.Props

/-! ### Sequences of statements -/

namespace PkRun

variable {α β : Type} {m : PkRun α} {f : α → PkRun β} {t : FsTree}

theorem bind_ok {a : α} (h : (m t).2.2 = .ok a) : (m.bind f) t = ((m t).1 ++ (f a (m t).2.1).1, (f a (m t).2.1).2) := by
  rw [bind]
  rcases hm : m t with ⟨l, t', r⟩
  rw [hm] at h
  simp only at h
  subst h
  rfl

theorem bind_err (h : (m t).2.2 = .err) : (m.bind f) t = ((m t).1, (m t).2.1, .err) := by
  rw [bind]
  rcases hm : m t with ⟨l, t', r⟩
  rw [hm] at h
  simp only at h
  subst h
  rfl

theorem bind_panic (h : (m t).2.2 = .panic) : (m.bind f) t = ((m t).1, (m t).2.1, .panic) := by
  rw [bind]
  rcases hm : m t with ⟨l, t', r⟩
  rw [hm] at h
  simp only at h
  subst h
  rfl

end PkRun

/-! ### Identifiers -/

theorem hexLow_slash (d : Nat) : hexLow d ≠ '/' ∧ hexLow d ≠ '.' := by
  by_cases h : d < 16
  · have : ∀ n : Fin 16, hexLow n.val ≠ '/' ∧ hexLow n.val ≠ '.' := by decide
    exact this ⟨d, h⟩
  · have : hexLow d = '0' := by
      rw [hexLow, List.getD_eq_getElem?_getD, List.getElem?_eq_none (by simpa using h)]
      rfl
    rw [this]; decide

theorem keyId_simple {x : Nat} (h : 0 < x) : SimpleName (keyId x) := by
  have hne : natBytes x ≠ [] := by
    rw [natBytes, if_neg (by omega)]
    intro h
    have := congrArg List.length h
    simp [beBytes_length] at this
  have hmem : ∀ c ∈ keyId x, c ≠ '/' ∧ c ≠ '.' := by
    intro c hc
    rw [keyId, List.mem_flatMap] at hc
    obtain ⟨b, -, hc⟩ := hc
    simp only [List.mem_cons, List.not_mem_nil, or_false] at hc
    rcases hc with rfl | rfl <;> exact hexLow_slash _
  refine ⟨⟨?_, ?_, ?_⟩, fun h => (hmem _ h).1 rfl⟩
  · intro h
    rcases hb : natBytes x with - | ⟨b, bs⟩
    · exact hne hb
    · rw [keyId, hb] at h; simp at h
  · intro h
    exact (hmem '.' (by rw [h]; simp)).2 rfl
  · intro h
    exact (hmem '.' (by rw [h]; simp)).2 rfl

/-! ### Resolution that does not lead through a place -/

namespace FsTree

variable {t s : FsTree}

theorem walk_agree {E : List Path} {id : Path} (h : ∀ q, ¬ E ++ [id] <+: q → s.get q = t.get q) (rest : List Path) :
    ∀ cur, ¬ E ++ [id] <+: cur → id ∉ rest → s.walk cur rest = t.walk cur rest ∧
      ∀ b l r, t.walk cur rest = .link b l r → (∃ q, t.get q = some (.link l)) ∧ ¬ E ++ [id] <+: b ∧ id ∉ r := by
  induction rest with
  | nil => intro cur _ _; simp [walk]
  | cons n rest ih =>
    intro cur hc hid
    simp only [List.mem_cons, not_or] at hid
    have hcn : ¬ E ++ [id] <+: cur ++ [n] := by
      intro hp
      rcases List.prefix_concat_iff.mp hp with e | hp
      · exact hid.1 ((List.append_inj' e rfl).2 |> List.cons.inj |>.1)
      · exact hc hp
    rw [walk, walk]
    by_cases h1 : n = [] ∨ n = ['.']
    · rw [if_pos h1, if_pos h1]; exact ih cur hc hid.2
    · rw [if_neg h1, if_neg h1]
      by_cases h2 : n = ['.', '.']
      · rw [if_pos h2, if_pos h2]
        exact ih _ (fun hp => hc (hp.trans (List.dropLast_prefix cur))) hid.2
      · rw [if_neg h2, if_neg h2, h _ hcn]
        rcases hg : t.get (cur ++ [n]) with - | c | - | l
        · simp
        · simp
        · exact ih _ hcn hid.2
        · simp only [true_and]
          intro b l' r e
          cases e
          exact ⟨⟨_, hg⟩, hc, hid.2⟩

theorem resolve_agree {E : List Path} {id : Path} (h : ∀ q, ¬ E ++ [id] <+: q → s.get q = t.get q)
    (hl : ∀ p l, t.get p = some (.link l) → id ∉ splitPath l) (k : Nat) :
    ∀ cur rest, ¬ E ++ [id] <+: cur → id ∉ rest → s.resolve k cur rest = t.resolve k cur rest := by
  induction k with
  | zero =>
    intro cur rest hc hid
    rw [resolve, resolve, (walk_agree h rest cur hc hid).1]
  | succ k ih =>
    intro cur rest hc hid
    obtain ⟨e, hw⟩ := walk_agree h rest cur hc hid
    rw [resolve, resolve, e]
    rcases hwt : t.walk cur rest with l | ⟨b, l, r⟩
    · rfl
    · obtain ⟨⟨q, hq⟩, h2, h3⟩ := hw b l r hwt
      simp only
      apply ih
      · split
        · intro hp; have := List.prefix_nil.mp hp; simp at this
        · exact h2
      · simp only [List.mem_append, not_or]
        exact ⟨hl q l hq, h3⟩

end FsTree

/-! ### Saving -/

/-- Both key files are written. -/
def savedTree (cls : KeyClass) (id : Path) (c1 c2 : Bytes) (t : FsTree) : FsTree :=
  (t.set (etcNames cls ++ [id] ++ [privName cls]) (.file c1)).set (etcNames cls ++ [id] ++ [pubName cls]) (.file c2)

/-- A state during saving. -/
def SaveState (cls : KeyClass) (id : Path) (c1 c2 : Bytes) (t s : FsTree) : Prop :=
  FsTree.Grow (etcNames cls ++ [id]) t s ∨ ∃ t1 k, FsTree.Grow (etcNames cls ++ [id]) t t1 ∧ t1.AllDirs (etcNames cls ++ [id]) ∧
    (s = t1.set (etcNames cls ++ [id] ++ [privName cls]) (.file (c1.take k)) ∨ s = savedTree cls id c1 (c2.take k) t1)

theorem proper_key {cls : KeyClass} {id : Path} (h : SimpleName id) : ∀ n ∈ etcNames cls ++ [id], Proper n := by
  intro n hn
  rcases List.mem_append.mp hn with hn | hn
  · exact proper_etc cls n hn
  · simp only [List.mem_singleton] at hn; rw [hn]; exact h.1

theorem allDirs_set {t : FsTree} {p q : List Path} {e : FsEntry} (h : t.AllDirs q) (hn : ¬ p <+: q) : (t.set p e).AllDirs q := by
  intro r h0 hr
  rw [FsTree.get_set_ne _ _ (by rintro rfl; exact hn hr)]
  exact h r h0 hr

theorem not_prefix_longer {p : List Path} {n : Path} : ¬ p ++ [n] <+: p := by
  intro h
  have := h.length_le
  simp at this

theorem writeFile_spec (t : FsTree) (p : Path) (names : List Path) (n : Path) (hs : splitPath p = [] :: (names ++ [n])) (hp : ∀ m ∈ names, Proper m)
    (hn : Proper n) (hd : t.AllDirs names) (hg : t.get (names ++ [n]) = none) (c : Bytes) (e : WriteEnd) :
    (∀ s ∈ (writeFileT p c e t).1, ∃ k, s = t.set (names ++ [n]) (.file (c.take k))) ∧
    ((writeFileT p c e t).2.2 = .ok () ∧ (writeFileT p c e t).2.1 = t.set (names ++ [n]) (.file c) ∧ e = .done ∨
     (writeFileT p c e t).2.2 = .err ∧ e ≠ .done ∧ ((writeFileT p c e t).2.1 = t ∨ ∃ k, (writeFileT p c e t).2.1 = t.set (names ++ [n]) (.file (c.take k)))) := by
  have hst : t.stat p = .absent (names ++ [n]) := by rw [FsTree.stat, hs, FsTree.resolve_last t 40 names hp hd n hn, hg]
  rw [writeFileT, hst]
  rcases e with - | - | m
  · refine ⟨?_, .inl ⟨rfl, rfl, rfl⟩⟩
    intro s hs
    simp only [List.mem_map] at hs
    obtain ⟨k, -, rfl⟩ := hs
    exact ⟨k, rfl⟩
  · exact ⟨by simp, .inr ⟨rfl, by simp, .inl rfl⟩⟩
  · refine ⟨?_, .inr ⟨rfl, by simp, .inr ⟨m, rfl⟩⟩⟩
    intro s hs
    simp only [List.mem_map] at hs
    obtain ⟨k, -, rfl⟩ := hs
    exact ⟨k, rfl⟩

/-- `lc_save_key_pair` with a new identifier. -/
theorem save_spec (A : Aead) (cls : KeyClass) (id : Path) (pub priv : Int) (secret nonce : Bytes) (f : PkFaults) (t : FsTree)
    (hn : NormalTree t cls) (hf : FreshId t cls id) (hid : SimpleName id) (hsec : aesKeyOk secret = true) :
    (∀ s ∈ (saveKeyPairT A cls id pub priv secret nonce f t).1, SaveState cls id (privContent A secret nonce priv) (pubContent pub) t s) ∧
    SaveState cls id (privContent A secret nonce priv) (pubContent pub) t (saveKeyPairT A cls id pub priv secret nonce f t).2.1 ∧
    ((saveKeyPairT A cls id pub priv secret nonce f t).2.2 = .ok () → ∃ t1, FsTree.Grow (etcNames cls ++ [id]) t t1 ∧
      t1.AllDirs (etcNames cls ++ [id]) ∧
      (saveKeyPairT A cls id pub priv secret nonce f t).2.1 = savedTree cls id (privContent A secret nonce priv) (pubContent pub) t1) ∧
    (4 ≤ f.mkdirs → f.priv = .done → f.pub = .done → (saveKeyPairT A cls id pub priv secret nonce f t).2.2 = .ok ()) := by
  have hnl : t.NoLinks (etcNames cls ++ [id]) := by
    intro q h0 hq
    rcases List.prefix_concat_iff.mp hq with rfl | hq
    · left; have := hf.empty []; simpa using this
    · exact hn.plain q h0 hq
  have hlen : (etcNames cls ++ [id]).length = 4 := by cases cls <;> rfl
  obtain ⟨m1, m2, m3, m4⟩ := FsTree.mkdirIfNotExist_spec (keyDir cls id) (etcNames cls ++ [id]) (splitPath_keyDir cls id hid.2)
    (proper_key hid) f.mkdirs t hnl
  rw [hlen] at m4
  rw [saveKeyPairT]
  generalize mkdirIfNotExistT (keyDir cls id) f.mkdirs = M at *
  rcases m3 with ⟨ho, hd⟩ | ho
  · generalize ht1 : (M t).2.1 = t1 at *
    have hempty : ∀ n, t1.get (etcNames cls ++ [id] ++ [n]) = none := by
      intro n
      rcases m2 (etcNames cls ++ [id] ++ [n]) with e | ⟨-, hp, -⟩
      · rw [e]; have := hf.empty [n]; simpa using this
      · exact absurd hp not_prefix_longer
    have hpp : etcNames cls ++ [id] ++ [pubName cls] ≠ etcNames cls ++ [id] ++ [privName cls] := by
      intro h
      have := (List.append_inj' h rfl).2
      simp only [List.cons.injEq, and_true] at this
      exact pub_ne_priv_name cls this
    rw [PkRun.bind_ok ho]
    have hl : (PkRun.look (fun _ => if aesKeyOk secret then Res.ok () else Res.err) t1).2.2 = .ok () := by
      simp [PkRun.look, hsec]
    rw [ht1, PkRun.bind_ok hl]
    have hl1 : (PkRun.look (fun _ => if aesKeyOk secret then Res.ok () else Res.err) t1).1 = [] := rfl
    have hl2 : (PkRun.look (fun _ => if aesKeyOk secret then Res.ok () else Res.err) t1).2.1 = t1 := rfl
    rw [hl1, hl2, List.nil_append]
    obtain ⟨w1, w2⟩ := writeFile_spec t1 (privKeyPath cls id) (etcNames cls ++ [id]) (privName cls) (splitPath_priv cls id hid.2)
      (proper_key hid) (proper_priv cls) hd (hempty _) (privContent A secret nonce priv) f.priv
    generalize writeFileT (privKeyPath cls id) (privContent A secret nonce priv) f.priv = W1 at *
    have c1 : ∀ k, SaveState cls id (privContent A secret nonce priv) (pubContent pub) t
        (t1.set (etcNames cls ++ [id] ++ [privName cls]) (.file ((privContent A secret nonce priv).take k))) :=
      fun k => .inr ⟨t1, k, m2, hd, .inl rfl⟩
    rcases w2 with ⟨w3, w4, w5⟩ | ⟨w3, w5, w4⟩
    · rw [PkRun.bind_ok w3, w4]
      have hd2 : (t1.set (etcNames cls ++ [id] ++ [privName cls]) (.file (privContent A secret nonce priv))).AllDirs (etcNames cls ++ [id]) :=
        allDirs_set hd not_prefix_longer
      obtain ⟨v1, v2⟩ := writeFile_spec (t1.set (etcNames cls ++ [id] ++ [privName cls]) (.file (privContent A secret nonce priv)))
        (pubKeyPath cls id) (etcNames cls ++ [id]) (pubName cls) (splitPath_pub cls id hid.2)
        (proper_key hid) (proper_pub cls) hd2 (by rw [FsTree.get_set_ne _ _ hpp]; exact hempty _) (pubContent pub) f.pub
      generalize writeFileT (pubKeyPath cls id) (pubContent pub) f.pub = W2 at *
      have c2 : ∀ k, SaveState cls id (privContent A secret nonce priv) (pubContent pub) t
          (savedTree cls id (privContent A secret nonce priv) ((pubContent pub).take k) t1) :=
        fun k => .inr ⟨t1, k, m2, hd, .inr rfl⟩
      refine ⟨?_, ?_, ?_, ?_⟩
      · intro s hs
        simp only [List.mem_append] at hs
        rcases hs with hs | hs | hs
        · exact .inl (m1 s hs)
        · obtain ⟨k, rfl⟩ := w1 s hs; exact c1 k
        · obtain ⟨k, rfl⟩ := v1 s hs; exact c2 k
      · rcases v2 with ⟨-, v4, -⟩ | ⟨-, -, v4 | ⟨k, v4⟩⟩
        · simp only [v4]
          have := c2 (pubContent pub).length
          rw [List.take_length] at this
          exact this
        · simp only [v4]
          have := c1 (privContent A secret nonce priv).length
          rw [List.take_length] at this
          exact this
        · simp only [v4]; exact c2 k
      · intro h
        simp only at h
        rcases v2 with ⟨-, v4, -⟩ | ⟨v3, -, -⟩
        · exact ⟨t1, m2, hd, v4⟩
        · rw [h] at v3; simp at v3
      · intro _ _ h
        rcases v2 with ⟨v3, v4, -⟩ | ⟨v3, hne, -⟩
        · exact v3
        · exact absurd h hne
    · rw [PkRun.bind_err w3]
      refine ⟨?_, ?_, by simp, fun _ h => absurd h w5⟩
      · intro s hs
        simp only [List.mem_append] at hs
        rcases hs with hs | hs
        · exact .inl (m1 s hs)
        · obtain ⟨k, rfl⟩ := w1 s hs; exact c1 k
      · rcases w4 with w4 | ⟨k, w4⟩
        · simp only [w4]; exact .inl m2
        · simp only [w4]; exact c1 k
  · rw [PkRun.bind_panic ho]
    refine ⟨fun s hs => .inl (m1 s hs), .inl m2, by simp, fun h => ?_⟩
    rw [m4 h] at ho
    simp at ho

/-! ### Loading -/

theorem view_stored {t : FsTree} {cls : KeyClass} {id : Path} {c1 c2 : Bytes} (hid : SimpleName id) (h : Stored t cls id c1 c2) :
    t.view (privKeyPath cls id) = some c1 ∧ t.view (pubKeyPath cls id) = some c2 := by
  constructor
  · rw [FsTree.view, FsTree.stat, splitPath_priv cls id hid.2, FsTree.resolve_last t 40 _ (proper_key hid) h.dirs _ (proper_priv cls), h.priv]
  · rw [FsTree.view, FsTree.stat, splitPath_pub cls id hid.2, FsTree.resolve_last t 40 _ (proper_key hid) h.dirs _ (proper_pub cls), h.pub]

theorem saved_stored {t : FsTree} {cls : KeyClass} {id : Path} {c1 c2 : Bytes} (h : t.AllDirs (etcNames cls ++ [id])) :
    Stored (savedTree cls id c1 c2 t) cls id c1 c2 := by
  have hpp : etcNames cls ++ [id] ++ [privName cls] ≠ etcNames cls ++ [id] ++ [pubName cls] := by
    intro h
    have := (List.append_inj' h rfl).2
    simp only [List.cons.injEq, and_true] at this
    exact pub_ne_priv_name cls this.symm
  refine ⟨allDirs_set (allDirs_set h not_prefix_longer) not_prefix_longer, ?_, FsTree.get_set_self _ _ _⟩
  rw [savedTree, FsTree.get_set_ne _ _ hpp, FsTree.get_set_self]

theorem pkeygenSecret_ok (p : Bytes) : aesKeyOk (pkeygenSecret p) = true := by
  have : (pkeygenSecret p).length = 16 := by simp [pkeygenSecret]; omega
  simp [aesKeyOk, this]

theorem loads_of_stored {A : Aead} {t : FsTree} {cls : KeyClass} {id : Path} {x d : Nat} {secret nonce : Bytes} (hid : SimpleName id)
    (hx : x < 2 ^ 256) (hd : d < 2 ^ 256) (hnonce : nonce.length = 12) (hsec : aesKeyOk secret = true)
    (h : Stored t cls id (privContent A secret nonce d) (pubContent x)) :
    loadPubKey t.view cls id = .ok x ∧ loadPrivKey A t.view cls id secret = .ok d := by
  obtain ⟨h1, h2⟩ := view_stored hid h
  constructor
  · have := loadPub_content t.view cls id x (by positivity) (by exact_mod_cast hx) h2
    simpa using this
  · have := loadPriv_content A t.view cls id d secret nonce (by positivity) (by exact_mod_cast hd) hsec hnonce h1
    simpa using this

/-! ### The run -/

/-- What a run is. -/
theorem processKey_spec (A : Aead) (i : PkInput) (f : PkFaults) (t : FsTree) (hi : GoodInput i) (hn : NormalTree t i.cls)
    (hf : FreshId t i.cls (keyId i.x)) :
    (processKey A i f t = ([], t, .err) ∧
      ((i.aliasName ≠ [] ∧ (t.stat (etcDir i.cls ++ "/".toList ++ i.aliasName)).notExist = false ∧ ¬ Consent i) ∨
        promptPassphrase true i.pass1 i.pass2 = .err)) ∨
    ∃ p, promptPassphrase true i.pass1 i.pass2 = .ok p ∧
      (i.aliasName = [] ∨ (t.stat (etcDir i.cls ++ "/".toList ++ i.aliasName)).notExist = true ∨ Consent i) ∧
      let c1 := privContent A (pkeygenSecret p) i.nonce i.d
      let c2 := pubContent i.x
      ∃ l, (∀ s ∈ l, SaveState i.cls (keyId i.x) c1 c2 t s) ∧
        ((∃ s r, processKey A i f t = (l, s, r) ∧ r ≠ .ok () ∧ SaveState i.cls (keyId i.x) c1 c2 t s ∧
            ¬ (4 ≤ f.mkdirs ∧ f.priv = .done ∧ f.pub = .done)) ∨
         ∃ t1, FsTree.Grow (etcNames i.cls ++ [keyId i.x]) t t1 ∧ t1.AllDirs (etcNames i.cls ++ [keyId i.x]) ∧
          processKey A i f t = if i.aliasName = [] then (l, savedTree i.cls (keyId i.x) c1 c2 t1, .ok ())
            else (l ++ (makeAlias i f (savedTree i.cls (keyId i.x) c1 c2 t1)).1, (makeAlias i f (savedTree i.cls (keyId i.x) c1 c2 t1)).2)) := by
  have hid := keyId_simple hi.x0
  let ask : PkRun Unit := PkRun.look fun t =>
    if i.aliasName ≠ [] ∧ ¬ (t.stat (etcDir i.cls ++ "/".toList ++ i.aliasName)).notExist ∧ ¬ i.force ∧ i.answer ≠ ['y'] ∧ i.answer ≠ ['Y'] then .err
    else .ok ()
  have hpk : processKey A i f = ask.bind fun _ => (generateKeyPair A i f).bind fun secret =>
      (PkRun.look fun t => loadPubKey t.view i.cls (keyId i.x)).bind fun _ =>
      (PkRun.look fun t => loadPrivKey A t.view i.cls (keyId i.x) secret).bind fun _ =>
      if i.aliasName = [] then PkRun.look fun _ => .ok () else makeAlias i f := rfl
  rw [hpk]
  by_cases hask : i.aliasName ≠ [] ∧ ¬ (t.stat (etcDir i.cls ++ "/".toList ++ i.aliasName)).notExist ∧ ¬ i.force ∧ i.answer ≠ ['y'] ∧ i.answer ≠ ['Y']
  · left
    have : (ask t).2.2 = .err := by simp only [ask, PkRun.look, if_pos hask]
    rw [PkRun.bind_err this]
    refine ⟨rfl, .inl ⟨hask.1, by simpa using hask.2.1, ?_⟩⟩
    rintro (h | h | h)
    · exact hask.2.2.1 h
    · exact hask.2.2.2.1 h
    · exact hask.2.2.2.2 h
  · have hok : (ask t).2.2 = .ok () := by simp only [ask, PkRun.look, if_neg hask]
    rw [PkRun.bind_ok hok]
    have ha1 : (ask t).1 = [] := rfl
    have ha2 : (ask t).2.1 = t := rfl
    rw [ha1, ha2, List.nil_append]
    have hcons : i.aliasName = [] ∨ (t.stat (etcDir i.cls ++ "/".toList ++ i.aliasName)).notExist = true ∨ Consent i := by
      by_contra hc
      apply hask
      simp only [not_or, Consent] at hc
      exact ⟨hc.1, hc.2.1, hc.2.2.1, hc.2.2.2.1, hc.2.2.2.2⟩
    rw [generateKeyPair]
    rcases hp : promptPassphrase true i.pass1 i.pass2 with p | - | -
    · right
      refine ⟨p, rfl, hcons, ?_⟩
      obtain ⟨s1, s2, s3, s4⟩ := save_spec A i.cls (keyId i.x) i.x i.d (pkeygenSecret p) i.nonce f t hn hf hid (pkeygenSecret_ok p)
      have hlook : (PkRun.look (fun _ => Res.ok p) t).2.2 = .ok p := rfl
      intro c1 c2
      change (∀ s ∈ _, SaveState i.cls (keyId i.x) c1 c2 t s) at s1
      change SaveState i.cls (keyId i.x) c1 c2 t _ at s2
      generalize hS : saveKeyPairT A i.cls (keyId i.x) i.x i.d (pkeygenSecret p) i.nonce f = S at *
      have hgen : ((PkRun.look fun _ => Res.ok p).bind fun secret => (saveKeyPairT A i.cls (keyId i.x) i.x i.d (pkeygenSecret secret) i.nonce f).bind
          fun _ => PkRun.look fun _ => Res.ok (pkeygenSecret secret)) t = (S.bind fun _ => PkRun.look fun _ => Res.ok (pkeygenSecret p)) t := by
        rw [PkRun.bind_ok hlook, hS]
        rfl
      refine ⟨(S t).1, s1, ?_⟩
      rcases hr : (S t).2.2 with u | - | -
      · right
        obtain ⟨t1, g1, g2, g3⟩ := s3 hr
        refine ⟨t1, g1, g2, ?_⟩
        have hgen2 := hgen
        rw [PkRun.bind_ok (f := fun _ => PkRun.look fun _ => Res.ok (pkeygenSecret p)) hr] at hgen2
        have hst : Stored (savedTree i.cls (keyId i.x) c1 c2 t1) i.cls (keyId i.x) c1 c2 := saved_stored g2
        obtain ⟨l1, l2⟩ := loads_of_stored hid hi.x1 hi.d1 hi.nonce (pkeygenSecret_ok p) hst
        rw [PkRun.bind_ok (a := pkeygenSecret p) (by rw [hgen2]; rfl), hgen2, g3]
        simp only [PkRun.look, List.append_nil]
        rw [PkRun.bind_ok (a := i.x) l1, PkRun.bind_ok (a := i.d) l2]
        simp only [List.nil_append]
        split
        · simp [c1, c2, PkRun.look]
        · rfl
      · left
        have hgen2 := hgen
        rw [PkRun.bind_err (f := fun _ => PkRun.look fun _ => Res.ok (pkeygenSecret p)) hr] at hgen2
        rw [PkRun.bind_err (by rw [hgen2]), hgen2]
        exact ⟨_, _, rfl, by simp, s2, fun h => by rw [s4 h.1 h.2.1 h.2.2] at hr; simp at hr⟩
      · left
        have hgen2 := hgen
        rw [PkRun.bind_panic (f := fun _ => PkRun.look fun _ => Res.ok (pkeygenSecret p)) hr] at hgen2
        rw [PkRun.bind_panic (by rw [hgen2]), hgen2]
        exact ⟨_, _, rfl, by simp, s2, fun h => by rw [s4 h.1 h.2.1 h.2.2] at hr; simp at hr⟩
    · left
      refine ⟨?_, .inr rfl⟩
      rw [PkRun.bind_err]
      · rfl
      · rfl
    · exfalso
      simp only [promptPassphrase] at hp
      split at hp
      · simp at hp
      · split_ifs at hp
        split at hp
        · simp at hp
        · split_ifs at hp

/-- Making the alias. -/
theorem makeAlias_spec (i : PkInput) (f : PkFaults) (u : FsTree) (hd : u.AllDirs (etcNames i.cls)) (ha : SimpleName i.aliasName) :
    let q := etcNames i.cls ++ [i.aliasName]
    let ex := !(u.stat (etcDir i.cls ++ "/".toList ++ i.aliasName)).notExist
    let new := FsEntry.link (etcDir i.cls ++ "/".toList ++ keyId i.x)
    (ex = true → u.get q ≠ none) ∧
    makeAlias i f u =
      if ex = true then
        if f.remove = true ∧ ¬ (u.get q = some .dir ∧ u.hasChild q = true) then
          if f.symlink = true then ([u.erase q, (u.erase q).set q new], (u.erase q).set q new, .ok ())
          else ([u.erase q], u.erase q, .err)
        else ([], u, .err)
      else if f.symlink = true ∧ u.get q = none then ([u.set q new], u.set q new, .ok ()) else ([], u, .err) := by
  intro q ex new
  have hsp := splitPath_etc i.cls i.aliasName ha.2
  have hpl : ∀ v : FsTree, v.AllDirs (etcNames i.cls) → v.place (splitPath (etcDir i.cls ++ "/".toList ++ i.aliasName)) = some q := by
    intro v hv
    rw [hsp]
    exact FsTree.place_dirs v _ (proper_etc i.cls) hv _ ha.1
  have hex : ex = true → u.get q ≠ none := by
    intro h hg
    simp only [ex, FsTree.stat, hsp] at h
    rw [FsTree.resolve_last u 40 _ (proper_etc i.cls) hd _ ha.1] at h
    change u.get (etcNames i.cls ++ [i.aliasName]) = none at hg
    rw [hg] at h
    simp [FsLook.notExist] at h
  refine ⟨hex, ?_⟩
  have hsym : ∀ v : FsTree, v.AllDirs (etcNames i.cls) → symlinkT (etcDir i.cls ++ "/".toList ++ keyId i.x) (etcDir i.cls ++ "/".toList ++ i.aliasName) f.symlink v =
      if f.symlink = true ∧ v.get q = none then ([v.set q new], v.set q new, .ok ()) else ([], v, .err) := by
    intro v hv
    rw [symlinkT, PkRun.step, hpl v hv]
    cases f.symlink
    · simp
    · simp only [Bool.not_true, Bool.false_eq_true, if_false, true_and]
      rcases v.get q with - | e
      · simp [new]
      · simp
  have hne : ∀ r, r ≠ [] → r <+: etcNames i.cls → r ≠ q := by
    rintro r - hr rfl
    exact not_prefix_longer hr
  have her : (u.erase q).AllDirs (etcNames i.cls) := by
    intro r h0 hr
    rw [FsTree.get_erase_ne _ (hne r h0 hr)]
    exact hd r h0 hr
  rw [makeAlias]
  by_cases he : ex = true
  · rw [if_pos he]
    have he' : (u.stat (etcDir i.cls ++ "/".toList ++ i.aliasName)).notExist = false := by simpa [ex] using he
    have hrem : removeExisting (etcDir i.cls ++ "/".toList ++ i.aliasName) f.remove u =
        if f.remove = true ∧ ¬ (u.get q = some .dir ∧ u.hasChild q = true) then ([u.erase q], u.erase q, .ok ()) else ([], u, .err) := by
      rw [removeExisting, he', if_neg (by simp), removeT, PkRun.step, hpl u hd]
      cases f.remove
      · simp
      · simp only [Bool.not_true, Bool.false_eq_true, if_false, true_and]
        have := hex he
        rcases hg : u.get q with - | c | - | l
        · exact absurd hg this
        · simp
        · cases hc : u.hasChild q <;> simp
        · simp
    by_cases hc : f.remove = true ∧ ¬ (u.get q = some .dir ∧ u.hasChild q = true)
    · rw [if_pos hc] at hrem ⊢
      rw [PkRun.bind_ok (a := ()) (by rw [hrem]), hrem]
      simp only
      rw [hsym _ her, FsTree.get_erase_self]
      simp only [and_true]
      split <;> simp
    · rw [if_neg hc] at hrem ⊢
      rw [PkRun.bind_err (by rw [hrem]), hrem]
  · rw [if_neg he]
    have he' : (u.stat (etcDir i.cls ++ "/".toList ++ i.aliasName)).notExist = true := by simpa [ex] using he
    have hrem : removeExisting (etcDir i.cls ++ "/".toList ++ i.aliasName) f.remove u = ([], u, .ok ()) := by
      rw [removeExisting, if_pos he']
    rw [PkRun.bind_ok (a := ()) (by rw [hrem]), hrem]
    simp only
    rw [hsym u hd]
    simp

/-! ### The place of the alias before and after saving -/

theorem keyId_hex (x : Nat) : ∀ c ∈ keyId x, c ∈ "0123456789abcdef".toList := by
  intro c hc
  rw [keyId, List.mem_flatMap] at hc
  obtain ⟨b, -, hc⟩ := hc
  have : ∀ d, hexLow d ∈ "0123456789abcdef".toList := by
    intro d
    by_cases h : d < 16
    · have : ∀ n : Fin 16, hexLow n.val ∈ "0123456789abcdef".toList := by decide
      exact this ⟨d, h⟩
    · rw [hexLow, List.getD_eq_getElem?_getD, List.getElem?_eq_none (by simpa using h)]
      decide
  simp only [List.mem_cons, List.not_mem_nil, or_false] at hc
  rcases hc with rfl | rfl <;> exact this _

theorem keyId_not_etc (x : Nat) (cls : KeyClass) : keyId x ∉ etcNames cls := by
  intro h
  have h1 := keyId_hex x
  have : ∀ n ∈ etcNames cls, ∃ c ∈ n, c ∉ "0123456789abcdef".toList := by cases cls <;> decide
  obtain ⟨c, hc, hn⟩ := this _ h
  exact hn (h1 c hc)

theorem etcNames_length (cls : KeyClass) : (etcNames cls).length = 3 := by cases cls <;> rfl

theorem etcNames_injective {c c' : KeyClass} (h : etcNames c = etcNames c') : c = c' := by
  revert h; cases c <;> cases c' <;> decide

/-- Where a place is not affected by saving. -/
theorem saved_get {cls : KeyClass} {id : Path} {c1 c2 : Bytes} {t t1 : FsTree} (hg : FsTree.Grow (etcNames cls ++ [id]) t t1) (r : List Path)
    (hr : ¬ etcNames cls ++ [id] <+: r) : (savedTree cls id c1 c2 t1).get r = t.get r ∨
      (r ≠ [] ∧ r <+: etcNames cls ∧ t.get r = none ∧ (savedTree cls id c1 c2 t1).get r = some .dir) := by
  have e : (savedTree cls id c1 c2 t1).get r = t1.get r := by
    rw [savedTree, FsTree.get_set_ne, FsTree.get_set_ne]
    · rintro rfl; exact hr (List.prefix_append _ _)
    · rintro rfl; exact hr (List.prefix_append _ _)
  rw [e]
  rcases hg r with h | ⟨h0, h1, h2, h3⟩
  · exact .inl h
  · rcases List.prefix_concat_iff.mp h1 with h | h
    · exact absurd (h ▸ List.prefix_rfl) hr
    · exact .inr ⟨h0, h, h2, h3⟩

theorem saveState_get {cls : KeyClass} {id : Path} {c1 c2 : Bytes} {t s : FsTree} (h : SaveState cls id c1 c2 t s) (r : List Path)
    (hr : ¬ etcNames cls ++ [id] <+: r) : s.get r = t.get r ∨
      (r ≠ [] ∧ r <+: etcNames cls ∧ t.get r = none ∧ s.get r = some .dir) := by
  rcases h with h | ⟨t1, k, h, -, rfl | rfl⟩
  · rcases h r with h | ⟨h0, h1, h2, h3⟩
    · exact .inl h
    · rcases List.prefix_concat_iff.mp h1 with h | h
      · exact absurd (h ▸ List.prefix_rfl) hr
      · exact .inr ⟨h0, h, h2, h3⟩
  · have e : (t1.set (etcNames cls ++ [id] ++ [privName cls]) (.file (c1.take k))).get r = t1.get r := by
      rw [FsTree.get_set_ne]
      rintro rfl; exact hr (List.prefix_append _ _)
    rw [e]
    rcases h r with h | ⟨h0, h1, h2, h3⟩
    · exact .inl h
    · rcases List.prefix_concat_iff.mp h1 with h | h
      · exact absurd (h ▸ List.prefix_rfl) hr
      · exact .inr ⟨h0, h, h2, h3⟩
  · exact saved_get h r hr

theorem not_prefix_alias {E : List Path} {id a : Path} (h : a ≠ id) (p : List Path) : ¬ E ++ [id] <+: E ++ [a] ++ p := by
  rintro ⟨r, hr⟩
  simp only [List.append_assoc, List.cons_append, List.nil_append, List.append_cancel_left_eq, List.cons.injEq] at hr
  exact h hr.1.symm

theorem allDirs_parents {t : FsTree} (hp : ∀ p n, t.get (p ++ [n]) ≠ none → p = [] ∨ t.get p = some .dir) (q : List Path) :
    ∀ n, t.get (q ++ [n]) ≠ none → t.AllDirs q := by
  induction q using List.reverseRecOn with
  | nil => intro n _; exact FsTree.allDirs_nil
  | append_singleton q m ih =>
    intro n h
    rcases hp _ _ h with h | h
    · simp at h
    · exact FsTree.allDirs_snoc.mpr ⟨ih m (by rw [h]; simp), h⟩

/-- The place of the alias is not affected by saving. -/
theorem alias_place {i : PkInput} {c1 c2 : Bytes} {t t1 : FsTree} (hi : GoodInput i) (hn : NormalTree t i.cls) (hf : FreshId t i.cls (keyId i.x))
    (ha : SimpleName i.aliasName) (hne : i.aliasName ≠ keyId i.x) (hg : FsTree.Grow (etcNames i.cls ++ [keyId i.x]) t t1)
    (hd : t1.AllDirs (etcNames i.cls ++ [keyId i.x])) :
    let u := savedTree i.cls (keyId i.x) c1 c2 t1
    u.get (etcNames i.cls ++ [i.aliasName]) = t.get (etcNames i.cls ++ [i.aliasName]) ∧
    u.hasChild (etcNames i.cls ++ [i.aliasName]) = t.hasChild (etcNames i.cls ++ [i.aliasName]) ∧
    (u.stat (etcDir i.cls ++ "/".toList ++ i.aliasName)).notExist = (t.stat (etcDir i.cls ++ "/".toList ++ i.aliasName)).notExist := by
  intro u
  have hget : ∀ p, u.get (etcNames i.cls ++ [i.aliasName] ++ p) = t.get (etcNames i.cls ++ [i.aliasName] ++ p) := by
    intro p
    rcases saved_get (c1 := c1) (c2 := c2) hg _ (not_prefix_alias hne p) with h | ⟨-, h, -⟩
    · exact h
    · have := h.length_le
      simp at this
  have hget0 : u.get (etcNames i.cls ++ [i.aliasName]) = t.get (etcNames i.cls ++ [i.aliasName]) := by simpa using hget []
  have hE : u.AllDirs (etcNames i.cls) :=
    (saved_stored (c1 := c1) (c2 := c2) hd).dirs |> fun h => FsTree.AllDirs.prefix h (List.prefix_append _ _)
  refine ⟨hget0, ?_, ?_⟩
  · rw [Bool.eq_iff_iff, FsTree.hasChild_iff, FsTree.hasChild_iff]
    simp only [hget]
  · by_cases hT : t.AllDirs (etcNames i.cls)
    · rw [FsTree.stat, FsTree.stat, splitPath_etc i.cls i.aliasName ha.2]
      rw [FsTree.resolve_agree (E := etcNames i.cls) (id := keyId i.x) ?_ hf.unnamed]
      · intro h; have := List.prefix_nil.mp h; simp at this
      · simp only [List.mem_cons, List.mem_append, List.not_mem_nil, or_false, not_or]
        exact ⟨(keyId_simple hi.x0).1.1, keyId_not_etc _ _, hne.symm⟩
      · intro r hr
        rcases saved_get (c1 := c1) (c2 := c2) hg r hr with h | ⟨h0, h1, h2, -⟩
        · exact h
        · rw [hT r h0 h1] at h2; simp at h2
    · have hnone : t.get (etcNames i.cls ++ [i.aliasName]) = none := by
        by_contra h
        exact hT (allDirs_parents hn.parents _ _ h)
      rw [FsTree.stat, FsTree.stat, splitPath_etc i.cls i.aliasName ha.2, FsTree.resolve_last u 40 _ (proper_etc i.cls) hE _ ha.1, hget0, hnone]
      have hnl : t.NoLinks (etcNames i.cls ++ [i.aliasName]) := by
        intro q h0 hq
        rcases List.prefix_concat_iff.mp hq with rfl | hq
        · exact .inl hnone
        · exact hn.plain q h0 hq
      rcases FsTree.resolve_noLinks t 40 (etcNames i.cls ++ [i.aliasName]) (proper_key ha) hnl with ⟨h, -⟩ | ⟨a, n, b, -, -, -, h⟩
      · exact absurd (FsTree.allDirs_snoc.mp h).1 hT
      · rw [h]
        by_cases hb : b = [] <;> simp [hb, FsLook.notExist]

/-- An alias that exists is in its place. -/
theorem alias_exists {i : PkInput} {t : FsTree} (hn : NormalTree t i.cls) (ha : SimpleName i.aliasName)
    (h : (t.stat (etcDir i.cls ++ "/".toList ++ i.aliasName)).notExist = false) : t.get (etcNames i.cls ++ [i.aliasName]) ≠ none := by
  intro hnone
  have hnl : t.NoLinks (etcNames i.cls ++ [i.aliasName]) := by
    intro q h0 hq
    rcases List.prefix_concat_iff.mp hq with rfl | hq
    · exact .inl hnone
    · exact hn.plain q h0 hq
  rw [FsTree.stat, splitPath_etc i.cls i.aliasName ha.2] at h
  rcases FsTree.resolve_noLinks t 40 (etcNames i.cls ++ [i.aliasName]) (proper_key ha) hnl with ⟨h', -⟩ | ⟨a, n, b, -, -, -, h'⟩
  · have := (FsTree.allDirs_snoc.mp h').2
    rw [hnone] at this
    simp at this
  · rw [h'] at h
    split at h <;> simp [FsLook.notExist] at h

/-- All states of a run and its end. -/
theorem run_cases (A : Aead) (i : PkInput) (f : PkFaults) (t : FsTree) (hi : GoodInput i) (hn : NormalTree t i.cls)
    (hf : FreshId t i.cls (keyId i.x)) (ha : i.aliasName = [] ∨ SimpleName i.aliasName) :
    let q := etcNames i.cls ++ [i.aliasName]
    let new := FsEntry.link (etcDir i.cls ++ "/".toList ++ keyId i.x)
    let old := (t.stat (etcDir i.cls ++ "/".toList ++ i.aliasName)).notExist = false
    (processKey A i f t = ([], t, .err) ∧ ((i.aliasName ≠ [] ∧ old ∧ ¬ Consent i) ∨ promptPassphrase true i.pass1 i.pass2 = .err)) ∨
    ∃ p, promptPassphrase true i.pass1 i.pass2 = .ok p ∧ (i.aliasName = [] ∨ ¬ old ∨ Consent i) ∧
      let c1 := privContent A (pkeygenSecret p) i.nonce i.d
      let c2 := pubContent i.x
      ∃ l, (∀ s ∈ l, SaveState i.cls (keyId i.x) c1 c2 t s) ∧
        ((∃ s r, processKey A i f t = (l, s, r) ∧ r ≠ .ok () ∧ SaveState i.cls (keyId i.x) c1 c2 t s ∧
            (¬ (4 ≤ f.mkdirs ∧ f.priv = .done ∧ f.pub = .done) ∨
              (Stored s i.cls (keyId i.x) c1 c2 ∧ i.aliasName ≠ [] ∧ (i.aliasName = keyId i.x ∨ (old ∧ t.get q ≠ none ∧ (f.remove = false ∨ (t.get q = some .dir ∧ t.hasChild q = true))) ∨
                (¬ old ∧ (f.symlink = false ∨ t.get q ≠ none)))))) ∨
         ∃ t1, FsTree.Grow (etcNames i.cls ++ [keyId i.x]) t t1 ∧ t1.AllDirs (etcNames i.cls ++ [keyId i.x]) ∧
          let u := savedTree i.cls (keyId i.x) c1 c2 t1
          ((i.aliasName = [] ∧ processKey A i f t = (l, u, .ok ())) ∨
           (i.aliasName ≠ [] ∧ i.aliasName ≠ keyId i.x ∧ u.get q = t.get q ∧
             ((old ∧ Consent i ∧ t.get q ≠ none ∧ ¬ (t.get q = some .dir ∧ t.hasChild q = true) ∧ f.symlink = true ∧
                processKey A i f t = (l ++ [u.erase q, (u.erase q).set q new], (u.erase q).set q new, .ok ())) ∨
              (old ∧ Consent i ∧ t.get q ≠ none ∧ ¬ (t.get q = some .dir ∧ t.hasChild q = true) ∧ f.symlink = false ∧
                processKey A i f t = (l ++ [u.erase q], u.erase q, .err)) ∨
              (¬ old ∧ t.get q = none ∧ processKey A i f t = (l ++ [u.set q new], u.set q new, .ok ())))))) := by
  intro q new old
  rcases processKey_spec A i f t hi hn hf with h | ⟨p, hp, hc, l, hl, hrest⟩
  · exact .inl h
  refine .inr ⟨p, hp, ?_, l, hl, ?_⟩
  · rcases hc with h | h | h
    · exact .inl h
    · exact .inr (.inl (fun ho => by simp only [old] at ho; rw [ho] at h; simp at h))
    · exact .inr (.inr h)
  rcases hrest with ⟨s, r, h1, h2, h3, h4⟩ | ⟨t1, g1, g2, g3⟩
  · exact .inl ⟨s, r, h1, h2, h3, .inl h4⟩
  by_cases he : i.aliasName = []
  · rw [if_pos he] at g3
    exact .inr ⟨t1, g1, g2, .inl ⟨he, g3⟩⟩
  rw [if_neg he] at g3
  have ha' : SimpleName i.aliasName := ha.resolve_left he
  have hss : SaveState i.cls (keyId i.x) (privContent A (pkeygenSecret p) i.nonce i.d) (pubContent i.x) t
      (savedTree i.cls (keyId i.x) (privContent A (pkeygenSecret p) i.nonce i.d) (pubContent i.x) t1) :=
    .inr ⟨t1, (pubContent i.x).length, g1, g2, .inr (by rw [List.take_length])⟩
  have hst := saved_stored (c1 := privContent A (pkeygenSecret p) i.nonce i.d) (c2 := pubContent i.x) g2
  have hE : (savedTree i.cls (keyId i.x) (privContent A (pkeygenSecret p) i.nonce i.d) (pubContent i.x) t1).AllDirs (etcNames i.cls) :=
    FsTree.AllDirs.prefix hst.dirs (List.prefix_append _ _)
  by_cases hid : i.aliasName = keyId i.x
  · obtain ⟨-, hm⟩ := makeAlias_spec i f _ hE ha'
    left
    have hdir := hst.dirs (etcNames i.cls ++ [keyId i.x]) (by simp) List.prefix_rfl
    have hch : (savedTree i.cls (keyId i.x) (privContent A (pkeygenSecret p) i.nonce i.d) (pubContent i.x) t1).hasChild
        (etcNames i.cls ++ [i.aliasName]) = true := by
      rw [FsTree.hasChild_iff]
      exact ⟨privName i.cls, by rw [hid, hst.priv]; simp⟩
    have hmm : makeAlias i f (savedTree i.cls (keyId i.x) (privContent A (pkeygenSecret p) i.nonce i.d) (pubContent i.x) t1) =
        ([], savedTree i.cls (keyId i.x) (privContent A (pkeygenSecret p) i.nonce i.d) (pubContent i.x) t1, .err) := by
      rw [hm]
      have hd' : (savedTree i.cls (keyId i.x) (privContent A (pkeygenSecret p) i.nonce i.d) (pubContent i.x) t1).get
          (etcNames i.cls ++ [i.aliasName]) = some .dir := by rw [hid]; exact hdir
      rw [hch, hd']
      simp
    rw [hmm] at g3
    have g4 : processKey A i f t = (l, savedTree i.cls (keyId i.x) (privContent A (pkeygenSecret p) i.nonce i.d) (pubContent i.x) t1, .err) := by
      rw [g3, List.append_nil]
    refine ⟨_, _, g4, by simp, hss, .inr ⟨hst, he, .inl hid⟩⟩
  obtain ⟨p1, p2, p3⟩ := alias_place (c1 := privContent A (pkeygenSecret p) i.nonce i.d) (c2 := pubContent i.x) hi hn hf ha' hid g1 g2
  obtain ⟨-, hm⟩ := makeAlias_spec i f _ hE ha'
  rw [p1, p2, p3] at hm
  by_cases hold : old
  · have hq := alias_exists hn ha' hold
    have hcon : Consent i := by
      rcases hc with h | h | h
      · exact absurd h he
      · simp only [old] at hold; rw [hold] at h; simp at h
      · exact h
    have hold' : (!(t.stat (etcDir i.cls ++ "/".toList ++ i.aliasName)).notExist) = true := by simpa [old] using hold
    rw [if_pos hold'] at hm
    by_cases hrm : f.remove = true ∧ ¬ (t.get (etcNames i.cls ++ [i.aliasName]) = some .dir ∧ t.hasChild (etcNames i.cls ++ [i.aliasName]) = true)
    · rw [if_pos hrm] at hm
      right
      refine ⟨t1, g1, g2, .inr ⟨he, hid, p1, ?_⟩⟩
      by_cases hsym : f.symlink = true
      · rw [if_pos hsym] at hm
        rw [hm] at g3
        exact .inl ⟨hold, hcon, hq, hrm.2, hsym, g3⟩
      · rw [if_neg hsym] at hm
        rw [hm] at g3
        exact .inr (.inl ⟨hold, hcon, hq, hrm.2, by simpa using hsym, g3⟩)
    · rw [if_neg hrm] at hm
      rw [hm] at g3
      left
      have g4 : processKey A i f t = (l, savedTree i.cls (keyId i.x) (privContent A (pkeygenSecret p) i.nonce i.d) (pubContent i.x) t1, .err) := by
        rw [g3, List.append_nil]
      refine ⟨_, _, g4, by simp, hss, .inr ⟨hst, he, .inr (.inl ⟨hold, hq, ?_⟩)⟩⟩
      by_cases h : f.remove = true
      · right
        by_contra hx
        exact hrm ⟨h, hx⟩
      · left; simpa using h
  · have hold' : ¬ (!(t.stat (etcDir i.cls ++ "/".toList ++ i.aliasName)).notExist) = true := by simpa [old] using hold
    rw [if_neg hold'] at hm
    by_cases hsy : f.symlink = true ∧ t.get (etcNames i.cls ++ [i.aliasName]) = none
    · rw [if_pos hsy] at hm
      rw [hm] at g3
      right
      exact ⟨t1, g1, g2, .inr ⟨he, hid, p1, .inr (.inr ⟨hold, hsy.2, g3⟩)⟩⟩
    · rw [if_neg hsy] at hm
      rw [hm] at g3
      left
      have g4 : processKey A i f t = (l, savedTree i.cls (keyId i.x) (privContent A (pkeygenSecret p) i.nonce i.d) (pubContent i.x) t1, .err) := by
        rw [g3, List.append_nil]
      refine ⟨_, _, g4, by simp, hss, .inr ⟨hst, he, .inr (.inr ⟨hold, ?_⟩)⟩⟩
      by_cases h : f.symlink = true
      · right
        intro hx
        exact hsy ⟨h, hx⟩
      · left; simpa using h

end Poodle
