import Verif.Model.KeyExist
import Verif.Props.KeyFile

/-
Property C227: keys that exist (/repo/src/util/lc_util.go:101-117, :311-331).
-/

namespace Poodle.Props
open Poodle Poodle.Spec

/-! ### C227 A key that exists can be loaded -/

/-- The full claim: at every point of saving a pair where there was none, a key that exists loads. -/
def ExistingLoads : Prop := ∀ (A : Aead) (fs : FS) (cls : KeyClass) (id : Path) (pub priv : Int) (secret nonce : Bytes) (d : DirState)
  (e1 e2 : WriteEnd), 0 ≤ pub → pub < 2 ^ 256 → 0 ≤ priv → priv < 2 ^ 256 → nonce.length = 12 →
  existPubKey fs cls id = false → existPrivKey fs cls id = false →
  ∀ s ∈ (saveKeyPair A fs cls id pub priv secret nonce d e1 e2).1,
    (existPubKey s cls id = true → loadPubKey s cls id = .ok pub.toNat) ∧
    (existPrivKey s cls id = true → loadPrivKey A s cls id secret = .ok priv.toNat)

/-- C227 is false: a save that fails after the private key file was opened leaves a private key that exists, loading of which panics. -/
theorem C227_refuted : ¬ ExistingLoads := by
  intro h
  have h1 := (h trivialAead (fun _ => none) .node ['a'] 5 7 (List.replicate 16 0) (List.replicate 12 0) .dir (.failedAfter 0) .done
    (by decide) (by decide) (by decide) (by decide) (by decide) rfl rfl
    (FS.set (fun _ => none) (privKeyPath .node ['a']) []) (by
      rw [saveKeyPair]
      simp only
      rw [if_neg (by decide), if_pos (by simp [writeFile])]
      exact List.mem_cons_of_mem _ (by simp [writeFile]))).2 (by simp [existPrivKey, FS.set_self])
  have h2 : loadPrivKey trivialAead (FS.set (fun _ => none) (privKeyPath .node ['a']) []) .node ['a'] (List.replicate 16 0) = .panic := by
    rw [C75_priv_panics_iff_partial]
    exact ⟨[], [], FS.set_self _ _ _, .nil, Or.inl (by simp)⟩
  rw [h2] at h1
  simp at h1

/-- C227, the other direction: a key that loads exists, and loading one that does not exist is an error, not a panic. -/
theorem C227_loads_exist (A : Aead) (fs : FS) (cls : KeyClass) (id : Path) (secret : Bytes) :
    (∀ x, loadPubKey fs cls id = .ok x → existPubKey fs cls id = true) ∧
    (∀ x, loadPrivKey A fs cls id secret = .ok x → existPrivKey fs cls id = true) ∧
    (existPubKey fs cls id = false → loadPubKey fs cls id = .err) ∧
    (existPrivKey fs cls id = false → loadPrivKey A fs cls id secret = .err) := by
  have h1 : existPubKey fs cls id = false → loadPubKey fs cls id = .err := by
    intro h
    rw [existPubKey, Option.isSome_eq_false_iff, Option.isNone_iff_eq_none] at h
    simp [loadPubKey, loadKeyData, h]
  have h2 : existPrivKey fs cls id = false → loadPrivKey A fs cls id secret = .err := by
    intro h
    rw [existPrivKey, Option.isSome_eq_false_iff, Option.isNone_iff_eq_none] at h
    simp [loadPrivKey, loadKeyData, h]
  refine ⟨fun x hx => ?_, fun x hx => ?_, h1, h2⟩
  · by_contra hc
    rw [h1 (by simpa using hc)] at hx
    simp at hx
  · by_contra hc
    rw [h2 (by simpa using hc)] at hx
    simp at hx

/-- C227 for saves that report success: both keys exist and load. -/
theorem C227_saved_partial (A : Aead) (fs : FS) (cls : KeyClass) (id : Path) (pub priv : Int) (secret nonce : Bytes) (d : DirState)
    (e1 e2 : WriteEnd) (hp0 : 0 ≤ pub) (hp1 : pub < 2 ^ 256) (hd0 : 0 ≤ priv) (hd1 : priv < 2 ^ 256) (hn : nonce.length = 12)
    (states : List FS) (h : saveKeyPair A fs cls id pub priv secret nonce d e1 e2 = (states, .ok ())) :
    ∃ s, states.getLast? = some s ∧ existPubKey s cls id = true ∧ existPrivKey s cls id = true ∧
      loadPubKey s cls id = .ok pub.toNat ∧ loadPrivKey A s cls id secret = .ok priv.toNat := by
  obtain ⟨s, h1, h2, h3, -⟩ := C72_roundtrip A fs cls id pub priv secret nonce d e1 e2 hp0 hp1 hd0 hd1 hn states h
  have := C227_loads_exist A s cls id secret
  exact ⟨s, h1, this.1 _ h2, this.2.1 _ h3, h2, h3⟩

/-- C227 at every point of a save: if the public key exists, where there was none, then the private key exists and loads. -/
theorem C227_public_last_partial (A : Aead) (fs : FS) (cls : KeyClass) (id : Path) (pub priv : Int) (secret nonce : Bytes) (d : DirState)
    (e1 e2 : WriteEnd) (hd0 : 0 ≤ priv) (hd1 : priv < 2 ^ 256) (hn : nonce.length = 12) (hfresh : existPubKey fs cls id = false)
    (s : FS) (h : s ∈ (saveKeyPair A fs cls id pub priv secret nonce d e1 e2).1) (hex : existPubKey s cls id = true) :
    existPrivKey s cls id = true ∧ loadPrivKey A s cls id secret = .ok priv.toNat := by
  rw [existPubKey, Option.isSome_eq_false_iff, Option.isNone_iff_eq_none] at hfresh
  have hl := C73_crash_order A fs cls id pub priv secret nonce d e1 e2 hd0 hd1 hn hfresh s h (by
    intro hc
    rw [existPubKey, hc] at hex
    simp at hex)
  exact ⟨(C227_loads_exist A s cls id secret).2.1 _ hl, hl⟩

/-- C227 for saving a public key alone: at every point only the file of this key differs, and what it contains then is a beginning of the
new content; so no private key and no other public key is affected. -/
theorem C227_pub_states (A : Aead) (fs : FS) (cls : KeyClass) (id : Path) (pub : Int) (d : DirState) (e : WriteEnd) (s : FS)
    (h : s ∈ (savePubKey fs cls id pub d e).1) :
    (s = fs ∨ ∃ c, s (pubKeyPath cls id) = some c ∧ c <+: pubContent pub) ∧
    (∀ c i secret, loadPrivKey A s c i secret = loadPrivKey A fs c i secret ∧ existPrivKey s c i = existPrivKey fs c i) ∧
    (∀ c i, (c, i) ≠ (cls, id) → loadPubKey s c i = loadPubKey fs c i ∧ existPubKey s c i = existPubKey fs c i) := by
  have hs : s = fs ∨ ∃ k, s = fs.set (pubKeyPath cls id) ((pubContent pub).take k) := by
    rw [savePubKey.eq_def] at h
    rcases d with - | - | -
    · rcases List.mem_cons.mp h with h | h
      · exact .inl h
      · rcases e with - | - | m
        · simp only [writeFile, List.mem_map] at h
          obtain ⟨k, -, rfl⟩ := h
          exact .inr ⟨k, rfl⟩
        · simp [writeFile] at h
        · simp only [writeFile, List.mem_map] at h
          obtain ⟨k, -, rfl⟩ := h
          exact .inr ⟨k, rfl⟩
    · exact .inl (List.mem_singleton.mp h)
    · exact .inl (List.mem_singleton.mp h)
  rcases hs with rfl | ⟨k, rfl⟩
  · exact ⟨.inl rfl, fun _ _ _ => ⟨rfl, rfl⟩, fun _ _ _ => ⟨rfl, rfl⟩⟩
  · refine ⟨.inr ⟨_, FS.set_self _ _ _, List.take_prefix _ _⟩, fun c i secret => ?_, fun c i hci => ?_⟩
    · have e := FS.set_other fs ((pubContent pub).take k) (C71_pub_ne_priv cls c id i).symm
      exact ⟨by rw [loadPrivKey, loadPrivKey, loadKeyData, loadKeyData, e], by rw [existPrivKey, existPrivKey, e]⟩
    · have hne : pubKeyPath c i ≠ pubKeyPath cls id := by
        intro hc
        obtain ⟨rfl, rfl⟩ := C71_pub_injective _ _ _ _ hc
        exact hci rfl
      have e := FS.set_other fs ((pubContent pub).take k) hne
      exact ⟨by rw [loadPubKey, loadPubKey, loadKeyData, loadKeyData, e], by rw [existPubKey, existPubKey, e]⟩

/-- C227: saving a public key alone succeeds exactly if the directory is there and the write completes, and then the key loads. -/
theorem C227_pub_saved (fs : FS) (cls : KeyClass) (id : Path) (pub : Int) (d : DirState) (e : WriteEnd) (hp0 : 0 ≤ pub)
    (hp1 : pub < 2 ^ 256) :
    ((savePubKey fs cls id pub d e).2 = .ok () ↔ d = .dir ∧ e = .done) ∧
    ((savePubKey fs cls id pub d e).2 = .ok () → ∃ s, (savePubKey fs cls id pub d e).1.getLast? = some s ∧
      loadPubKey s cls id = .ok pub.toNat ∧ existPubKey s cls id = true) := by
  have h1 : (savePubKey fs cls id pub d e).2 = .ok () ↔ d = .dir ∧ e = .done := by
    rcases d with - | - | - <;> rcases e with - | - | m <;> simp [savePubKey, writeFile]
  refine ⟨h1, fun h => ?_⟩
  obtain ⟨rfl, rfl⟩ := h1.mp h
  refine ⟨fs.set (pubKeyPath cls id) (pubContent pub), ?_, loadPub_content _ _ _ _ hp0 hp1 (FS.set_self _ _ _), by simp [existPubKey, FS.set_self]⟩
  rw [savePubKey, writeFile]
  simp only
  rw [List.range_succ, List.map_append, List.map_cons, List.map_nil, ← List.cons_append, List.getLast?_concat, List.take_length]

example := (C227_loads_exist trivialAead (fun _ => none) .node ['a'] []).2.2.1 rfl
set_option maxRecDepth 100000 in
example := C227_saved_partial trivialAead (fun _ => none) .node ['a'] 5 7 (List.replicate 16 0) (List.replicate 12 0) .dir .done .done
  (by decide) (by decide) (by decide) (by decide) (by decide) _ (Prod.ext rfl (C72_succeeds _ _ _ _ _ _ _ _ (.inl (by decide))))
set_option maxRecDepth 100000 in
example := C227_public_last_partial trivialAead (fun _ => none) .node ['a'] 5 7 (List.replicate 16 0) (List.replicate 12 0) .dir .done .done
  (by decide) (by decide) (by decide) rfl _ (List.getElem_mem (n := 202) (by decide +kernel)) (by decide +kernel)
set_option maxRecDepth 100000 in
example := C227_pub_states trivialAead (fun _ => none) .node ['a'] 5 .dir .done _ (List.getElem_mem (n := 3) (by decide +kernel))
example := (C227_pub_saved (fun _ => none) .node ['a'] 5 .dir .done (by decide) (by decide)).1.mpr ⟨rfl, rfl⟩

end Poodle.Props
