import Verif.Lemmas.KeyFile

/-
Properties C71-C75, C77, C86-C89: key files (/repo/src/util/lc_util.go), AESPad (/repo/src/util/ecdsa_util.go) and the secret used
by /repo/src/main/pkeygen.go.
-/

namespace Poodle.Props
open Poodle Poodle.Spec

/-! ### C71 Key file paths do not collide -/

/-- The first letter of the directory of a class. -/
def classLetter : KeyClass → Char
  | .node => 'n'
  | .cluster => 'c'
  | .universe => 'u'
  | .service => 's'
  | .federation => 'f'

theorem classLetter_injective {c c' : KeyClass} (h : some (classLetter c) = some (classLetter c')) : c = c' := by
  cases c <;> cases c' <;> first | rfl | exact absurd h (by decide)

theorem keyDir_letter (c : KeyClass) (i r : Path) : (keyDir c i ++ r)[12]? = some (classLetter c) := by
  cases c <;> rfl

theorem pubKeyPath_letter (c : KeyClass) (i : Path) : (pubKeyPath c i)[12]? = some (classLetter c) := by
  cases c <;> exact keyDir_letter _ _ _

theorem privKeyPath_letter (c : KeyClass) (i : Path) : (privKeyPath c i)[12]? = some (classLetter c) := by
  cases c <;> exact keyDir_letter _ _ _

/-- C71: no two public key paths coincide. -/
theorem C71_pub_injective (c c' : KeyClass) (i i' : Path) (h : pubKeyPath c i = pubKeyPath c' i') : c = c' ∧ i = i' := by
  obtain rfl : c = c' := classLetter_injective (by rw [← pubKeyPath_letter c i, ← pubKeyPath_letter c' i', h])
  refine ⟨rfl, ?_⟩
  cases c <;> simpa only [pubKeyPath, keyDir, List.append_assoc, List.append_cancel_left_eq, List.append_cancel_right_eq] using h

example := C71_pub_injective .service .service ['a', '/', 'b'] ("a/b".toList) (by decide +kernel)

/-- C71: no two private key paths coincide. -/
theorem C71_priv_injective (c c' : KeyClass) (i i' : Path) (h : privKeyPath c i = privKeyPath c' i') : c = c' ∧ i = i' := by
  obtain rfl : c = c' := classLetter_injective (by rw [← privKeyPath_letter c i, ← privKeyPath_letter c' i', h])
  refine ⟨rfl, ?_⟩
  cases c <;> simpa only [privKeyPath, keyDir, List.append_assoc, List.append_cancel_left_eq, List.append_cancel_right_eq] using h

example := C71_priv_injective .service .service ['a', '/', 'b'] ("a/b".toList) (by decide +kernel)

/-- C71: no public key path is a private key path. -/
theorem C71_pub_ne_priv (c c' : KeyClass) (i i' : Path) : pubKeyPath c i ≠ privKeyPath c' i' := by
  intro h
  have h := congrArg List.getLast? h
  cases c <;> cases c' <;> simp [pubKeyPath, privKeyPath] at h

example : pubKeyPath .node ['a'] = "/etc/poodle/node/a/node_id.pub".toList ∧
    privKeyPath .service ['a', '/', 'b'] = "/etc/poodle/service/a/b/service_id".toList := by decide +kernel

/-! ### C86 Key pairs do not share files -/

/-- The claim of C86. -/
def KeyFilesDistinct : Prop := ∀ (c c' : KeyClass) (i i' : Path),
  location (pubKeyPath c i) = location (pubKeyPath c' i') → c = c' ∧ i = i'

/-- C86 is false: "a" and "./a" are the same file; so are those of class node, identifier "a", and class cluster, identifier
"../node/a/." up to the file name. -/
theorem C86_refuted : ¬ KeyFilesDistinct := by
  intro h
  have := (h .node .node ['a'] ['.', '/', 'a'] (by decide +kernel)).2
  exact absurd this (by decide)

/-- An identifier that is a proper file name. -/
def ProperName (i : Path) : Prop := i ≠ [] ∧ i ≠ ['.'] ∧ i ≠ ['.', '.'] ∧ '/' ∉ i

theorem components_ne_nil (p : Path) : components p ≠ [] := by
  cases p with
  | nil => simp [components]
  | cons c p =>
    rw [components]
    split
    · simp
    · split <;> simp

theorem components_slash (a b : Path) : components (a ++ '/' :: b) = components a ++ components b := by
  induction a with
  | nil =>
    rw [List.nil_append]
    rcases h : components b with - | ⟨x, xs⟩
    · exact absurd h (components_ne_nil b)
    · simp [components, h]
  | cons c a ih =>
    rw [List.cons_append, components, components, ih]
    rcases h : components a with - | ⟨x, xs⟩
    · exact absurd h (components_ne_nil a)
    · simp only [List.cons_append]
      split <;> rfl

theorem components_name {a : Path} (h : '/' ∉ a) : components a = [a] := by
  induction a with
  | nil => rfl
  | cons c a ih =>
    simp only [List.mem_cons, not_or] at h
    rw [components, ih h.2]
    simp [Ne.symm h.1]

theorem location_slash (a b : Path) : location (a ++ '/' :: b) = (components b).foldl follow (location a) := by
  rw [location, components_slash, List.foldl_append]
  rfl

theorem location_keyDir (c : KeyClass) (i : Path) (h : ProperName i) : location (keyDir c i) = i :: location (etcDir c) := by
  have : keyDir c i = etcDir c ++ '/' :: i := by simp [keyDir]
  rw [this, location_slash, components_name h.2.2.2, List.foldl_cons, List.foldl_nil, follow, if_neg (by simp [h.1, h.2.1]),
    if_neg h.2.2.1]

theorem location_file (c : KeyClass) (i : Path) (f : Path) (hf : components f = [f]) (hf2 : follow (location (keyDir c i)) f = f :: location (keyDir c i)) (h : ProperName i) :
    location (keyDir c i ++ '/' :: f) = f :: i :: location (etcDir c) := by
  rw [location_slash, hf, List.foldl_cons, List.foldl_nil, hf2, location_keyDir c i h]

/-- C86 for identifiers that are proper file names (not empty, not "." or "..", without '/'), such as the hexadecimal ones made
by the key generator: all files are different. -/
theorem C86_proper_names_partial (c c' : KeyClass) (i i' : Path) (h : ProperName i) (h' : ProperName i') :
    (location (pubKeyPath c i) = location (pubKeyPath c' i') → c = c' ∧ i = i') ∧
    (location (privKeyPath c i) = location (privKeyPath c' i') → c = c' ∧ i = i') ∧
    location (pubKeyPath c i) ≠ location (privKeyPath c' i') := by
  have e : ∀ (c : KeyClass) (i : Path), ProperName i → ∃ f g : Path,
      location (pubKeyPath c i) = f :: i :: location (etcDir c) ∧ location (privKeyPath c i) = g :: i :: location (etcDir c) ∧
      f.getLast? = some 'b' ∧ g.getLast? = some 'd' := by
    intro c i h
    cases c
    · exact ⟨"node_id.pub".toList, "node_id".toList, location_file _ i _ (by decide +kernel) rfl h,
        location_file _ i _ (by decide +kernel) rfl h, by decide +kernel, by decide +kernel⟩
    · exact ⟨"cluster_id.pub".toList, "cluster_id".toList, location_file _ i _ (by decide +kernel) rfl h,
        location_file _ i _ (by decide +kernel) rfl h, by decide +kernel, by decide +kernel⟩
    · exact ⟨"universe_id.pub".toList, "universe_id".toList, location_file _ i _ (by decide +kernel) rfl h,
        location_file _ i _ (by decide +kernel) rfl h, by decide +kernel, by decide +kernel⟩
    · exact ⟨"service_id.pub".toList, "service_id".toList, location_file _ i _ (by decide +kernel) rfl h,
        location_file _ i _ (by decide +kernel) rfl h, by decide +kernel, by decide +kernel⟩
    · exact ⟨"federation_id.pub".toList, "federation_id".toList, location_file _ i _ (by decide +kernel) rfl h,
        location_file _ i _ (by decide +kernel) rfl h, by decide +kernel, by decide +kernel⟩
  have etc : ∀ c c', location (etcDir c) = location (etcDir c') → c = c' := by
    intro c c' h
    cases c <;> cases c' <;> first | rfl | (revert h; decide +kernel)
  obtain ⟨f, g, e1, e2, l1, l2⟩ := e c i h
  obtain ⟨f', g', e1', e2', l1', l2'⟩ := e c' i' h'
  rw [e1, e2, e1', e2']
  refine ⟨?_, ?_, ?_⟩
  · intro he
    simp only [List.cons.injEq] at he
    exact ⟨etc _ _ he.2.2, he.2.1⟩
  · intro he
    simp only [List.cons.injEq] at he
    exact ⟨etc _ _ he.2.2, he.2.1⟩
  · intro he
    simp only [List.cons.injEq] at he
    rw [he.1, l2'] at l1
    simp at l1

example : ProperName "a1b2".toList := by unfold ProperName; decide +kernel

/-! ### C74 Key file corruption is detected -/

/-- C74: a file is accepted, with result `data`, if and only if it is the hexadecimal dump of `data` followed by the four bytes of
the checksum of `data`. -/
theorem C74_accept_iff (fs : FS) (p : Path) (data : Bytes) : loadKeyData fs p = .ok data ↔
    ∃ text crc, fs p = some text ∧ IsHexOf text (data ++ crc) ∧ crc.length = 4 ∧ bigEndian crc = (crc32 data).toNat := by
  have hcrc : ∀ crc : Bytes, crc.length = 4 → (bigEndian crc = (crc32 data).toNat ↔ crc = crcBytes data) := by
    intro crc hl
    have hv : beVal (crcBytes data) = (crc32 data).toNat := by
      rw [crcBytes, beVal_beBytes, Nat.mod_eq_of_lt]
      exact (crc32 data).isLt
    rw [← beVal_eq_bigEndian, ← hv]
    exact ⟨fun h => beVal_injective (by rw [hl, crcBytes_length]) h, fun h => by rw [h]⟩
  rw [loadKeyData]
  rcases hf : fs p with - | text
  · simp
  · simp only [Option.some.injEq]
    rw [loadKeyBytes_ok_iff, hexDecode_iff]
    constructor
    · intro h
      exact ⟨text, _, rfl, h, crcBytes_length _, (hcrc _ (crcBytes_length _)).mpr rfl⟩
    · rintro ⟨t, crc, rfl, h, hl, hv⟩
      rwa [(hcrc crc hl).mp hv] at h

/-- The checksum is CRC-32 (check value of the standard). -/
example : crc32 [0x31, 0x32, 0x33, 0x34, 0x35, 0x36, 0x37, 0x38, 0x39] = 0xCBF43926#32 := by decide +kernel

/-! ### C87 Corruption of one byte is detected -/

/-- C87: take any accepted file and replace the two hexadecimal digits of one byte by other two characters that do not denote the
same byte: the file is rejected with an error. -/
theorem C87_one_byte_detected (pre post : Bytes) (a b a' b' : UInt8) (hpre : 2 ∣ pre.length) (data : Bytes)
    (h : loadKeyBytes (pre ++ [a, b] ++ post) = .ok data) (hne : hexDecode [a', b'] ≠ hexDecode [a, b]) :
    loadKeyBytes (pre ++ [a', b'] ++ post) = .err := by
  rw [loadKeyBytes_ok_iff] at h
  rw [List.append_assoc, hexDecode_append _ _ hpre, hexDecode_append _ _ (by simp)] at h
  rw [loadKeyBytes_eq, List.append_assoc, hexDecode_append _ _ hpre, hexDecode_append _ _ (by simp)]
  rcases hx : hexDecode pre with - | x
  · rfl
  rcases hab : hexDecode [a, b] with - | ab
  · rw [hx, hab] at h; simp at h
  rcases hy : hexDecode post with - | y
  · rw [hx, hab, hy] at h; simp at h
  rw [hx, hab, hy] at h
  simp only [Option.some.injEq] at h
  rcases hab' : hexDecode [a', b'] with - | ab'
  · simp
  have hl := hexDecode_length _ _ hab
  have hl' := hexDecode_length _ _ hab'
  simp only [List.length_cons, List.length_nil] at hl hl'
  obtain ⟨u, rfl⟩ := List.length_eq_one_iff.mp (show ab.length = 1 by omega)
  obtain ⟨v, rfl⟩ := List.length_eq_one_iff.mp (show ab'.length = 1 by omega)
  have huv : v ≠ u := by
    rintro rfl
    rw [hab, hab'] at hne
    exact hne rfl
  simp only
  have hlen := congrArg List.length h
  simp only [List.length_append, crcBytes_length, List.length_cons, List.length_nil] at hlen
  rw [if_neg (by simp only [List.length_append, List.length_cons, List.length_nil]; omega)]
  rw [if_neg ?_]
  intro hc
  have hL : (x ++ ([v] ++ y)).length - 4 = data.length := by
    simp only [List.length_append, List.length_cons, List.length_nil]; omega
  rw [hL] at hc
  have hd : data = (x ++ ([u] ++ y)).take data.length := by rw [h, List.take_left]
  have hcr : crcBytes data = (x ++ ([u] ++ y)).drop data.length := by rw [h, List.drop_left]
  by_cases hpos : x.length < data.length
  · -- the byte belongs to the data
    have hsplit : ∀ w : UInt8, (x ++ ([w] ++ y)).take data.length = x ++ w :: y.take (data.length - x.length - 1) := by
      intro w
      rw [List.take_append, List.take_of_length_le (by omega)]
      congr 1
      rw [List.singleton_append, show data.length - x.length = (data.length - x.length - 1) + 1 by omega, List.take_succ_cons]
      rfl
    have hdrop : ∀ w : UInt8, (x ++ ([w] ++ y)).drop data.length = y.drop (data.length - x.length - 1) := by
      intro w
      rw [List.drop_append, List.drop_eq_nil_of_le (by omega), List.nil_append, List.singleton_append,
        show data.length - x.length = (data.length - x.length - 1) + 1 by omega, List.drop_succ_cons]
      rfl
    rw [hsplit, hdrop] at hc
    rw [hsplit] at hd
    rw [hdrop] at hcr
    rw [← hcr] at hc
    have := crcBytes_inj hc
    generalize data.length - x.length - 1 = k at this hd
    rw [hd] at this
    exact huv (crc32_one_byte this)
  · -- the byte belongs to the checksum
    have htake : ∀ w : UInt8, (x ++ ([w] ++ y)).take data.length = x.take data.length := by
      intro w
      rw [List.take_append_of_le_length (by omega)]
    have hdrop : ∀ w : UInt8, (x ++ ([w] ++ y)).drop data.length = x.drop data.length ++ w :: y := by
      intro w
      rw [List.drop_append_of_le_length (by omega)]
      rfl
    rw [htake, hdrop] at hc
    rw [htake] at hd
    rw [hdrop] at hcr
    rw [← hd, hcr] at hc
    simp only [List.append_cancel_left_eq, List.cons.injEq, and_true] at hc
    exact huv hc.symm

example : loadKeyBytes (hexEncode ([1, 2, 3] ++ crcBytes [1, 2, 3])) = .ok [1, 2, 3] ∧ hexEncode [0xAB] = [0x41, 0x42] ∧
    hexDecode [0x61, 0x42] = hexDecode [0x41, 0x42] := by decide +kernel

/-! ### C75 Key file loading never crashes -/

/-- The claim of C75. -/
def LoadNeverPanics : Prop := ∀ (A : Aead) (fs : FS) (cls : KeyClass) (id : Path) (secret : Bytes),
  loadPubKey fs cls id ≠ .panic ∧ loadPrivKey A fs cls id secret ≠ .panic

/-- C75 for public keys, exactly: a panic if and only if the file is the dump of fewer than four bytes, e.g. empty. -/
theorem C75_pub_panics_iff_partial (fs : FS) (cls : KeyClass) (id : Path) : loadPubKey fs cls id = .panic ↔
    ∃ text bytes, fs (pubKeyPath cls id) = some text ∧ IsHexOf text bytes ∧ bytes.length < 4 := by
  rw [loadPubKey, loadKeyData]
  rcases fs (pubKeyPath cls id) with - | text
  · simp
  · have he : (∃ t bytes, some text = some t ∧ IsHexOf t bytes ∧ bytes.length < 4) ↔
        ∃ bytes, hexDecode text = some bytes ∧ bytes.length < 4 := by
      simp only [Option.some.injEq, hexDecode_iff]
      exact ⟨fun ⟨t, b, h, h1⟩ => ⟨b, h ▸ h1⟩, fun ⟨b, h1⟩ => ⟨text, b, rfl, h1⟩⟩
    rw [he]
    simp only
    rw [loadKeyBytes_eq]
    rcases hexDecode text with - | o
    · simp
    · simp only [Option.some.injEq, exists_eq_left']
      split
      · rename_i h; simp [h]
      · rename_i h
        split <;> simp [h]

/-- C75 for private keys, exactly: in addition, a well formed file with fewer than 12 bytes of data. -/
theorem C75_priv_panics_iff_partial (A : Aead) (fs : FS) (cls : KeyClass) (id : Path) (secret : Bytes) :
    loadPrivKey A fs cls id secret = .panic ↔
    ∃ text bytes, fs (privKeyPath cls id) = some text ∧ IsHexOf text bytes ∧
      (bytes.length < 4 ∨ ∃ data, bytes = data ++ crcBytes data ∧ data.length < 12) := by
  rw [loadPrivKey, loadKeyData]
  rcases fs (privKeyPath cls id) with - | text
  · simp
  · have he : (∃ t bytes, some text = some t ∧ IsHexOf t bytes ∧
          (bytes.length < 4 ∨ ∃ data, bytes = data ++ crcBytes data ∧ data.length < 12)) ↔
        ∃ bytes, hexDecode text = some bytes ∧ (bytes.length < 4 ∨ ∃ data, bytes = data ++ crcBytes data ∧ data.length < 12) := by
      simp only [Option.some.injEq, hexDecode_iff]
      exact ⟨fun ⟨t, b, h, h1⟩ => ⟨b, h ▸ h1⟩, fun ⟨b, h1⟩ => ⟨text, b, rfl, h1⟩⟩
    rw [he]
    simp only
    rcases hl : loadKeyBytes text with data | - | -
    · rw [Res.bind_ok]
      rw [loadKeyBytes_ok_iff] at hl
      rw [hl]
      simp only [Option.some.injEq, exists_eq_left']
      split
      · rename_i h
        simp only [true_iff]
        exact Or.inr ⟨data, rfl, h⟩
      · rename_i h
        have hn : ¬ ((data ++ crcBytes data).length < 4 ∨ ∃ data_1, data ++ crcBytes data = data_1 ++ crcBytes data_1 ∧ data_1.length < 12) := by
          rintro (h1 | ⟨d, h1, h2⟩)
          · rw [List.length_append, crcBytes_length] at h1; omega
          · have := congrArg List.length h1
            simp only [List.length_append, crcBytes_length] at this
            omega
        simp only [hn, iff_false]
        split
        · simp
        · split <;> simp
    · simp only [Res.bind_err, reduceCtorEq, false_iff]
      rintro ⟨o, ho, h⟩
      rw [loadKeyBytes_eq, ho] at hl
      simp only at hl
      rcases h with h | ⟨d, rfl, h⟩
      · rw [if_pos h] at hl; simp at hl
      · have := (loadKeyBytes_ok_iff text d).mpr ho
        rw [loadKeyBytes_eq, ho] at this
        simp only at this
        rw [hl] at this
        simp at this
    · simp only [Res.bind_panic, true_iff]
      rw [loadKeyBytes_eq] at hl
      rcases ho : hexDecode text with - | o
      · rw [ho] at hl; simp at hl
      · rw [ho] at hl
        simp only at hl
        refine ⟨o, rfl, Or.inl ?_⟩
        by_contra hc
        rw [if_neg hc] at hl
        split at hl <;> simp at hl

/-- A trivial AEAD, to show that the law can be satisfied. -/
def trivialAead : Aead := ⟨fun _ _ p => p ++ List.replicate 16 0, fun _ _ c => some (c.take (c.length - 16)), by simp⟩

/-- C75 is false: an empty file, such as a crash between creation and writing leaves behind, makes loading panic. -/
theorem C75_refuted : ¬ LoadNeverPanics := by
  intro h
  apply (h trivialAead (fun _ => some []) .node ['a'] []).1
  rw [C75_pub_panics_iff_partial]
  exact ⟨[], [], rfl, .nil, by simp⟩

/-! ### C72 Key file round trip -/

theorem loadKeyBytes_encode (d : Bytes) : loadKeyBytes (hexEncode (d ++ crcBytes d)) = .ok d := by
  rw [loadKeyBytes_ok_iff, hexDecode_hexEncode]

theorem loadPub_content (fs : FS) (cls : KeyClass) (id : Path) (pub : Int) (h0 : 0 ≤ pub) (h1 : pub < 2 ^ 256)
    (h : fs (pubKeyPath cls id) = some (pubContent pub)) : loadPubKey fs cls id = .ok pub.toNat := by
  rw [loadPubKey, loadKeyData, h]
  simp only
  rw [pubContent, loadKeyBytes_encode, Res.bind_ok, beVal_bigIntToByteArray, Nat.mod_eq_of_lt]
  · congr 1; omega
  · rw [show (256 ^ 32 : Nat) = 2 ^ 256 by decide]; omega

theorem loadPriv_content (A : Aead) (fs : FS) (cls : KeyClass) (id : Path) (priv : Int) (secret nonce : Bytes) (h0 : 0 ≤ priv)
    (h1 : priv < 2 ^ 256) (hs : aesKeyOk secret = true) (hn : nonce.length = 12)
    (h : fs (privKeyPath cls id) = some (privContent A secret nonce priv)) : loadPrivKey A fs cls id secret = .ok priv.toNat := by
  rw [loadPrivKey, loadKeyData, h]
  simp only
  rw [privContent, loadKeyBytes_encode, Res.bind_ok, if_neg (by rw [List.length_append]; omega), if_neg (by simp [hs]),
    List.take_left' hn, List.drop_left' hn, A.law]
  simp only
  rw [beVal_bigIntToByteArray, Nat.mod_eq_of_lt]
  · congr 1; omega
  · rw [show (256 ^ 32 : Nat) = 2 ^ 256 by decide]; omega

theorem writeFile_last (fs d : FS) (p : Path) (c : Bytes) : ((writeFile fs p c .done).1).getLastD d = fs.set p c := by
  rw [writeFile]
  simp only
  rw [List.range_succ, List.map_append, List.map_cons, List.map_nil, List.getLastD_concat, List.take_length]

theorem getLastD_cons_ne {α : Type} (a d : α) (l : List α) (h : l ≠ []) : (a :: l).getLastD d = l.getLastD a := by
  rcases List.eq_nil_or_concat l with h' | ⟨l', x, rfl⟩
  · exact absurd h' h
  · rw [List.concat_eq_append, ← List.cons_append, List.getLastD_concat, List.getLastD_concat]

theorem save_fs1 (fs : FS) (p : Path) (c : Bytes) : (fs :: (writeFile fs p c .done).1).getLastD fs = fs.set p c := by
  rw [getLastD_cons_ne _ _ _ (by simp [writeFile]), writeFile_last]

/-- C72: if saving succeeds, then in the resulting file system both keys load back, with the numbers that were saved, and no
other file has changed. -/
theorem C72_roundtrip (A : Aead) (fs : FS) (cls : KeyClass) (id : Path) (pub priv : Int) (secret nonce : Bytes) (d : DirState)
    (e1 e2 : WriteEnd) (hp0 : 0 ≤ pub) (hp1 : pub < 2 ^ 256) (hd0 : 0 ≤ priv) (hd1 : priv < 2 ^ 256) (hn : nonce.length = 12)
    (states : List FS) (h : saveKeyPair A fs cls id pub priv secret nonce d e1 e2 = (states, .ok ())) :
    ∃ fs', states.getLast? = some fs' ∧ loadPubKey fs' cls id = .ok pub.toNat ∧ loadPrivKey A fs' cls id secret = .ok priv.toNat ∧
      ∀ p, p ≠ pubKeyPath cls id → p ≠ privKeyPath cls id → fs' p = fs p := by
  have hne := C71_pub_ne_priv cls cls id id
  rw [saveKeyPair.eq_def] at h
  rcases d with - | - | -
  · simp only at h
    by_cases hs : aesKeyOk secret = true
    · rw [if_neg (by simp [hs])] at h
      rcases e1 with - | - | k
      · rw [if_neg (by simp [writeFile]), save_fs1] at h
        rcases e2 with - | - | k
        · rw [if_neg (by simp [writeFile])] at h
          simp only [Prod.mk.injEq, and_true] at h
          refine ⟨(fs.set (privKeyPath cls id) (privContent A secret nonce priv)).set (pubKeyPath cls id) (pubContent pub), ?_, ?_, ?_, ?_⟩
          · rw [← h, writeFile, writeFile]
            simp only
            rw [List.range_succ (n := (pubContent pub).length), List.map_append, List.map_cons, List.map_nil, ← List.append_assoc,
              List.getLast?_concat, List.take_length]
          · exact loadPub_content _ _ _ _ hp0 hp1 (FS.set_self _ _ _)
          · refine loadPriv_content A _ _ _ _ _ nonce hd0 hd1 hs hn ?_
            rw [FS.set_other _ _ (Ne.symm hne), FS.set_self]
          · intro p h1 h2
            rw [FS.set_other _ _ h1, FS.set_other _ _ h2]
        · simp [writeFile] at h
        · simp [writeFile] at h
      · simp [writeFile] at h
      · simp [writeFile] at h
    · rw [if_pos (by simpa using hs)] at h
      simp at h
  · simp at h
  · simp at h

example := C72_roundtrip trivialAead (fun _ => none) .node ['a'] 5 7 (List.replicate 16 0) (List.replicate 12 0) .dir .done .done
  (by decide) (by decide) (by decide) (by decide) rfl _ rfl

/-- C72: saving does succeed when the directory is there, the secret has an AES key length, and both writes complete. -/
theorem C72_succeeds (A : Aead) (fs : FS) (cls : KeyClass) (id : Path) (pub priv : Int) (secret nonce : Bytes)
    (hs : secret.length = 16 ∨ secret.length = 24 ∨ secret.length = 32) :
    (saveKeyPair A fs cls id pub priv secret nonce .dir .done .done).2 = .ok () := by
  have : aesKeyOk secret = true := by rcases hs with h | h | h <;> simp [aesKeyOk, h]
  simp [saveKeyPair, this, writeFile]

example : (0 : Int) ≤ 12345 ∧ (12345 : Int) < 2 ^ 256 ∧ (List.replicate 12 (0 : UInt8)).length = 12 := by decide

/-! ### C73 Key file crash ordering, C88 overwriting -/

/-- The states of a call of save: the initial one; those with a prefix of the new private key file; those with the complete
new private key file and a prefix of the new public key file. -/
theorem save_states (A : Aead) (fs : FS) (cls : KeyClass) (id : Path) (pub priv : Int) (secret nonce : Bytes) (d : DirState)
    (e1 e2 : WriteEnd) (s : FS) (h : s ∈ (saveKeyPair A fs cls id pub priv secret nonce d e1 e2).1) :
    s = fs ∨ (aesKeyOk secret = true ∧ ∃ k, s = fs.set (privKeyPath cls id) ((privContent A secret nonce priv).take k)) ∨
    (aesKeyOk secret = true ∧ ∃ k, s = (fs.set (privKeyPath cls id) (privContent A secret nonce priv)).set (pubKeyPath cls id)
      ((pubContent pub).take k)) := by
  have hw : ∀ (f : FS) p c e, s ∈ (writeFile f p c e).1 → ∃ k, s = f.set p (c.take k) := by
    intro f p c e hs
    rcases e with - | - | m
    · simp only [writeFile, List.mem_map] at hs
      obtain ⟨k, -, rfl⟩ := hs
      exact ⟨k, rfl⟩
    · simp [writeFile] at hs
    · simp only [writeFile, List.mem_map] at hs
      obtain ⟨k, -, rfl⟩ := hs
      exact ⟨k, rfl⟩
  rw [saveKeyPair.eq_def] at h
  rcases d with - | - | -
  · simp only at h
    split at h
    · simp only [List.mem_singleton] at h
      exact Or.inl h
    · rename_i hs
      simp only [Bool.not_eq_true, Bool.not_eq_false] at hs
      have hcase1 : ∀ l, l = fs :: (writeFile fs (privKeyPath cls id) (privContent A secret nonce priv) e1).1 → s ∈ l →
          s = fs ∨ (aesKeyOk secret = true ∧ ∃ k, s = fs.set (privKeyPath cls id) ((privContent A secret nonce priv).take k)) := by
        rintro l rfl hm
        rcases List.mem_cons.mp hm with hm | hm
        · exact Or.inl hm
        · exact Or.inr ⟨hs, hw _ _ _ _ hm⟩
      split at h
      · rcases hcase1 _ rfl h with h | h
        · exact Or.inl h
        · exact Or.inr (Or.inl h)
      · rename_i hok
        have he1 : e1 = .done := by
          rcases e1 with - | - | k
          · rfl
          · simp [writeFile] at hok
          · simp [writeFile] at hok
        subst he1
        rw [save_fs1] at h
        have hfin : s ∈ (fs :: (writeFile fs (privKeyPath cls id) (privContent A secret nonce priv) .done).1) ++
            (writeFile (fs.set (privKeyPath cls id) (privContent A secret nonce priv)) (pubKeyPath cls id) (pubContent pub) e2).1 := by
          split at h <;> exact h
        rcases List.mem_append.mp hfin with hm | hm
        · rcases hcase1 _ rfl hm with h | h
          · exact Or.inl h
          · exact Or.inr (Or.inl h)
        · exact Or.inr (Or.inr ⟨hs, hw _ _ _ _ hm⟩)
  · simp only [List.mem_singleton] at h
    exact Or.inl h
  · simp only [List.mem_singleton] at h
    exact Or.inl h

/-- C73: in every state during (and after) saving into a location without public key file, however the writes end, if a public key
file exists then the private key file is complete and loads. -/
theorem C73_crash_order (A : Aead) (fs : FS) (cls : KeyClass) (id : Path) (pub priv : Int) (secret nonce : Bytes) (d : DirState)
    (e1 e2 : WriteEnd) (hd0 : 0 ≤ priv) (hd1 : priv < 2 ^ 256) (hn : nonce.length = 12) (hfresh : fs (pubKeyPath cls id) = none)
    (s : FS) (h : s ∈ (saveKeyPair A fs cls id pub priv secret nonce d e1 e2).1) (hex : s (pubKeyPath cls id) ≠ none) :
    loadPrivKey A s cls id secret = .ok priv.toNat := by
  have hne := C71_pub_ne_priv cls cls id id
  rcases save_states A fs cls id pub priv secret nonce d e1 e2 s h with rfl | ⟨-, k, rfl⟩ | ⟨hs, k, rfl⟩
  · exact absurd hfresh hex
  · rw [FS.set_other _ _ hne] at hex
    exact absurd hfresh hex
  · refine loadPriv_content A _ _ _ _ _ nonce hd0 hd1 hs hn ?_
    rw [FS.set_other _ _ (Ne.symm hne), FS.set_self]

example : (saveKeyPair trivialAead (fun _ => none) .node ['a'] 5 7 (List.replicate 16 0) (List.replicate 12 0) .dir .done .done).1.length
    = 203 := by decide +kernel

/-- The claim of C88: at every point of overwriting a pair, the old pair or the new pair loads. -/
def OverwriteAtomic : Prop := ∀ (A : Aead) (fs : FS) (cls : KeyClass) (id : Path) (pub0 priv0 : Nat) (secret0 : Bytes) (pub priv : Int)
  (secret nonce : Bytes) (e1 e2 : WriteEnd), nonce.length = 12 → 0 ≤ pub → pub < 2 ^ 256 → 0 ≤ priv → priv < 2 ^ 256 →
  loadPubKey fs cls id = .ok pub0 → loadPrivKey A fs cls id secret0 = .ok priv0 →
  ∀ s ∈ (saveKeyPair A fs cls id pub priv secret nonce .dir e1 e2).1,
    (loadPubKey s cls id = .ok pub0 ∧ loadPrivKey A s cls id secret0 = .ok priv0) ∨
    (loadPubKey s cls id = .ok pub.toNat ∧ loadPrivKey A s cls id secret = .ok priv.toNat)

/-- C88, exactly: at every point, either nothing has changed; or the public key file is the old one and the private key file is a
(possibly empty, possibly complete) beginning of the new one; or the private key file is the new one and the public key file is a
beginning of the new one. -/
theorem C88_states_partial (A : Aead) (fs : FS) (cls : KeyClass) (id : Path) (pub priv : Int) (secret nonce : Bytes) (d : DirState)
    (e1 e2 : WriteEnd) (s : FS) (h : s ∈ (saveKeyPair A fs cls id pub priv secret nonce d e1 e2).1) :
    s = fs ∨
    (s (pubKeyPath cls id) = fs (pubKeyPath cls id) ∧ ∃ c, s (privKeyPath cls id) = some c ∧ c <+: privContent A secret nonce priv) ∨
    (s (privKeyPath cls id) = some (privContent A secret nonce priv) ∧ ∃ c, s (pubKeyPath cls id) = some c ∧ c <+: pubContent pub) := by
  have hne := C71_pub_ne_priv cls cls id id
  rcases save_states A fs cls id pub priv secret nonce d e1 e2 s h with rfl | ⟨-, k, rfl⟩ | ⟨hs, k, rfl⟩
  · exact Or.inl rfl
  · refine Or.inr (Or.inl ⟨FS.set_other _ _ hne, _, FS.set_self _ _ _, List.take_prefix _ _⟩)
  · refine Or.inr (Or.inr ⟨?_, _, FS.set_self _ _ _, List.take_prefix _ _⟩)
    rw [FS.set_other _ _ (Ne.symm hne), FS.set_self]

set_option maxRecDepth 100000 in
example := C88_states_partial trivialAead (fun _ => none) .node ['a'] 5 7 (List.replicate 16 0) (List.replicate 12 0) .dir .done .done
  _ (List.getElem_mem (n := 100) (by decide +kernel))

/-- C88 is false: right after the private key file has been truncated, loading the private key panics. -/
theorem C88_refuted : ¬ OverwriteAtomic := by
  intro h
  let fs0 : FS := fun p => if p = pubKeyPath .node ['a'] then some (pubContent 5)
    else if p = privKeyPath .node ['a'] then some (privContent trivialAead (List.replicate 16 0) (List.replicate 12 0) 7) else none
  have hne := C71_pub_ne_priv .node .node ['a'] ['a']
  have hpub : loadPubKey fs0 .node ['a'] = .ok 5 := loadPub_content fs0 .node ['a'] 5 (by decide) (by decide) (by simp [fs0])
  have hpriv : loadPrivKey trivialAead fs0 .node ['a'] (List.replicate 16 0) = .ok 7 :=
    loadPriv_content trivialAead fs0 .node ['a'] 7 _ (List.replicate 12 0) (by decide) (by decide) (by decide) (by decide)
      (by simp only [fs0]; rw [if_neg (Ne.symm hne)]; simp)
  have := h trivialAead fs0 .node ['a'] 5 7 (List.replicate 16 0) 6 8 (List.replicate 16 0) (List.replicate 12 0) .done .done
    (by decide) (by decide) (by decide) (by decide) (by decide) hpub hpriv
    (fs0.set (privKeyPath .node ['a']) []) (by
      rw [saveKeyPair]
      simp only
      rw [if_neg (by decide), if_neg (by simp [writeFile])]
      have hm : fs0.set (privKeyPath .node ['a']) [] ∈ fs0 :: (writeFile fs0 (privKeyPath .node ['a'])
          (privContent trivialAead (List.replicate 16 0) (List.replicate 12 0) 8) .done).1 := by
        refine List.mem_cons_of_mem _ ?_
        simp only [writeFile, List.mem_map]
        exact ⟨0, by simp, by simp⟩
      split <;> exact List.mem_append_left _ hm)
  have hp : ∀ secret, loadPrivKey trivialAead (fs0.set (privKeyPath .node ['a']) []) .node ['a'] secret = .panic := by
    intro secret
    rw [C75_priv_panics_iff_partial]
    exact ⟨[], [], FS.set_self _ _ _, .nil, Or.inl (by simp)⟩
  rw [hp] at this
  simp at this

/-! ### C77 AES secret padding, C89 passphrases -/

/-- C77: exactly 16 bytes; the end of a long secret, or the secret and zeros. -/
theorem C77_aes_pad (input : Bytes) : ∃ out, aesPad input = .ok out ∧ out.length = 16 ∧
    (16 ≤ input.length → out <:+ input) ∧
    (input.length < 16 → input <+: out ∧ ∀ x ∈ out.drop input.length, x = 0) := by
  rw [aesPad]
  split
  · rename_i h
    rw [goSlice, if_pos ⟨by omega, by omega, by omega⟩, show ((input.length : Int) - 16).toNat = input.length - 16 by omega,
      Int.toNat_natCast, List.take_length]
    refine ⟨_, rfl, by rw [List.length_drop]; omega, fun _ => List.drop_suffix _ _, fun h' => by omega⟩
  · rename_i h
    refine ⟨_, rfl, by simp only [List.length_append, List.length_replicate]; omega, fun h' => by omega, fun _ => ⟨List.prefix_append _ _, ?_⟩⟩
    rw [List.drop_left]
    intro x hx
    exact (List.mem_replicate.mp hx).2

example : aesPad [1, 2, 3] = .ok [1, 2, 3, 0, 0, 0, 0, 0, 0, 0, 0, 0, 0, 0, 0, 0] := by decide +kernel

/-- The claim of C89: the key generator protects the key with a different AES key for each passphrase it accepts (at least 8
bytes). -/
def PassphrasesDistinct : Prop := ∀ s t : Bytes, 8 ≤ s.length → 8 ≤ t.length → pkeygenSecret s = pkeygenSecret t → s = t

/-- C89, exactly: the AES key consists of the first 16 bytes, padded with zeros; two passphrases give the same key if and only if
they agree there. -/
theorem C89_same_key_iff_partial (s t : Bytes) : (pkeygenSecret s).length = 16 ∧
    (pkeygenSecret s = pkeygenSecret t ↔ ∀ i < 16, s.getD i 0 = t.getD i 0) := by
  have hl : ∀ s : Bytes, (pkeygenSecret s).length = 16 := by
    intro s
    simp only [pkeygenSecret, List.length_append, List.length_take, List.length_replicate]; omega
  have hg : ∀ (s : Bytes) i, i < 16 → (pkeygenSecret s)[i]? = some (s.getD i 0) := by
    intro s i hi
    rw [pkeygenSecret]
    by_cases h : i < s.length
    · rw [List.getElem?_append_left (by rw [List.length_take]; omega), List.getElem?_take_of_lt hi, List.getElem?_eq_getElem h,
        List.getD_eq_getElem?_getD, List.getElem?_eq_getElem h, Option.getD_some]
    · rw [List.getElem?_append_right (by rw [List.length_take]; omega), List.getElem?_replicate,
        if_pos (by rw [List.length_take]; omega), List.getD_eq_getElem?_getD, List.getElem?_eq_none (l := s) (by omega), Option.getD_none]
  refine ⟨hl s, ?_, ?_⟩
  · intro h i hi
    have := hg s i hi
    rw [h, hg t i hi, Option.some.injEq] at this
    exact this.symm
  · intro h
    apply List.ext_getElem?
    intro i
    by_cases hi : i < 16
    · rw [hg s i hi, hg t i hi, h i hi]
    · rw [List.getElem?_eq_none (by rw [hl]; omega), List.getElem?_eq_none (by rw [hl]; omega)]

/-- C89 is false: everything after the sixteenth byte is ignored. -/
theorem C89_refuted : ¬ PassphrasesDistinct := by
  intro h
  have := h (List.replicate 17 1) (List.replicate 16 1) (by decide) (by decide) (by decide +kernel)
  exact absurd (congrArg List.length this) (by decide)

end Poodle.Props
