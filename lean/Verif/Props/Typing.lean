import Verif.Props.Burst

/-
Property C234: typing errors in key files (/repo/src/util/lc_util.go:229-250).
-/

namespace Poodle.Props
open Poodle Poodle.Spec

theorem isHexOf_take {t c : Bytes} (h : IsHexOf t c) (k : Nat) : IsHexOf (t.take (2 * k)) (c.take k) := by
  induction h generalizing k with
  | nil => simp only [List.take_nil]; exact .nil
  | cons a b x t c ha hb _ ih =>
    rcases k with - | k
    · exact .nil
    · exact .cons a b x _ _ ha hb (ih k)

theorem isHexOf_drop {t c : Bytes} (h : IsHexOf t c) (k : Nat) : IsHexOf (t.drop (2 * k)) (c.drop k) := by
  induction h generalizing k with
  | nil => simp only [List.drop_nil]; exact .nil
  | cons a b x t c ha hb hr ih =>
    rcases k with - | k
    · exact .cons a b x _ _ ha hb hr
    · exact ih k

theorem isHexOf_functional {t c c' : Bytes} (h : IsHexOf t c) (h' : IsHexOf t c') : c = c' := by
  rw [← hexDecode_iff] at h h'
  exact Option.some.inj (h.symm.trans h')

theorem isHexDigit_functional {a : UInt8} {v v' : Nat} (h : IsHexDigit a v) (h' : IsHexDigit a v') : v = v' := by
  rw [← fromHexChar_iff] at h h'
  exact Option.some.inj (h.symm.trans h')

/-- The characters of a byte. -/
theorem isHexOf_get {t c : Bytes} (h : IsHexOf t c) {k : Nat} {y : UInt8} (hy : c[k]? = some y) :
    ∃ a b, t[2 * k]? = some a ∧ t[2 * k + 1]? = some b ∧ IsHexDigit a (y.toNat / 16) ∧ IsHexDigit b (y.toNat % 16) := by
  induction h generalizing k with
  | nil => simp at hy
  | cons a b x t c ha hb _ ih =>
    rcases k with - | k
    · simp only [List.getElem?_cons_zero, Option.some.injEq] at hy
      subst hy
      exact ⟨a, b, rfl, rfl, ha, hb⟩
    · exact ih hy

theorem same_high : ∀ y y' : UInt8, y ^^^ y' = 0x61 → y.toNat / 16 ≠ y'.toNat / 16 := by
  intro y y' h
  have e : y' = y ^^^ 0x61 := by rw [← h, ← UInt8.xor_assoc, UInt8.xor_self, UInt8.zero_xor]
  subst e
  have h : ∀ n : Fin 256, (UInt8.ofNat n.val).toNat / 16 ≠ (UInt8.ofNat n.val ^^^ 0x61).toNat / 16 := by decide +kernel
  have := h ⟨y.toNat, y.toNat_lt⟩
  simpa only [UInt8.ofNat_toNat] using this

theorem same_low : ∀ y y' : UInt8, y ^^^ y' = 0xEE → y.toNat % 16 ≠ y'.toNat % 16 := by
  intro y y' h
  have e : y' = y ^^^ 0xEE := by rw [← h, ← UInt8.xor_assoc, UInt8.xor_self, UInt8.zero_xor]
  subst e
  have h : ∀ n : Fin 256, (UInt8.ofNat n.val).toNat % 16 ≠ (UInt8.ofNat n.val ^^^ 0xEE).toNat % 16 := by decide +kernel
  have := h ⟨y.toNat, y.toNat_lt⟩
  simpa only [UInt8.ofNat_toNat] using this

/-- C234: if up to seven adjacent characters of a key file are replaced by others, loading it gives an error, unless the file still denotes
the same bytes (letters in the other case), and then the key is the same. -/
theorem C234_replaced (a x x' b data : Bytes) (h : loadKeyBytes (a ++ x ++ b) = .ok data) (hl : x'.length = x.length) (h7 : x.length ≤ 7) :
    loadKeyBytes (a ++ x' ++ b) = .err ∨
      (loadKeyBytes (a ++ x' ++ b) = .ok data ∧ ∃ content, IsHexOf (a ++ x ++ b) content ∧ IsHexOf (a ++ x' ++ b) content) := by
  have h0 := h
  rw [loadKeyBytes_ok_iff] at h
  obtain ⟨c, hc⟩ : ∃ c, c = data ++ crcBytes data := ⟨_, rfl⟩
  rw [← hc] at h
  rcases hd' : hexDecode (a ++ x' ++ b) with - | c'
  · left
    rw [loadKeyBytes_eq, hd']
  have H := (hexDecode_iff _ _).mp h
  have H' := (hexDecode_iff _ _).mp hd'
  obtain ⟨p, hp⟩ : ∃ p, p = a.length / 2 := ⟨_, rfl⟩
  obtain ⟨q, hq⟩ : ∃ q, q = (a.length + x.length + 1) / 2 := ⟨_, rfl⟩
  have lc := hexDecode_length _ _ h
  have lc' := hexDecode_length _ _ hd'
  simp only [List.length_append] at lc lc'
  have ht : c.take p = c'.take p := by
    refine isHexOf_functional (isHexOf_take H p) ?_
    have := isHexOf_take H' p
    rw [List.append_assoc, List.take_append_of_le_length (by omega)] at this ⊢
    exact this
  have hdr : c.drop q = c'.drop q := by
    refine isHexOf_functional (isHexOf_drop H q) ?_
    have := isHexOf_drop H' q
    rw [List.drop_append, List.drop_eq_nil_of_le (by rw [List.length_append]; omega), List.nil_append, List.length_append] at this ⊢
    rw [hl] at this
    exact this
  have split : ∀ d : Bytes, d = d.take p ++ (d.drop p).take (q - p) ++ d.drop q := by
    intro d
    conv_lhs => rw [← List.take_append_drop p d, ← List.take_append_drop (q - p) (d.drop p), List.drop_drop]
    rw [List.append_assoc, show p + (q - p) = q by omega]
  by_cases hm : (c.drop p).take (q - p) = (c'.drop p).take (q - p)
  · right
    have e : c = c' := by rw [split c, split c', ht, hdr, hm]
    refine ⟨?_, c, H, e ▸ H'⟩
    rw [loadKeyBytes_ok_iff, hd', ← e, hc]
  · left
    have s1 := split c
    have s2 := split c'
    rw [← ht, ← hdr] at s2
    refine (C98_undetected_partial (a ++ x ++ b) (a ++ x' ++ b) (c.take p) _ _ (c.drop q) data h0 (by rw [← s1]; exact h)
      (by rw [← s2]; exact hd') (by simp only [List.length_take, List.length_drop]; omega)
      (by simp only [List.length_take, List.length_drop]; omega) hm).mpr ?_
    rintro ⟨-, hx⟩
    have l4 := congrArg List.length hx
    simp only [List.length_zipWith, List.length_take, List.length_drop, List.length_cons, List.length_nil] at l4
    have hk : ∀ k, k < 4 → ∃ y y', c[p + k]? = some y ∧ c'[p + k]? = some y' ∧
        ([0x61, 0xD8, 0xF4, 0xEE] : Bytes)[k]? = some (y ^^^ y') := by
      intro k hk
      have e := congrArg (·[k]?) hx
      simp only [List.getElem?_zipWith, List.getElem?_take, List.getElem?_drop, show k < q - p by omega, if_true] at e
      rw [List.getElem?_eq_getElem (show p + k < c.length by omega), List.getElem?_eq_getElem (show p + k < c'.length by omega)] at e ⊢
      exact ⟨_, _, rfl, rfl, e.symm⟩
    by_cases hodd : a.length % 2 = 1
    · obtain ⟨y, y', e1, e2, e3⟩ := hk 0 (by omega)
      obtain ⟨u, -, g1, -, g2, -⟩ := isHexOf_get H e1
      obtain ⟨u', -, g1', -, g2', -⟩ := isHexOf_get H' e2
      rw [List.append_assoc, List.getElem?_append_left (by omega)] at g1 g1'
      rw [g1, Option.some.injEq] at g1'
      subst g1'
      simp only [List.getElem?_cons_zero, Option.some.injEq] at e3
      exact same_high y y' e3.symm (isHexDigit_functional g2 g2')
    · obtain ⟨y, y', e1, e2, e3⟩ := hk 3 (by omega)
      obtain ⟨-, u, -, g1, -, g2⟩ := isHexOf_get H e1
      obtain ⟨-, u', -, g1', -, g2'⟩ := isHexOf_get H' e2
      rw [List.getElem?_append_right (by rw [List.length_append]; omega), List.length_append] at g1 g1'
      rw [hl, g1, Option.some.injEq] at g1'
      subst g1'
      simp only [List.getElem?_cons_succ, List.getElem?_cons_zero, Option.some.injEq] at e3
      exact same_low y y' e3.symm (isHexDigit_functional g2 g2')

/-- C234 is sharp: eight adjacent characters can be replaced so that another key is loaded. -/
theorem C234_eight : ∃ x x' b data data' : Bytes, x.length = 8 ∧ x'.length = 8 ∧ loadKeyBytes (x ++ b) = .ok data ∧
    loadKeyBytes (x' ++ b) = .ok data' ∧ data ≠ data' := by
  refine ⟨hexEncode [1, 2, 0xB6, 0xCC], hexEncode [0x60, 0xDA, 0x42, 0x22], hexEncode [0x42, 0x92], [1, 2], [0x60, 0xDA], ?_⟩
  decide +kernel

/-- C234: two neighbouring characters that are swapped give an error, unless they are the same digit. -/
theorem C234_swapped (a b data : Bytes) (p q : UInt8) (h : loadKeyBytes (a ++ [p, q] ++ b) = .ok data)
    (hpq : ∀ v, ¬ (IsHexDigit p v ∧ IsHexDigit q v)) : loadKeyBytes (a ++ [q, p] ++ b) = .err := by
  rcases C234_replaced a [p, q] [q, p] b data h rfl (by simp) with h1 | ⟨-, c, H, H'⟩
  · exact h1
  exfalso
  have l := hexDecode_length _ _ ((hexDecode_iff _ _).mpr H)
  simp only [List.length_append, List.length_cons, List.length_nil] at l
  have hk : a.length / 2 < c.length := by omega
  obtain ⟨u, w, g1, g2, g3, g4⟩ := isHexOf_get H (List.getElem?_eq_getElem hk)
  obtain ⟨u', w', f1, f2, f3, f4⟩ := isHexOf_get H' (List.getElem?_eq_getElem hk)
  have e1 : (a ++ [p, q] ++ b)[a.length]? = some p := by simp
  have e2 : (a ++ [q, p] ++ b)[a.length]? = some q := by simp
  by_cases ho : a.length % 2 = 1
  · rw [show 2 * (a.length / 2) + 1 = a.length by omega] at g2 f2
    rw [e1, Option.some.injEq] at g2
    rw [e2, Option.some.injEq] at f2
    subst g2 f2
    exact hpq _ ⟨g4, f4⟩
  · rw [show 2 * (a.length / 2) = a.length by omega] at g1 f1
    rw [e1, Option.some.injEq] at g1
    rw [e2, Option.some.injEq] at f1
    subst g1 f1
    exact hpq _ ⟨g3, f3⟩

theorem load_odd {t : Bytes} (h : t.length % 2 = 1) : loadKeyBytes t = .err := by
  rw [loadKeyBytes_eq]
  rcases e : hexDecode t with - | c
  · rfl
  · have := hexDecode_length _ _ e
    omega

/-- C234: a character inserted anywhere, for instance the end of a line at the end of the file, gives an error. -/
theorem C234_inserted (a b data : Bytes) (p : UInt8) (h : loadKeyBytes (a ++ b) = .ok data) : loadKeyBytes (a ++ [p] ++ b) = .err := by
  rw [loadKeyBytes_ok_iff] at h
  have := hexDecode_length _ _ h
  refine load_odd ?_
  simp only [List.length_append, List.length_cons, List.length_nil] at this ⊢
  omega

/-- C234: a character left out gives an error. -/
theorem C234_omitted (a b data : Bytes) (p : UInt8) (h : loadKeyBytes (a ++ [p] ++ b) = .ok data) : loadKeyBytes (a ++ b) = .err := by
  rw [loadKeyBytes_ok_iff] at h
  have := hexDecode_length _ _ h
  refine load_odd ?_
  simp only [List.length_append, List.length_cons, List.length_nil] at this ⊢
  omega

/-- C234 for the public key: with up to seven adjacent characters of its file replaced, loading it gives an error or the same key. -/
theorem C234_public (fs : FS) (cls : KeyClass) (id : Path) (a x x' b : Bytes) (n : Nat) (hf : fs (pubKeyPath cls id) = some (a ++ x ++ b))
    (h : loadPubKey fs cls id = .ok n) (hl : x'.length = x.length) (h7 : x.length ≤ 7) :
    loadPubKey (fs.set (pubKeyPath cls id) (a ++ x' ++ b)) cls id = .err ∨ loadPubKey (fs.set (pubKeyPath cls id) (a ++ x' ++ b)) cls id = .ok n := by
  have e : loadPubKey (fs.set (pubKeyPath cls id) (a ++ x' ++ b)) cls id = (loadKeyBytes (a ++ x' ++ b) >>= fun data => .ok (beVal data)) := by
    rw [loadPubKey, loadKeyData, FS.set, if_pos rfl]
  have e0 : loadPubKey fs cls id = (loadKeyBytes (a ++ x ++ b) >>= fun data => .ok (beVal data)) := by
    rw [loadPubKey, loadKeyData, hf]
  rw [e0] at h
  obtain ⟨data, h1, h2⟩ := Res.bind_eq_ok.mp h
  rw [e]
  rcases C234_replaced a x x' b data h1 hl h7 with h3 | ⟨h3, -⟩
  · left; rw [h3]; rfl
  · right; rw [h3]; exact h2

/-- C234 for the private key: with up to seven adjacent characters of its file replaced, loading it gives an error or the same key. -/
theorem C234_private (A : Aead) (fs : FS) (cls : KeyClass) (id : Path) (secret a x x' b : Bytes) (n : Nat)
    (hf : fs (privKeyPath cls id) = some (a ++ x ++ b)) (h : loadPrivKey A fs cls id secret = .ok n) (hl : x'.length = x.length)
    (h7 : x.length ≤ 7) :
    loadPrivKey A (fs.set (privKeyPath cls id) (a ++ x' ++ b)) cls id secret = .err ∨
      loadPrivKey A (fs.set (privKeyPath cls id) (a ++ x' ++ b)) cls id secret = .ok n := by
  have hs : loadKeyData (fs.set (privKeyPath cls id) (a ++ x' ++ b)) (privKeyPath cls id) = loadKeyBytes (a ++ x' ++ b) := by
    rw [loadKeyData, FS.set, if_pos rfl]
  have h0 : loadKeyData fs (privKeyPath cls id) = loadKeyBytes (a ++ x ++ b) := by rw [loadKeyData, hf]
  rw [loadPrivKey, h0] at h
  obtain ⟨data, h1, h2⟩ := Res.bind_eq_ok.mp h
  rw [loadPrivKey, hs]
  rcases C234_replaced a x x' b data h1 hl h7 with h3 | ⟨h3, -⟩
  · left; rw [h3]; rfl
  · right; rw [h3]; exact h2

/-- The file of the key `[1, 0xAB]`, in capital letters. -/
def typedKey : Bytes := hexEncode ([1, 0xAB] ++ crcBytes [1, 0xAB])

example := C234_replaced (typedKey.take 1) ((typedKey.drop 1).take 7) [0x30, 0x30, 0x30, 0x30, 0x30, 0x30, 0x30] (typedKey.drop 8) [1, 0xAB]
  (by decide +kernel) (by decide +kernel) (by decide +kernel)

/-- Both cases occur: a small letter, and another digit. -/
example : loadKeyBytes (typedKey.take 2 ++ [0x61] ++ typedKey.drop 3) = .ok [1, 0xAB] ∧
    loadKeyBytes (typedKey.take 2 ++ [0x62] ++ typedKey.drop 3) = .err := by decide +kernel

example := C234_swapped (typedKey.take 2) (typedKey.drop 4) [1, 0xAB] 0x41 0x42 (by decide +kernel) (by
  rintro v ⟨h, h'⟩
  rw [← fromHexChar_iff] at h h'
  have e1 : fromHexChar 0x41 = some 10 := by decide
  have e2 : fromHexChar 0x42 = some 11 := by decide
  rw [e1] at h
  rw [e2] at h'
  simp only [Option.some.injEq] at h h'
  omega)

example := C234_inserted typedKey [] [1, 0xAB] 0x0A (by decide +kernel)

example := C234_omitted (typedKey.take 2) (typedKey.drop 3) [1, 0xAB] 0x41 (by decide +kernel)

example := C234_public (fun _ => some (typedKey.take 1 ++ (typedKey.drop 1).take 3 ++ typedKey.drop 4)) .cluster [] (typedKey.take 1)
  ((typedKey.drop 1).take 3) [0x30, 0x31, 0x32] (typedKey.drop 4) 0x1AB rfl (by decide +kernel) (by decide +kernel) (by decide +kernel)

/-- The file of the private key 5, with the nonce and the secret all zero. -/
def typedPriv : Bytes := privContent trivialAead (List.replicate 16 0) (List.replicate 12 0) 5

set_option maxRecDepth 100000 in
example := C234_private trivialAead (fun _ => some (typedPriv.take 3 ++ (typedPriv.drop 3).take 2 ++ typedPriv.drop 5)) .node [] (List.replicate 16 0)
  (typedPriv.take 3) ((typedPriv.drop 3).take 2) [0x31, 0x32] (typedPriv.drop 5) 5 rfl (by decide +kernel) (by decide +kernel) (by decide +kernel)

end Poodle.Props
