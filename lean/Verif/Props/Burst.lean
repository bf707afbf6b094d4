import Verif.Props.SSTable
import Verif.Props.KeyFile

/-
Property C98: corruption of adjacent bytes of key files (/repo/src/util/lc_util.go).
-/

namespace Poodle.Props

open Spec

/-- The claim of C98: replacing up to four adjacent bytes of the content of an accepted key file by others leads to an error. -/
def KeyFileBurst : Prop := ∀ (text text' pre x x' post data : Bytes), loadKeyBytes text = .ok data →
  hexDecode text = some (pre ++ x ++ post) → hexDecode text' = some (pre ++ x' ++ post) → x.length = x'.length → x.length ≤ 4 →
  x ≠ x' → loadKeyBytes text' = .err

theorem crcBytes_eq_u32 (d : Bytes) : crcBytes d = u32 (crc32 d).toNat := (u32_eq_beBytes _).symm

theorem burst_aux {data data' pre x x' post : Bytes} (h : pre ++ x ++ post = data ++ crcBytes data)
    (h' : pre ++ x' ++ post = data' ++ crcBytes data') (hl : x.length = x'.length) (h4 : x.length ≤ 4)
    (hsplit : ¬ (x.length = 4 ∧ pre.length + 2 = data.length)) : x = x' := by
  have e1 := congrArg List.length h
  have e2 := congrArg List.length h'
  simp only [List.length_append, crcBytes_length] at e1 e2
  by_cases hA : (pre ++ x).length ≤ data.length ∨ data.length ≤ pre.length
  · refine crc_part_change (tail := []) (tail' := []) (x := data) (y := data') (pre := pre) (post := post) hl (by omega) ?_ ?_ ?_
    · rw [List.append_nil, ← crcBytes_eq_u32]; exact h
    · rw [List.append_nil, ← crcBytes_eq_u32]; exact h'
    · rw [List.length_append] at hA ⊢
      omega
  · rw [List.length_append] at hA
    rw [List.append_assoc] at h h'
    obtain ⟨u, rfl⟩ := List.prefix_of_prefix_length_le (l₃ := pre ++ (x ++ post)) (List.prefix_append _ _) ⟨_, h.symm⟩
      (by omega : pre.length ≤ data.length)
    obtain ⟨u', rfl⟩ := List.prefix_of_prefix_length_le (l₃ := pre ++ (x' ++ post)) (List.prefix_append _ _) ⟨_, h'.symm⟩
      (by omega : pre.length ≤ data'.length)
    rw [List.append_assoc] at h h'
    have g := List.append_cancel_left h
    have g' := List.append_cancel_left h'
    simp only [List.length_append] at e1 e2 hA hsplit
    obtain ⟨y, rfl⟩ := List.prefix_of_prefix_length_le (l₃ := x ++ post) ⟨_, g.symm⟩ (List.prefix_append _ _)
      (by omega : u.length ≤ x.length)
    obtain ⟨y', rfl⟩ := List.prefix_of_prefix_length_le (l₃ := x' ++ post) ⟨_, g'.symm⟩ (List.prefix_append _ _)
      (by omega : u'.length ≤ x'.length)
    rw [List.append_assoc] at g g'
    have f := List.append_cancel_left g
    have f' := List.append_cancel_left g'
    simp only [List.length_append] at *
    have hu := crc_spanning (p := pre) (x := u) (x' := u') (y := y) (y' := y') (z := post) (by omega) (by omega) (by omega) (by omega)
      f.symm f'.symm
    subst hu
    rw [← f', List.append_left_inj] at f
    rw [f]

/-- C98 for all positions but one: it holds unless the four bytes are the last two of the data and the first two of the
checksum. -/
theorem C98_detected_partial (text text' pre x x' post data : Bytes) (h : loadKeyBytes text = .ok data)
    (hd : hexDecode text = some (pre ++ x ++ post)) (hd' : hexDecode text' = some (pre ++ x' ++ post)) (hl : x.length = x'.length)
    (h4 : x.length ≤ 4) (hne : x ≠ x') (hsplit : ¬ (x.length = 4 ∧ pre.length + 2 = data.length)) :
    loadKeyBytes text' = .err := by
  rw [loadKeyBytes_ok_iff, hd, Option.some.injEq] at h
  rcases e : loadKeyBytes text' with data' | - | -
  · rw [loadKeyBytes_ok_iff, hd', Option.some.injEq] at e
    exact absurd (burst_aux h e hl h4 hsplit) hne
  · rfl
  · exact absurd e (by
      rw [loadKeyBytes_eq, hd']
      have hlen := congrArg List.length h
      simp only [List.length_append, crcBytes_length] at hlen
      simp only
      rw [if_neg (by simp only [List.length_append]; omega)]
      split <;> simp)

example := C98_detected_partial (hexEncode ([1, 2, 3] ++ crcBytes [1, 2, 3])) (hexEncode ([1, 7, 9] ++ crcBytes [1, 2, 3])) [1] [2, 3]
  [7, 9] (crcBytes [1, 2, 3]) [1, 2, 3] (by decide +kernel) (by decide +kernel) (by decide +kernel) rfl (by decide) (by decide) (by decide)

/-- C98 exactly: a change of up to four adjacent bytes goes undetected if and only if it is a change of the last two bytes of the data and
the first two of the checksum by the exclusive or with 61 d8 f4 ee. -/
theorem C98_undetected_partial (text text' pre x x' post data : Bytes) (h : loadKeyBytes text = .ok data)
    (hd : hexDecode text = some (pre ++ x ++ post)) (hd' : hexDecode text' = some (pre ++ x' ++ post)) (hl : x.length = x'.length)
    (h4 : x.length ≤ 4) (hne : x ≠ x') :
    loadKeyBytes text' = .err ↔ ¬ (pre.length + 2 = data.length ∧ List.zipWith (· ^^^ ·) x x' = [0x61, 0xD8, 0xF4, 0xEE]) := by
  by_cases hs : x.length = 4 ∧ pre.length + 2 = data.length
  swap
  · refine ⟨fun _ hp => hs ⟨?_, hp.1⟩, fun _ => C98_detected_partial text text' pre x x' post data h hd hd' hl h4 hne hs⟩
    have := congrArg List.length hp.2
    rw [List.length_zipWith, ← hl, Nat.min_self] at this
    exact this
  obtain ⟨hx4, hp⟩ := hs
  rw [loadKeyBytes_ok_iff, hd, Option.some.injEq] at h
  have hnp : loadKeyBytes text' ≠ .panic := by
    rw [loadKeyBytes_eq, hd']
    have hlen := congrArg List.length h
    simp only [List.length_append, crcBytes_length] at hlen
    simp only
    rw [if_neg (by simp only [List.length_append]; omega)]
    split <;> simp
  rcases x with - | ⟨a, - | ⟨b, - | ⟨c, - | ⟨d, - | ⟨_, x⟩⟩⟩⟩⟩ <;> simp at hx4
  rcases x' with - | ⟨a', - | ⟨b', - | ⟨c', - | ⟨d', - | ⟨_, x'⟩⟩⟩⟩⟩ <;> simp at hl
  have split : ∀ (q : Bytes) (a b c d : UInt8) (data : Bytes), q.length + 2 = data.length → q ++ [a, b, c, d] ++ post = data ++ crcBytes data →
      data = q ++ [a, b] ∧ crcBytes data = c :: d :: post := by
    intro q a b c d data hq e
    have e' : q ++ [a, b] ++ (c :: d :: post) = data ++ crcBytes data := by simpa using e
    obtain ⟨e1, e2⟩ := List.append_inj e' (by simpa using hq)
    exact ⟨e1.symm, e2.symm⟩
  obtain ⟨hdata, hcrc⟩ := split pre a b c d data hp h
  rw [hdata] at hcrc
  have key := crc_straddle (a' := a') (b' := b') (c' := c') (d' := d') hcrc
  simp only [List.zipWith_cons_cons, List.zipWith_nil_left, hp, true_and]
  rcases e : loadKeyBytes text' with data' | - | -
  · rw [loadKeyBytes_ok_iff, hd', Option.some.injEq] at e
    have hlen := congrArg List.length h
    have hlen' := congrArg List.length e
    simp only [List.length_append, crcBytes_length, List.length_cons, List.length_nil] at hlen hlen'
    obtain ⟨hdata', hcrc'⟩ := split pre a' b' c' d' data' (by omega) e
    rw [hdata'] at hcrc'
    rcases key.mp hcrc' with h1 | h1
    · exact absurd h1 hne
    · simp [h1]
  · simp only [true_iff]
    intro h1
    have hc := key.mpr (.inr h1)
    have : loadKeyBytes text' = .ok (pre ++ [a', b']) := by
      rw [loadKeyBytes_ok_iff, hd', hc]
      simp
    rw [this] at e
    cases e
  · exact absurd e hnp

/-- C98: the hypotheses of `C98_undetected_partial` hold for a change that is undetected and for one that is not. -/
example := C98_undetected_partial (hexEncode [1, 2, 0xB6, 0xCC, 0x42, 0x92]) (hexEncode [0x60, 0xDA, 0x42, 0x22, 0x42, 0x92]) []
  [1, 2, 0xB6, 0xCC] [0x60, 0xDA, 0x42, 0x22] [0x42, 0x92] [1, 2] (by decide +kernel) (by decide +kernel) (by decide +kernel) rfl
  (by decide) (by decide)
example := C98_undetected_partial (hexEncode [1, 2, 0xB6, 0xCC, 0x42, 0x92]) (hexEncode [0x61, 0xDA, 0x42, 0x22, 0x42, 0x92]) []
  [1, 2, 0xB6, 0xCC] [0x61, 0xDA, 0x42, 0x22] [0x42, 0x92] [1, 2] (by decide +kernel) (by decide +kernel) (by decide +kernel) rfl
  (by decide) (by decide)

/-- C98 is false: the checksum is stored most significant byte first, but its division starts with the least significant one, so a
change of the last two data bytes can be made good by the first two bytes of the checksum. -/
theorem C98_refuted : ¬ KeyFileBurst := by
  intro h
  have := h (hexEncode [1, 2, 0xB6, 0xCC, 0x42, 0x92]) (hexEncode [0x60, 0xDA, 0x42, 0x22, 0x42, 0x92]) [] [1, 2, 0xB6, 0xCC]
    [0x60, 0xDA, 0x42, 0x22] [0x42, 0x92] [1, 2] (by decide +kernel) (by decide +kernel) (by decide +kernel) rfl (by decide)
    (by decide)
  revert this
  decide +kernel

example : loadKeyBytes (hexEncode ([1, 2, 3] ++ crcBytes [1, 2, 3])) = .ok [1, 2, 3] ∧
    loadKeyBytes (hexEncode ([1, 7, 9] ++ crcBytes [1, 2, 3])) = .err := by decide +kernel

end Poodle.Props
