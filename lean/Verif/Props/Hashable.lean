import Verif.Model.Hashable
import Verif.Props.HashMap
import Verif.Props.Slice

/-
Property C33: hashable slices (/repo/src/collection/hashable.go).
-/

namespace Poodle.Props
open Poodle Poodle.Spec

/-- A possible slice of `w`-byte integers. -/
def ValidInts (w : Nat) (s : IntSlice) : Prop :=
  (s.elems.getD []).length ≤ s.cap ∧ ∀ x ∈ s.elems.getD [], x < 256 ^ w

/-- The claim of C33. -/
def HashableSlicesHash : Prop :=
  (∀ (f : Bytes → UInt32) (w : Nat) (s t : IntSlice), (w = 2 ∨ w = 4 ∨ w = 8) → ValidInts w s → ValidInts w t →
    hashableIntSliceHash w f s ≠ none ∧
      (hashableIntSliceEqual s t = true → hashableIntSliceHash w f s = hashableIntSliceHash w f t)) ∧
  (∀ (f : Bytes → UInt32) (s : Option (List (Option UInt32))), hashableSliceHash f s ≠ none)

/-- The claim is false: hashing `[]int16{1}` panics. -/
theorem C33_refuted : ¬ HashableSlicesHash := by
  intro h
  exact (h.1 (fun _ => 0) 2 ⟨some [1], 1⟩ ⟨some [1], 1⟩ (by simp) ⟨by simp, by simp⟩ ⟨by simp, by simp⟩).1 (by decide)

/-- The claim is also false for slices of hashables: any non-nil element makes the hash panic. -/
theorem C33_hashableSlice_refuted : ¬ ∀ (f : Bytes → UInt32) (s : Option (List (Option UInt32))), hashableSliceHash f s ≠ none := by
  intro h
  exact h (fun _ => 0) (some [some 1]) (by decide)

theorem leBytes_length (w x : Nat) : (leBytes w x).length = w := by
  induction w generalizing x with
  | zero => rfl
  | succ w ih => simp [leBytes, ih]

theorem leBytes_inj (w x y : Nat) (hx : x < 256 ^ w) (hy : y < 256 ^ w) (h : leBytes w x = leBytes w y) : x = y := by
  induction w generalizing x y with
  | zero => simp at hx hy; omega
  | succ w ih =>
    simp only [leBytes, List.cons.injEq] at h
    obtain ⟨h1, h2⟩ := h
    have h3 := congrArg UInt8.toNat h1
    simp at h3
    rw [pow_succ] at hx hy
    have := ih (x / 256) (y / 256) (by omega) (by omega) h2
    omega

theorem flatMap_leBytes_inj (w : Nat) (hw : 0 < w) (a b : List Nat) (ha : ∀ x ∈ a, x < 256 ^ w) (hb : ∀ x ∈ b, x < 256 ^ w)
    (h : a.flatMap (leBytes w) = b.flatMap (leBytes w)) : a = b := by
  induction a generalizing b with
  | nil =>
    cases b with
    | nil => rfl
    | cons y b =>
      have := congrArg List.length h
      simp [leBytes_length] at this
      omega
  | cons x a ih =>
    cases b with
    | nil =>
      have := congrArg List.length h
      simp [leBytes_length] at this
      omega
    | cons y b =>
      simp only [List.flatMap_cons] at h
      obtain ⟨h1, h2⟩ := List.append_inj h (by rw [leBytes_length, leBytes_length])
      rw [leBytes_inj w x y (ha x (by simp)) (hb y (by simp)) h1,
        ih b (fun z hz => ha z (by simp [hz])) (fun z hz => hb z (by simp [hz])) h2]

theorem equalIntSlice_iff (a b : Option (List Nat)) : equalIntSlice a b = true ↔ a = b := by
  cases a with
  | none => cases b <;> simp [equalIntSlice]
  | some a =>
    cases b with
    | none => simp [equalIntSlice]
    | some b =>
      simp only [equalIntSlice, Option.some.injEq]
      induction a generalizing b with
      | nil => cases b <;> simp
      | cons x a ih =>
        cases b with
        | nil => simp
        | cons y b =>
          have := ih b
          by_cases hl : a.length = b.length
          · simp only [hl, ne_eq, not_true, if_false] at this
            simp only [List.length_cons, hl, ne_eq, not_true, if_false, List.zip_cons_cons, List.all_cons, Bool.and_eq_true,
              beq_iff_eq, List.cons.injEq, this]
          · simp only [List.length_cons, ne_eq, Nat.add_right_cancel_iff, hl, not_false_eq_true, if_true, Bool.false_eq_true,
              List.cons.injEq, false_iff, not_and]
            rintro - rfl
            exact hl rfl

theorem hashableIntSliceEqual_iff (s t : IntSlice) : hashableIntSliceEqual s t = true ↔ s.elems = t.elems := by
  unfold hashableIntSliceEqual
  split
  · rename_i h
    simp only [Bool.false_eq_true, false_iff]
    intro hc
    rw [hc] at h
    exact h rfl
  · exact equalIntSlice_iff _ _

/-- C33, integer slices, exactly: hashing panics if and only if the slice is non-nil and its capacity (in elements) is below
`width * len`; otherwise it hashes the memory of the elements; equal slices have equal hashes if both return; and slices
with the same hash input have the same elements (nil counting as empty). -/
theorem C33_int_slices_partial (f : Bytes → UInt32) (w : Nat) (hw : w = 2 ∨ w = 4 ∨ w = 8) (s t : IntSlice) (hs : ValidInts w s)
    (ht : ValidInts w t) :
    (hashableIntSliceHash w f s = none ↔ s.cap < w * (s.elems.getD []).length) ∧
    (hashableIntSliceHash w f s ≠ none → hashableIntSliceHash w f s = some (f ((s.elems.getD []).flatMap (leBytes w)))) ∧
    (hashableIntSliceEqual s t = true → hashableIntSliceHash w f s ≠ none → hashableIntSliceHash w f t ≠ none →
      hashableIntSliceHash w f s = hashableIntSliceHash w f t) ∧
    ((s.elems.getD []).flatMap (leBytes w) = (t.elems.getD []).flatMap (leBytes w) → s.elems.getD [] = t.elems.getD []) := by
  have key : ∀ s : IntSlice, (hashableIntSliceHash w f s = none ↔ s.cap < w * (s.elems.getD []).length) ∧
      (hashableIntSliceHash w f s ≠ none → hashableIntSliceHash w f s = some (f ((s.elems.getD []).flatMap (leBytes w)))) := by
    intro s
    obtain ⟨el, c⟩ := s
    cases el with
    | none => simp [hashableIntSliceHash]
    | some l =>
      simp only [hashableIntSliceHash, Option.getD_some]
      rw [Nat.mul_comm w]
      by_cases h : l.length * w ≤ c
      · simp only [h, if_true, reduceCtorEq, false_iff, not_lt, true_and]; simp
      · simp only [h, if_false, true_iff]; exact ⟨by omega, fun hc => absurd rfl hc⟩
  refine ⟨(key s).1, (key s).2, fun he h1 h2 => ?_, fun h => ?_⟩
  · rw [(key s).2 h1, (key t).2 h2, (hashableIntSliceEqual_iff s t).mp he]
  · exact flatMap_leBytes_inj w (by omega) _ _ hs.2 ht.2 h

example : hashableIntSliceHash 2 (murmurHash 0) ⟨some [1, 65535], 4⟩ = some (murmurHash 0 [1, 0, 255, 255]) ∧
    hashableIntSliceHash 2 (murmurHash 0) ⟨some [1, 65535], 3⟩ = none := by decide +kernel

/-- C33, slices of hashables, exactly: the hash returns if and only if all elements are nil. -/
theorem C33_hashableSlice_partial (f : Bytes → UInt32) (l : List (Option UInt32)) :
    hashableSliceHash f (some l) ≠ none ↔ ∀ o ∈ l, o = none := by
  have hn : ∀ l : List (Option UInt32), l.foldl (fun h o => match h, o with
      | none, _ => none
      | some h, none => some (h ^^^ f [])
      | some _, some _ => none) (none : Option UInt32) = none := by
    intro l
    induction l with
    | nil => rfl
    | cons o l ih => simpa using ih
  have key : ∀ (l : List (Option UInt32)) (h : UInt32), l.foldl (fun h o => match h, o with
      | none, _ => none
      | some h, none => some (h ^^^ f [])
      | some _, some _ => none) (some h) ≠ none ↔ ∀ o ∈ l, o = none := by
    intro l
    induction l with
    | nil => simp
    | cons o l ih =>
      intro h
      cases o with
      | none => simpa using ih _
      | some x => simp [hn l]
  exact key l _

/-- Byte slices as hash keys under a Murmur seed: `HashableByteSlice`. -/
def byteSliceHashOps (seed : UInt32) : HashOps Slice := ⟨hashableByteSliceEqual, hashableByteSliceHash (murmurHash seed)⟩

/-- C33, byte slices: the hash always returns and agrees with `Equal`, for every hash function; so a HashMap keyed by byte
slices is covered by C28. -/
theorem C33_byteSlice (f : Bytes → UInt32) : LawfulHash ⟨hashableByteSliceEqual, hashableByteSliceHash f⟩ := by
  have he : ∀ a b, hashableByteSliceEqual a b = true ↔ a = b := by
    intro a b
    unfold hashableByteSliceEqual
    split
    · rename_i h
      simp only [Bool.false_eq_true, false_iff]
      rintro rfl
      exact h rfl
    · exact equalByteSlice_iff a b
  refine ⟨fun a => (he a a).mpr rfl, fun a b h => (he b a).mpr ((he a b).mp h).symm,
    fun a b c h1 h2 => (he a c).mpr (((he a b).mp h1).trans ((he b c).mp h2)), fun a b h => ?_⟩
  rw [(he a b).mp h]

example : (runHash (byteSliceHashOps 7) defaultPolicy (HashTab.new 10)
    [.put (some [1]) 10, .put none 20, .put (some []) 30, .put (some [1]) 11]).map (fun r => r.2)
    = some [none, none, none, some 10] := by decide +kernel

/-- An element, even one that can be hashed, makes the hash of the slice panic. -/
example := C33_hashableSlice_partial (murmurHash 7) [none, some 5]

end Poodle.Props
