import Verif.Lemmas.Slice

/-
Property C17: byte slice comparison (/repo/src/collection/util.go).

The specification order is Lean's `compare` on `Option (List UInt8)`: nil (`none`) below everything, then
lexicographic on the bytes.
-/

namespace Poodle.Props
open Poodle

/-- The full claim C17 (false of the code): `CompareByteSlice` is the lexicographic three-way comparison. -/
def ByteSliceCompareIsLexicographic : Prop :=
  ∀ s t : Slice, compareByteSlice s t = .ok (ordInt (compare s t))

/-- C17 is false: comparing "ab" with its strict prefix "a" indexes past the end of "a". -/
theorem C17_refuted : ¬ ByteSliceCompareIsLexicographic := by
  intro h
  have := h (some [97, 98]) (some [97])
  revert this; decide +kernel

/-- C17, exact: the comparison panics if and only if the second slice is a strict prefix of the first (both
non-nil). -/
theorem C17_compare_panics_iff_partial (s t : Slice) :
    compareByteSlice s t = .panic ↔ ∃ a b, s = some a ∧ t = some b ∧ b <+: a ∧ b ≠ a := by
  rcases s with - | a <;> rcases t with - | b
  · simp [compareByteSlice]
  · simp [compareByteSlice]
  · simp [compareByteSlice]
  · rw [compareByteSlice_some, cmpRec_panic_iff]; simp

/-- C17, exact: in all other cases it is the lexicographic three-way comparison with nil lowest. -/
theorem C17_compare_lexicographic_partial (s t : Slice)
    (h : ¬ ∃ a b, s = some a ∧ t = some b ∧ b <+: a ∧ b ≠ a) :
    compareByteSlice s t = .ok (ordInt (compare s t)) := by
  rw [← C17_compare_panics_iff_partial] at h
  rcases s with - | a <;> rcases t with - | b
  · rfl
  · rfl
  · rfl
  · rw [compareByteSlice_some] at h ⊢
    rcases hc : cmpRec a b with r | - | -
    · rw [cmpRec_ok a b r hc]; rfl
    · exact absurd hc (cmpRec_not_err a b)
    · exact absurd hc h

example := C17_compare_lexicographic_partial (some [1, 2]) (some [1, 3, 4]) (by
  rintro ⟨a, b, h, h', hp, -⟩
  cases h; cases h'
  exact absurd hp (by decide))

/-- C17: `EqualByteSlice` is equality (nil and empty are different). -/
theorem C17_equal_iff (s t : Slice) : equalByteSlice s t = true ↔ s = t := equalByteSlice_iff s t

/-- C17: the comparison is zero exactly on equal slices. -/
theorem C17_compare_zero_iff (s t : Slice) : compareByteSlice s t = .ok 0 ↔ equalByteSlice s t = true := by
  rw [equalByteSlice_iff]
  by_cases h : ∃ a b, s = some a ∧ t = some b ∧ b <+: a ∧ b ≠ a
  · rw [(C17_compare_panics_iff_partial s t).mpr h]
    obtain ⟨a, b, rfl, rfl, -, hne⟩ := h
    simpa using fun h => hne h.symm
  · rw [C17_compare_lexicographic_partial s t h]
    have : (0 : Int) = ordInt .eq := rfl
    rw [this, Res.ok.injEq, ordInt_inj, Std.LawfulEqCmp.compare_eq_iff_eq]

/-- The specification order is a linear order (so the partial theorems above do describe an order). -/
theorem C17_spec_order_linear (s t u : Slice) :
    (compare s s = .eq) ∧ (compare s t).swap = compare t s ∧ (compare s t = .eq ↔ s = t) ∧
      (compare s t = .lt → compare t u = .lt → compare s u = .lt) :=
  ⟨Std.ReflOrd.compare_self, (Std.OrientedCmp.eq_swap (cmp := compare)).symm, Std.LawfulEqCmp.compare_eq_iff_eq,
    fun h1 h2 => Std.TransCmp.lt_trans h1 h2⟩

example : ¬ ∃ a b, (some [1, 2] : Slice) = some a ∧ (some [1, 2, 3] : Slice) = some b ∧ b <+: a ∧ b ≠ a := by
  rw [← C17_compare_panics_iff_partial]; decide +kernel

example : compareByteSlice (some [1, 2]) (some [1, 2, 3]) = .ok (-1) ∧ compareByteSlice (some [2]) (some [1, 9]) = .ok 1 := by
  decide +kernel

end Poodle.Props
