import Verif.Model.Slice
import Mathlib.Tactic.Common

namespace Poodle

theorem zip_all_eq {α : Type} [BEq α] [LawfulBEq α] : ∀ {a b : List α}, a.length = b.length →
    (((a.zip b).all fun p => p.1 == p.2) = true ↔ a = b)
  | [], [], _ => by simp
  | x :: a, y :: b, h => by
    have := zip_all_eq (a := a) (b := b) (by simpa using h)
    simp only [List.zip_cons_cons, List.all_cons, Bool.and_eq_true, beq_iff_eq, this, List.cons.injEq]

theorem equalByteSlice_iff (a b : Slice) : equalByteSlice a b = true ↔ a = b := by
  rcases a with - | a <;> rcases b with - | b <;> simp only [equalByteSlice, Bool.false_eq_true, reduceCtorEq]
  split
  · rename_i h
    simp only [Bool.false_eq_true, Option.some.injEq, false_iff]
    rintro rfl; exact h rfl
  · rename_i h
    rw [zip_all_eq (by omega)]; simp

theorem compareByteLoop_eq (s1 s2 : Bytes) : ∀ (rest : Bytes) (i : Nat), i + rest.length = s1.length →
    compareByteLoop s1 s2 rest i = match rest, s2.drop i with
      | [], [] => .ok 0
      | [], _ :: _ => .ok (-1)
      | _ :: _, [] => .panic
      | a :: rest, b :: _ =>
        if a < b then .ok (-1) else if a > b then .ok 1 else compareByteLoop s1 s2 rest (i + 1)
  | [], i, h => by
    simp at h
    simp only [compareByteLoop]
    rcases hd : s2.drop i with - | ⟨b, bs⟩
    · have := List.drop_eq_nil_iff.mp hd
      simp; omega
    · have : (s2.drop i).length = (b :: bs).length := by rw [hd]
      simp at this
      simp; omega
  | a :: rest, i, h => by
    simp at h
    rw [compareByteLoop, if_neg (by omega)]
    rcases hd : s2.drop i with - | ⟨b, bs⟩
    · have := List.drop_eq_nil_iff.mp hd
      have : s2[i]? = none := by simp; omega
      simp [this]
    · have : s2[i]? = some b := by rw [← List.head?_drop, hd]; rfl
      simp [this]

/-- Recursive characterisation of the comparison without indexes. -/
def cmpRec : Bytes → Bytes → Res Int
  | [], [] => .ok 0
  | [], _ :: _ => .ok (-1)
  | _ :: _, [] => .panic
  | a :: as, b :: bs => if a < b then .ok (-1) else if a > b then .ok 1 else cmpRec as bs

theorem compareByteLoop_cmpRec (s1 s2 : Bytes) : ∀ (rest : Bytes) (i : Nat), i + rest.length = s1.length →
    compareByteLoop s1 s2 rest i = cmpRec rest (s2.drop i)
  | [], i, h => by
    rw [compareByteLoop_eq _ _ _ _ h]
    rcases hd : s2.drop i <;> simp [cmpRec]
  | a :: rest, i, h => by
    rw [compareByteLoop_eq _ _ _ _ h]
    rcases hd : s2.drop i with - | ⟨b, bs⟩
    · simp [cmpRec]
    · have hb : s2.drop (i + 1) = bs := by rw [← List.drop_drop, hd]; rfl
      simp only [cmpRec]
      rw [compareByteLoop_cmpRec s1 s2 rest (i + 1) (by simp at h; omega), hb]

theorem compareByteSlice_some (a b : Bytes) : compareByteSlice (some a) (some b) = cmpRec a b := by
  simp only [compareByteSlice]
  rw [compareByteLoop_cmpRec _ _ _ _ (by simp)]; simp

theorem cmpRec_panic_iff : ∀ a b : Bytes, cmpRec a b = .panic ↔ b <+: a ∧ b ≠ a
  | [], [] => by simp [cmpRec]
  | [], _ :: _ => by simp [cmpRec]
  | _ :: _, [] => by simp [cmpRec]
  | x :: a, y :: b => by
    simp only [cmpRec]
    split
    · rename_i h
      have : y ≠ x := by rintro rfl; exact absurd h (UInt8.lt_irrefl _)
      simp [List.cons_prefix_cons, this]
    · split
      · rename_i h
        have : y ≠ x := by rintro rfl; exact absurd h (UInt8.lt_irrefl _)
        simp [List.cons_prefix_cons, this]
      · rename_i h1 h2
        have : x = y := UInt8.le_antisymm (UInt8.not_lt.mp h2) (UInt8.not_lt.mp h1)
        subst this
        rw [cmpRec_panic_iff]
        simp [List.cons_prefix_cons]

theorem cmpRec_not_err : ∀ a b : Bytes, cmpRec a b ≠ .err
  | [], [] => by simp [cmpRec]
  | [], _ :: _ => by simp [cmpRec]
  | _ :: _, [] => by simp [cmpRec]
  | x :: a, y :: b => by
    simp only [cmpRec]
    split_ifs <;> simp [cmpRec_not_err a b]

/-- The integer the code returns for each ordering. -/
def ordInt : Ordering → Int
  | .lt => -1
  | .eq => 0
  | .gt => 1

@[simp] theorem ordInt_inj {a b : Ordering} : ordInt a = ordInt b ↔ a = b := by
  cases a <;> cases b <;> simp [ordInt]

theorem cmpRec_ok : ∀ (a b : Bytes) (r : Int), cmpRec a b = .ok r → r = ordInt (compare a b)
  | [], [], r => by simp only [cmpRec, Res.ok.injEq]; rintro rfl; rfl
  | [], _ :: _, r => by simp only [cmpRec, Res.ok.injEq]; rintro rfl; rfl
  | _ :: _, [], r => by simp [cmpRec]
  | x :: a, y :: b, r => by
    have hc : compare (x :: a) (y :: b) = (compare x y).then (compare a b) := by
      simp [compare, List.compareLex_cons_cons]
    simp only [cmpRec]
    split
    · rename_i h
      simp only [Res.ok.injEq]; rintro rfl
      rw [hc, Std.compare_eq_lt.mpr h]; rfl
    · split
      · rename_i h
        simp only [Res.ok.injEq]; rintro rfl
        rw [hc, Std.compare_eq_gt.mpr h]; rfl
      · rename_i h1 h2
        have : x = y := UInt8.le_antisymm (UInt8.not_lt.mp h2) (UInt8.not_lt.mp h1)
        subst this
        intro h
        rw [hc, Std.ReflOrd.compare_self]
        exact cmpRec_ok a b r h

end Poodle
