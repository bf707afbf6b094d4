import Verif.Model.GoVal

/-
C203: which values `IsNil` recognises as nil.  C204: smallest and largest of two numbers.
-/

namespace Poodle.Spec

/-- The values of the language that are `nil`. -/
inductive NilValue : GoVal → Prop
  | nothing : NilValue .nothing
  | ptr : NilValue (.ptr none)
  | map : NilValue (.map none)
  | chan : NilValue (.chan none)
  | slice : NilValue (.slice none)
  | func : NilValue (.func none)
  | unsafePointer : NilValue (.unsafePointer none)

/-- `m` is the smaller of `a` and `b`. -/
def IsMin (num : α → Int) (a b m : α) : Prop := num m = min (num a) (num b) ∧ (m = a ∨ m = b)

/-- `m` is the greater of `a` and `b`. -/
def IsMax (num : α → Int) (a b m : α) : Prop := num m = max (num a) (num b) ∧ (m = a ∨ m = b)

end Poodle.Spec

namespace Poodle.Props

open Spec

/-! ### C203 -/

/-- The full claim C203 (false of the code). -/
def NilRecognised : Prop := ∀ v : GoVal, (NilValue v → v.isNil = .ok true) ∧ (¬ NilValue v → v.isNil = .ok false)

/-- C203 is false: an array is not nil, but asking panics; a nil function is nil, but is not recognised. -/
theorem C203_refuted : ¬ NilRecognised ∧ (GoVal.array 4).isNil = .panic ∧ (NilValue (.func none) ∧ (GoVal.func none).isNil = .ok false) := by
  have h : (GoVal.array 4).isNil = .panic := by decide
  refine ⟨fun hc => ?_, h, .func, by decide⟩
  have := (hc (.array 4)).2 (by intro h; cases h)
  rw [h] at this; cases this

/-- C203 exactly: asking panics for arrays and nothing else; nil functions and unsafe pointers are taken for something; all other values are
recognised. -/
theorem C203_exact_partial (v : GoVal) : (v.isNil = .panic ↔ ∃ n, v = .array n) ∧
    (v.isNil = .ok true ↔ NilValue v ∧ v ≠ .func none ∧ v ≠ .unsafePointer none) ∧ v.isNil ≠ .err := by
  cases v with
  | nothing => exact ⟨by simp [GoVal.isNil], by simp [GoVal.isNil, NilValue.nothing], by simp [GoVal.isNil]⟩
  | bool => exact ⟨by simp [GoVal.isNil, GoVal.listedKind], ⟨by simp [GoVal.isNil, GoVal.listedKind], fun h => nomatch h.1⟩, by simp [GoVal.isNil, GoVal.listedKind]⟩
  | number => exact ⟨by simp [GoVal.isNil, GoVal.listedKind], ⟨by simp [GoVal.isNil, GoVal.listedKind], fun h => nomatch h.1⟩, by simp [GoVal.isNil, GoVal.listedKind]⟩
  | string => exact ⟨by simp [GoVal.isNil, GoVal.listedKind], ⟨by simp [GoVal.isNil, GoVal.listedKind], fun h => nomatch h.1⟩, by simp [GoVal.isNil, GoVal.listedKind]⟩
  | struct => exact ⟨by simp [GoVal.isNil, GoVal.listedKind], ⟨by simp [GoVal.isNil, GoVal.listedKind], fun h => nomatch h.1⟩, by simp [GoVal.isNil, GoVal.listedKind]⟩
  | array n => exact ⟨by simp [GoVal.isNil, GoVal.listedKind, GoVal.reflectIsNil], ⟨by simp [GoVal.isNil, GoVal.listedKind, GoVal.reflectIsNil],
      fun h => nomatch h.1⟩, by simp [GoVal.isNil, GoVal.listedKind, GoVal.reflectIsNil]⟩
  | ptr t =>
    refine ⟨by simp [GoVal.isNil, GoVal.listedKind, GoVal.reflectIsNil], ?_, by simp [GoVal.isNil, GoVal.listedKind, GoVal.reflectIsNil]⟩
    cases t
    · simp [GoVal.isNil, GoVal.listedKind, GoVal.reflectIsNil, NilValue.ptr]
    · exact ⟨by simp [GoVal.isNil, GoVal.listedKind, GoVal.reflectIsNil], fun h => nomatch h.1⟩
  | map t =>
    refine ⟨by simp [GoVal.isNil, GoVal.listedKind, GoVal.reflectIsNil], ?_, by simp [GoVal.isNil, GoVal.listedKind, GoVal.reflectIsNil]⟩
    cases t
    · simp [GoVal.isNil, GoVal.listedKind, GoVal.reflectIsNil, NilValue.map]
    · exact ⟨by simp [GoVal.isNil, GoVal.listedKind, GoVal.reflectIsNil], fun h => nomatch h.1⟩
  | chan t =>
    refine ⟨by simp [GoVal.isNil, GoVal.listedKind, GoVal.reflectIsNil], ?_, by simp [GoVal.isNil, GoVal.listedKind, GoVal.reflectIsNil]⟩
    cases t
    · simp [GoVal.isNil, GoVal.listedKind, GoVal.reflectIsNil, NilValue.chan]
    · exact ⟨by simp [GoVal.isNil, GoVal.listedKind, GoVal.reflectIsNil], fun h => nomatch h.1⟩
  | slice t =>
    refine ⟨by simp [GoVal.isNil, GoVal.listedKind, GoVal.reflectIsNil], ?_, by simp [GoVal.isNil, GoVal.listedKind, GoVal.reflectIsNil]⟩
    cases t
    · simp [GoVal.isNil, GoVal.listedKind, GoVal.reflectIsNil, NilValue.slice]
    · exact ⟨by simp [GoVal.isNil, GoVal.listedKind, GoVal.reflectIsNil], fun h => nomatch h.1⟩
  | func t =>
    refine ⟨by simp [GoVal.isNil, GoVal.listedKind], ⟨by simp [GoVal.isNil, GoVal.listedKind], ?_⟩, by simp [GoVal.isNil, GoVal.listedKind]⟩
    rintro ⟨h, h1, -⟩; cases h; exact absurd rfl h1
  | unsafePointer t =>
    refine ⟨by simp [GoVal.isNil, GoVal.listedKind], ⟨by simp [GoVal.isNil, GoVal.listedKind], ?_⟩, by simp [GoVal.isNil, GoVal.listedKind]⟩
    rintro ⟨h, -, h1⟩; cases h; exact absurd rfl h1

example : (GoVal.slice none).isNil = .ok true ∧ (GoVal.slice (some 7)).isNil = .ok false ∧ (GoVal.number).isNil = .ok false := by decide

/-! ### C204 -/

theorem goMin_isMin [LT α] [DecidableLT α] (num : α → Int) (h : ∀ a b : α, a < b ↔ num a < num b) (a b : α) : IsMin num a b (goMin a b) := by
  unfold goMin IsMin
  split
  · rename_i hc; exact ⟨by rw [h] at hc; omega, .inl rfl⟩
  · rename_i hc; exact ⟨by rw [h] at hc; omega, .inr rfl⟩

theorem goMax_isMax [LT α] [DecidableLT α] (num : α → Int) (h : ∀ a b : α, a < b ↔ num a < num b) (a b : α) : IsMax num a b (goMax a b) := by
  unfold goMax IsMax
  split
  · rename_i hc; exact ⟨by have := (h b a).mp hc; omega, .inl rfl⟩
  · rename_i hc; exact ⟨by have := mt (h b a).mpr hc; omega, .inr rfl⟩

/-- C204: the functions return the smaller and the greater of their arguments, as numbers, for signed integers ... -/
theorem C204_signed :
    (∀ a b : Int8, IsMin Int8.toInt a b (goMin a b) ∧ IsMax Int8.toInt a b (goMax a b)) ∧
    (∀ a b : Int16, IsMin Int16.toInt a b (goMin a b) ∧ IsMax Int16.toInt a b (goMax a b)) ∧
    (∀ a b : Int32, IsMin Int32.toInt a b (goMin a b) ∧ IsMax Int32.toInt a b (goMax a b)) ∧
    (∀ a b : Int64, IsMin Int64.toInt a b (goMin a b) ∧ IsMax Int64.toInt a b (goMax a b)) :=
  ⟨fun a b => ⟨goMin_isMin _ (fun _ _ => Int8.lt_iff_toInt_lt) a b, goMax_isMax _ (fun _ _ => Int8.lt_iff_toInt_lt) a b⟩,
   fun a b => ⟨goMin_isMin _ (fun _ _ => Int16.lt_iff_toInt_lt) a b, goMax_isMax _ (fun _ _ => Int16.lt_iff_toInt_lt) a b⟩,
   fun a b => ⟨goMin_isMin _ (fun _ _ => Int32.lt_iff_toInt_lt) a b, goMax_isMax _ (fun _ _ => Int32.lt_iff_toInt_lt) a b⟩,
   fun a b => ⟨goMin_isMin _ (fun _ _ => Int64.lt_iff_toInt_lt) a b, goMax_isMax _ (fun _ _ => Int64.lt_iff_toInt_lt) a b⟩⟩

/-- ... and for unsigned ones. -/
theorem C204_unsigned :
    (∀ a b : UInt8, IsMin (fun x => (x.toNat : Int)) a b (goMin a b) ∧ IsMax (fun x => (x.toNat : Int)) a b (goMax a b)) ∧
    (∀ a b : UInt16, IsMin (fun x => (x.toNat : Int)) a b (goMin a b) ∧ IsMax (fun x => (x.toNat : Int)) a b (goMax a b)) ∧
    (∀ a b : UInt32, IsMin (fun x => (x.toNat : Int)) a b (goMin a b) ∧ IsMax (fun x => (x.toNat : Int)) a b (goMax a b)) ∧
    (∀ a b : UInt64, IsMin (fun x => (x.toNat : Int)) a b (goMin a b) ∧ IsMax (fun x => (x.toNat : Int)) a b (goMax a b)) := by
  have h8 : ∀ a b : UInt8, a < b ↔ (a.toNat : Int) < b.toNat := fun a b => by rw [UInt8.lt_iff_toNat_lt]; omega
  have h16 : ∀ a b : UInt16, a < b ↔ (a.toNat : Int) < b.toNat := fun a b => by rw [UInt16.lt_iff_toNat_lt]; omega
  have h32 : ∀ a b : UInt32, a < b ↔ (a.toNat : Int) < b.toNat := fun a b => by rw [UInt32.lt_iff_toNat_lt]; omega
  have h64 : ∀ a b : UInt64, a < b ↔ (a.toNat : Int) < b.toNat := fun a b => by rw [UInt64.lt_iff_toNat_lt]; omega
  exact ⟨fun a b => ⟨goMin_isMin _ h8 a b, goMax_isMax _ h8 a b⟩, fun a b => ⟨goMin_isMin _ h16 a b, goMax_isMax _ h16 a b⟩,
    fun a b => ⟨goMin_isMin _ h32 a b, goMax_isMax _ h32 a b⟩, fun a b => ⟨goMin_isMin _ h64 a b, goMax_isMax _ h64 a b⟩⟩

example : goMin (-1 : Int8) 1 = -1 ∧ goMin (255 : UInt8) 1 = 1 ∧ goMax (-1 : Int64) (-2) = -1 := by decide

end Poodle.Props
