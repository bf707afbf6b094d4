import Verif.Model.Basic

/-
Model of the small utilities of /repo/src/collection/util.go: `IsNil`, `Min..`, `Max..`.
-/

namespace Poodle

/-- A variable of type `interface{}`: nothing, or a value with its kind as `reflect` sees it (never an interface).  Values that refer to
something have where they refer to, `none` if nil; of the others only the kind matters.  (Go language; argument of `IsNil`,
/repo/src/collection/util.go:28.) -/
inductive GoVal where
  | nothing
  | bool
  | number
  | string
  | struct
  | array (length : Nat)
  | ptr (to : Option Nat)
  | map (to : Option Nat)
  | chan (to : Option Nat)
  | slice (to : Option Nat)
  | func (to : Option Nat)
  | unsafePointer (to : Option Nat)
deriving DecidableEq, Repr

/-- `reflect.Value.IsNil`: panics unless the kind is one that has nil.  (Go library; called in /repo/src/collection/util.go:34.) -/
def GoVal.reflectIsNil : GoVal → Res Bool
  | .ptr t | .map t | .chan t | .slice t | .func t | .unsafePointer t => .ok t.isNone
  | .nothing | .bool | .number | .string | .struct | .array _ => .panic

/-- The kinds listed in the switch, /repo/src/collection/util.go:33: pointer, map, array, channel, slice. -/
def GoVal.listedKind : GoVal → Bool
  | .ptr _ | .map _ | .array _ | .chan _ | .slice _ => true
  | .nothing | .bool | .number | .string | .struct | .func _ | .unsafePointer _ => false

/-- `IsNil`, /repo/src/collection/util.go:28-37. -/
def GoVal.isNil (v : GoVal) : Res Bool :=
  if v = .nothing then .ok true
  else if v.listedKind then v.reflectIsNil
  else .ok false

/-- `MinInt`, `MinUnt`, `MinInt8`, ..., `MinUint64`, /repo/src/collection/util.go:43-49, :59-65, :75-81, :91-97, :107-113, :123-129, :139-145,
:155-161, :171-177, :187-193: ten copies of one text, for the types below. -/
def goMin {α : Type} [LT α] [DecidableLT α] (a b : α) : α := if a < b then a else b

/-- `MaxInt`, `MaxUint`, `MaxInt8`, ..., `MaxUint64`, /repo/src/collection/util.go:51-57, :67-73, :83-89, :99-105, :115-121, :131-137, :147-153,
:163-169, :179-185, :195-201. -/
def goMax {α : Type} [LT α] [DecidableLT α] (a b : α) : α := if a > b then a else b

end Poodle
