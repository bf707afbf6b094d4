/-
Go runtime conventions shared by all model files.
-/

namespace Poodle

/-- A Go byte string; `byte` is `uint8`.  (Go language; no file in /repo.) -/
abbrev Bytes := List UInt8

/-- A Go `[]byte` that may be nil: `none` is the nil slice, `some l` a non-nil slice with content `l`.
Used where the code distinguishes nil from empty (e.g. /repo/src/collection/util.go:207-224). -/
abbrev Slice := Option Bytes

/-- The bytes of a possibly nil slice: ranging over, copying or measuring a nil slice behaves as for an
empty one.  (Go language; no file in /repo.) -/
def Slice.bytes (s : Slice) : Bytes := s.getD []

/-- Outcome of a Go call returning `(T, error)`: a value, a non-nil `error`, or a panic (explicit `panic`,
index/slice out of range, nil dereference, failed type assertion, bad `make`).  Error texts are not modelled.
(Go language; e.g. `NewStandardMappedValue`, /repo/src/util/value_util.go:205.) -/
inductive Res (α : Type) where
  | ok (a : α) : Res α
  | err : Res α
  | panic : Res α
deriving DecidableEq, Repr

namespace Res

/-- Sequencing of Go statements that may return early with an error or panic.  (Go language; the pattern
`if err != nil { return nil, length, err }` found throughout, e.g. /repo/src/util/record_util.go:65-67.) -/
def bind {α β : Type} (x : Res α) (f : α → Res β) : Res β :=
  match x with
  | ok a => f a
  | err => err
  | panic => panic

/-- `do` notation for `Res.bind`.  (Go language; no file in /repo.) -/
instance : Monad Res where
  pure := Res.ok
  bind := Res.bind

/-- The call panics.  (Go language; no file in /repo.) -/
def Panics {α : Type} (x : Res α) : Prop := x = .panic

@[simp] theorem bind_ok {α β : Type} (a : α) (f : α → Res β) : (Res.ok a >>= f) = f a := rfl
@[simp] theorem bind_err {α β : Type} (f : α → Res β) : ((Res.err : Res α) >>= f) = .err := rfl
@[simp] theorem bind_panic {α β : Type} (f : α → Res β) : ((Res.panic : Res α) >>= f) = .panic := rfl
@[simp] theorem pure_eq {α : Type} (a : α) : (pure a : Res α) = .ok a := rfl

theorem bind_eq_ok {α β : Type} {x : Res α} {f : α → Res β} {b : β} :
    (x >>= f) = .ok b ↔ ∃ a, x = .ok a ∧ f a = .ok b := by
  cases x <;> simp

end Res

/-- `int(x)` for a `uint64`, and the result of `int` additions that may overflow: two's complement wrap
around to 64 bits.  (Go language, 64-bit `int`; no file in /repo.) -/
def wrap64 (z : Int) : Int := Int.bmod z (2 ^ 64)

/-- The Go slice expression `buf[lo:hi]`; out of range bounds panic.  The bound is `len(buf)`; the callers
check `hi <= len(buf)` before slicing, so the difference between `len` and `cap` is not observable.
(Go language; no file in /repo.) -/
def goSlice (buf : Bytes) (lo hi : Int) : Res Bytes :=
  if 0 ≤ lo ∧ lo ≤ hi ∧ hi ≤ buf.length then .ok ((buf.take hi.toNat).drop lo.toNat) else .panic

end Poodle
