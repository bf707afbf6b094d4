import Verif.Model.ValueHeap

/-
Work done by `StandardMappedValue.ValueAt` and `RecordAt` (/repo/src/util/value_util.go:265-336): the same functions as in
`ValueHeap`, with a count of the rounds of the loops begun and of the elements decoded.
-/

namespace Poodle

/-- A result with the number of rounds of the loops at /repo/src/util/value_util.go:285 and :322 begun and the number of calls
of `NewStandardMappedValue` and `NewMappedRecord` at :290 and :327 made to get it (bookkeeping, no counterpart in /repo). -/
structure ReadWork (α : Type) where
  rounds : Nat
  decodes : Nat
  res : α
deriving DecidableEq, Repr

/-- The loops of `ValueAt`, /repo/src/util/value_util.go:285-297, and `RecordAt`, :322-333, counting from `w` rounds and `n`
elements decoded. -/
def lazyLoopW (alloc : Heap → Bytes → Heap × Res Nat) (content : Bytes) (id : Nat) :
    Nat → Nat → Nat → Heap → Nat → Nat → ReadWork (Heap × Res Unit)
  | 0, _, _, h, w, c => ⟨w, c, h, .ok ()⟩
  | n + 1, i, pos, h, w, c =>
    match h.slot id i with
    | none => ⟨w + 1, c, h, .panic⟩
    | some .typedNil => ⟨w + 1, c, h, .panic⟩
    | some (.obj p) =>
      match h[p]? with
      | none => ⟨w + 1, c, h, .panic⟩
      | some o => lazyLoopW alloc content id n (i + 1) (pos + o.bufLen) h (w + 1) c
    | some .empty =>
      if content.length < pos then ⟨w + 1, c, h, .err⟩
      else
        match alloc h (content.drop pos) with
        | (h, .ok p) =>
          match h[p]? with
          | none => ⟨w + 1, c + 1, h, .panic⟩
          | some o => lazyLoopW alloc content id n (i + 1) (pos + o.bufLen) (h.setSlot id i (.obj p)) (w + 1) (c + 1)
        | (h, .err) => ⟨w + 1, c + 1, h.setSlot id i .typedNil, .err⟩
        | (h, .panic) => ⟨w + 1, c + 1, h, .panic⟩

/-- The common part of `ValueAt` and `RecordAt`, /repo/src/util/value_util.go:275-299 and :312-335, with its work. -/
def lazyAtW (alloc : Heap → Bytes → Heap × Res Nat) (h : Heap) (id : Nat) (d : StdValue) (idx : Nat) :
    ReadWork (Heap × Res (Option Nat)) :=
  if idx ≥ d.size then ⟨0, 0, h, .err⟩
  else match h.slot id idx with
    | none => ⟨0, 0, h, .panic⟩
    | some (.obj p) => ⟨0, 0, h, .ok (some p)⟩
    | some .typedNil => ⟨0, 0, h, .ok none⟩
    | some .empty =>
      match lazyLoopW alloc d.content id (idx + 1) 0 0 h 0 0 with
      | ⟨w, c, h, .ok ()⟩ =>
        match h.slot id idx with
        | some (.obj p) => ⟨w, c, h, .ok (some p)⟩
        | some .typedNil => ⟨w, c, h, .ok none⟩
        | _ => ⟨w, c, h, .panic⟩
      | ⟨w, c, h, .err⟩ => ⟨w, c, h, .err⟩
      | ⟨w, c, h, .panic⟩ => ⟨w, c, h, .panic⟩

/-- `StandardMappedValue.ValueAt`, /repo/src/util/value_util.go:265-300, with its work. -/
def Heap.valueAtW (h : Heap) (id idx : Nat) : ReadWork (Heap × Res (Option Nat)) :=
  match h[id]? with
  | some (.val d _) => if d.kind ≠ .array then ⟨0, 0, h, .err⟩ else lazyAtW allocStd h id d idx
  | _ => ⟨0, 0, h, .panic⟩

/-- `StandardMappedValue.RecordAt`, /repo/src/util/value_util.go:302-336, with its work. -/
def Heap.recordAtW (h : Heap) (id idx : Nat) : ReadWork (Heap × Res (Option Nat)) :=
  match h[id]? with
  | some (.val d _) => if d.kind ≠ .records then ⟨0, 0, h, .err⟩ else lazyAtW allocRec h id d idx
  | _ => ⟨0, 0, h, .panic⟩

end Poodle
