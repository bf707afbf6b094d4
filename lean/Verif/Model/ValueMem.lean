import Verif.Model.Sharing
import Verif.Model.ValueHeap

/-
Model of decoded values and records that are accessed while the bytes they were decoded from may change: `ValueAt`, `RecordAt` and
`Value` of `StandardMappedValue` (/repo/src/util/value_util.go:265-336, :356-367) on slices of a memory.

As in `ValueHeap` the objects are in a heap; as in `Sharing` their bytes are windows into byte arrays.  The memory is read only by these
functions; the program may assign bytes between the calls.
-/

namespace Poodle

/-- A decoded object: a `StandardMappedValue` with its cache, /repo/src/util/value_util.go:189-200, or a `MappedRecord` with its value
and scheme, /repo/src/util/record_util.go:38-49. -/
inductive WObj where
  | val (d : SStd) (slots : List Slot)
  | record (r : SRecInfo) (value scheme : Nat)
deriving DecidableEq, Repr

/-- All decoded objects.  (Go runtime; no file in /repo.) -/
abbrev MHeap := List WObj

/-- `x.Buf()`, /repo/src/util/value_util.go:376-378 and /repo/src/util/record_util.go:137-139. -/
def WObj.buf : WObj → Sl
  | .val d _ => d.buf
  | .record r _ _ => r.buf

/-- The new object made by `make([]IValue, d.size)` / `make([]IRecord, d.size)`, /repo/src/util/value_util.go:414, :422, :442, :453; a
primitive has no slots. -/
def freshValM (d : SStd) : WObj := .val d (List.replicate (if d.kind = .prim then 0 else d.size) .empty)

/-- `NewStandardMappedValue`, /repo/src/util/value_util.go:205-220, allocating the object. -/
def allocStdM (m : Mem) (h : MHeap) (s : Sl) : MHeap × Res Nat :=
  match stdAt m s with
  | .ok (d, _) => (h ++ [freshValM d], .ok h.length)
  | .err => (h, .err)
  | .panic => (h, .panic)

/-- `NewMappedRecord`, /repo/src/util/record_util.go:54-70, allocating the value, the scheme and the record. -/
def allocRecM (m : Mem) (h : MHeap) (s : Sl) : MHeap × Res Nat :=
  match recordAt m s with
  | .ok (r, _) => (h ++ [freshValM r.value, freshValM r.scheme, .record r h.length (h.length + 1)], .ok (h.length + 2))
  | .err => (h, .err)
  | .panic => (h, .panic)

/-- Reading `d.data_array[i]` / `d.record_list[i]`; `none` if there is no such slot.  Used at
/repo/src/util/value_util.go:279, :286, :295, :316, :323, :332. -/
def slotM (h : MHeap) (id i : Nat) : Option Slot :=
  match h[id]? with
  | some (.val _ slots) => slots[i]?
  | _ => none

/-- Writing `d.data_array[i]` / `d.record_list[i]`, /repo/src/util/value_util.go:290 and :327. -/
def setSlotM (h : MHeap) (id i : Nat) (s : Slot) : MHeap :=
  match h[id]? with
  | some (.val d slots) => h.set id (.val d (slots.set i s))
  | _ => h

/-- The loop of `ValueAt`, /repo/src/util/value_util.go:285-297, and `RecordAt`, :322-333: `n` elements remain, from element `i` at
position `pos` of the content; `alloc` is `NewStandardMappedValue` or `NewMappedRecord` on the memory at the time of the call. -/
def lazyLoopM (alloc : MHeap → Sl → MHeap × Res Nat) (content : Sl) (id : Nat) : Nat → Nat → Nat → MHeap → MHeap × Res Unit
  | 0, _, _, h => (h, .ok ())
  | n + 1, i, pos, h =>
    match slotM h id i with
    | none => (h, .panic)
    | some .typedNil => (h, .panic)
    | some (.obj p) =>
      match h[p]? with
      | none => (h, .panic)
      | some o => lazyLoopM alloc content id n (i + 1) (pos + o.buf.len) h
    | some .empty =>
      if content.len < pos then (h, .err)
      else
        match alloc h (content.rest pos) with
        | (h, .ok p) =>
          match h[p]? with
          | none => (h, .panic)
          | some o => lazyLoopM alloc content id n (i + 1) (pos + o.buf.len) (setSlotM h id i (.obj p))
        | (h, .err) => (setSlotM h id i .typedNil, .err)
        | (h, .panic) => (h, .panic)

/-- The common part of `ValueAt` and `RecordAt`, /repo/src/util/value_util.go:275-299 and :312-335. -/
def lazyAtM (alloc : MHeap → Sl → MHeap × Res Nat) (h : MHeap) (id : Nat) (d : SStd) (idx : Nat) : MHeap × Res (Option Nat) :=
  if idx ≥ d.size then (h, .err)
  else match slotM h id idx with
    | none => (h, .panic)
    | some (.obj p) => (h, .ok (some p))
    | some .typedNil => (h, .ok none)
    | some .empty =>
      match lazyLoopM alloc d.content id (idx + 1) 0 0 h with
      | (h, .ok ()) =>
        match slotM h id idx with
        | some (.obj p) => (h, .ok (some p))
        | some .typedNil => (h, .ok none)
        | _ => (h, .panic)
      | (h, .err) => (h, .err)
      | (h, .panic) => (h, .panic)

/-- `StandardMappedValue.ValueAt`, /repo/src/util/value_util.go:265-300. -/
def valueAtM (m : Mem) (h : MHeap) (id idx : Nat) : MHeap × Res (Option Nat) :=
  match h[id]? with
  | some (.val d _) => if d.kind ≠ .array then (h, .err) else lazyAtM (allocStdM m) h id d idx
  | _ => (h, .panic)

/-- `StandardMappedValue.RecordAt`, /repo/src/util/value_util.go:302-336. -/
def recordAtM (m : Mem) (h : MHeap) (id idx : Nat) : MHeap × Res (Option Nat) :=
  match h[id]? with
  | some (.val d _) => if d.kind ≠ .records then (h, .err) else lazyAtM (allocRecM m) h id d idx
  | _ => (h, .panic)

end Poodle
