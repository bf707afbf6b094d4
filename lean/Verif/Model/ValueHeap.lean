import Verif.Model.Value

/-
Model of the access to decoded values and records: `StandardMappedValue.ValueAt`, `RecordAt`, `CopyConstruct`
(/repo/src/util/value_util.go:265-336, :528-585) and `MappedRecord.Value`, `Scheme`, `CopyConstruct`
(/repo/src/util/record_util.go:85-103, :266-293).

These methods cache the elements they decode, so decoded objects are kept in a heap; a pointer is a position in the heap.
Objects are never freed.
-/

namespace Poodle

/-- An element of `data_array` or `record_list` (/repo/src/util/value_util.go:194-195): the nil interface (not decoded yet), an
interface holding a nil pointer (left behind by a failed decode, :290 and :327) or an object. -/
inductive Slot where
  | empty
  | typedNil
  | obj (p : Nat)
deriving DecidableEq, Repr

/-- A decoded object: a `StandardMappedValue` with its cache, /repo/src/util/value_util.go:189-200, or a `MappedRecord` with its value
and scheme, /repo/src/util/record_util.go:38-49. -/
inductive Obj where
  | val (d : StdValue) (slots : List Slot)
  | record (r : RecInfo) (value scheme : Nat)
deriving DecidableEq, Repr

/-- All decoded objects.  (Go runtime; no file in /repo.) -/
abbrev Heap := List Obj

/-- `len(x.Buf())`, /repo/src/util/value_util.go:376-378 and /repo/src/util/record_util.go:137-139. -/
def Obj.bufLen : Obj → Nat
  | .val d _ => d.buf.length
  | .record r _ _ => r.buf.length

/-- The new object made by `make([]IValue, d.size)` / `make([]IRecord, d.size)`, /repo/src/util/value_util.go:414, :422, :442, :453; a
primitive has no slots. -/
def freshVal (d : StdValue) : Obj := .val d (List.replicate (if d.kind = .prim then 0 else d.size) .empty)

/-- `NewStandardMappedValue`, /repo/src/util/value_util.go:205-220, allocating the object. -/
def allocStd (h : Heap) (buf : Bytes) : Heap × Res Nat :=
  match decodeStd buf with
  | .ok (d, _) => (h ++ [freshVal d], .ok h.length)
  | .err => (h, .err)
  | .panic => (h, .panic)

/-- `NewMappedRecord`, /repo/src/util/record_util.go:54-70, allocating the value, the scheme and the record. -/
def allocRec (h : Heap) (buf : Bytes) : Heap × Res Nat :=
  match decodeRecord buf with
  | .ok (r, _) => (h ++ [freshVal r.value, freshVal r.scheme, .record r h.length (h.length + 1)], .ok (h.length + 2))
  | .err => (h, .err)
  | .panic => (h, .panic)

/-- Reading `d.data_array[i]` / `d.record_list[i]`; `none` if there is no such slot.  Used at
/repo/src/util/value_util.go:279, :286, :295, :316, :323, :332. -/
def Heap.slot (h : Heap) (id i : Nat) : Option Slot :=
  match h[id]? with
  | some (.val _ slots) => slots[i]?
  | _ => none

/-- Writing `d.data_array[i]` / `d.record_list[i]`, /repo/src/util/value_util.go:290 and :327. -/
def Heap.setSlot (h : Heap) (id i : Nat) (s : Slot) : Heap :=
  match h[id]? with
  | some (.val d slots) => h.set id (.val d (slots.set i s))
  | _ => h

/-- The loop of `ValueAt`, /repo/src/util/value_util.go:285-297, and `RecordAt`, :322-333: `n` elements remain, from element `i` at
position `pos` of the content; `alloc` is `NewStandardMappedValue` or `NewMappedRecord`.  The heap is returned also when an error is
returned or the call panics. -/
def lazyLoop (alloc : Heap → Bytes → Heap × Res Nat) (content : Bytes) (id : Nat) : Nat → Nat → Nat → Heap → Heap × Res Unit
  | 0, _, _, h => (h, .ok ())
  | n + 1, i, pos, h =>
    match h.slot id i with
    | none => (h, .panic)
    | some .typedNil => (h, .panic)
    | some (.obj p) =>
      match h[p]? with
      | none => (h, .panic)
      | some o => lazyLoop alloc content id n (i + 1) (pos + o.bufLen) h
    | some .empty =>
      if content.length < pos then (h, .err)
      else
        match alloc h (content.drop pos) with
        | (h, .ok p) =>
          match h[p]? with
          | none => (h, .panic)
          | some o => lazyLoop alloc content id n (i + 1) (pos + o.bufLen) (h.setSlot id i (.obj p))
        | (h, .err) => (h.setSlot id i .typedNil, .err)
        | (h, .panic) => (h, .panic)

/-- The common part of `ValueAt` and `RecordAt`, /repo/src/util/value_util.go:275-299 and :312-335.  The result is the interface
returned: `none` is an interface holding a nil pointer. -/
def lazyAt (alloc : Heap → Bytes → Heap × Res Nat) (h : Heap) (id : Nat) (d : StdValue) (idx : Nat) :
    Heap × Res (Option Nat) :=
  if idx ≥ d.size then (h, .err)
  else match h.slot id idx with
    | none => (h, .panic)
    | some (.obj p) => (h, .ok (some p))
    | some .typedNil => (h, .ok none)
    | some .empty =>
      match lazyLoop alloc d.content id (idx + 1) 0 0 h with
      | (h, .ok ()) =>
        match h.slot id idx with
        | some (.obj p) => (h, .ok (some p))
        | some .typedNil => (h, .ok none)
        | _ => (h, .panic)
      | (h, .err) => (h, .err)
      | (h, .panic) => (h, .panic)

/-- `StandardMappedValue.ValueAt`, /repo/src/util/value_util.go:265-300. -/
def Heap.valueAt (h : Heap) (id idx : Nat) : Heap × Res (Option Nat) :=
  match h[id]? with
  | some (.val d _) => if d.kind ≠ .array then (h, .err) else lazyAt allocStd h id d idx
  | _ => (h, .panic)

/-- `StandardMappedValue.RecordAt`, /repo/src/util/value_util.go:302-336. -/
def Heap.recordAt (h : Heap) (id idx : Nat) : Heap × Res (Option Nat) :=
  match h[id]? with
  | some (.val d _) => if d.kind ≠ .records then (h, .err) else lazyAt allocRec h id d idx
  | _ => (h, .panic)

/-- The loop of `StandardMappedValue.CopyConstruct` over the elements, /repo/src/util/value_util.go:543-556 and :564-577: `n` elements
remain, from element `i`.  `at_` is `ValueAt` or `RecordAt`, `copy` is `CopyConstruct` of the element.  `CopyConstruct` on a nil
pointer panics. -/
def copyLoop {α : Type} (at_ : Heap → Nat → Nat → Heap × Res (Option Nat)) (copy : Heap → Nat → Heap × Res α) (id : Nat) :
    Nat → Nat → Heap → Heap × Res (List α)
  | 0, _, h => (h, .ok [])
  | n + 1, i, h =>
    match at_ h id i with
    | (h, .ok none) => (h, .panic)
    | (h, .ok (some p)) =>
      match copy h p with
      | (h, .ok v) =>
        match copyLoop at_ copy id n (i + 1) h with
        | (h, .ok vs) => (h, .ok (v :: vs))
        | (h, .err) => (h, .err)
        | (h, .panic) => (h, .panic)
      | (h, .err) => (h, .err)
      | (h, .panic) => (h, .panic)
    | (h, .err) => (h, .err)
    | (h, .panic) => (h, .panic)

mutual
/-- `StandardMappedValue.CopyConstruct`, /repo/src/util/value_util.go:528-585.  The recursion follows the nesting of the encoded
value; `fuel` bounds the depth, running out of it stands for no answer and is shown not to happen. -/
def copyVal : Nat → Heap → Nat → Heap × Res CVal
  | 0, h, _ => (h, .panic)
  | fuel + 1, h, id =>
    match h[id]? with
    | some (.val d _) =>
      match d.kind with
      | .prim => (h, .ok (.prim (some d.content)))
      | .array =>
        match copyLoop Heap.valueAt (copyVal fuel) id d.size 0 h with
        | (h, .ok vs) => (h, .ok (.array vs))
        | (h, .err) => (h, .err)
        | (h, .panic) => (h, .panic)
      | .records =>
        match copyLoop Heap.recordAt (copyRec fuel) id d.size 0 h with
        | (h, .ok vs) => (h, .ok (.records vs))
        | (h, .err) => (h, .err)
        | (h, .panic) => (h, .panic)
    | _ => (h, .panic)

/-- `MappedRecord.CopyConstruct`, /repo/src/util/record_util.go:266-293.  When `CopyConstruct` of a component returns an error its
result is a nil interface and the type assertion in the next line panics. -/
def copyRec : Nat → Heap → Nat → Heap × Res CRec
  | 0, h, _ => (h, .panic)
  | fuel + 1, h, id =>
    match h[id]? with
    | some (.record r value scheme) =>
      match (KeyObj.mapped r.key).copyConstruct with
      | .ok k =>
        match copyVal fuel h value with
        | (h, .ok v) =>
          match copyVal fuel h scheme with
          | (h, .ok s) =>
            (h, .ok (.record (some k) (some v) (some s) r.timestamp (r.signature.map Prod.fst) (r.signature.map Prod.snd)))
          | (h, _) => (h, .panic)
        | (h, _) => (h, .panic)
      | _ => (h, .panic)
    | _ => (h, .panic)
end

/-- `MappedRecord.Value`, /repo/src/util/record_util.go:85-93. -/
def Heap.recValue (h : Heap) (id : Nat) : Option Nat :=
  match h[id]? with
  | some (.record _ v _) => some v
  | _ => none

/-- `MappedRecord.Scheme`, /repo/src/util/record_util.go:95-103. -/
def Heap.recScheme (h : Heap) (id : Nat) : Option Nat :=
  match h[id]? with
  | some (.record _ _ s) => some s
  | _ => none

end Poodle
