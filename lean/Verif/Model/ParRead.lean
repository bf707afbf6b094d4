import Verif.Model.ValueHeap

/-
Model of calls of `StandardMappedValue.ValueAt` and `RecordAt` (/repo/src/util/value_util.go:265-336) by several goroutines at once on
shared decoded objects.

A call is divided into steps.  Each step reads or writes at most one element of `data_array` or `record_list`, the only memory that these
calls change and that other calls can reach; `buf`, `content`, `size` and the kind are assigned before the object is returned by
`NewStandardMappedValue` and not changed after that.  A new object is private until it is stored in an element, so that decoding belongs to
the step before.  Steps of different calls are interleaved in any order.  This is what Go promises for programs without data races, and
the least that can go wrong for the others.
-/

namespace Poodle

/-- The place in `ValueAt`, /repo/src/util/value_util.go:279-299, or `RecordAt`, :316-335, at which a call is. -/
inductive ReadPc where
  /-- about to compare element `idx` with nil, :279 and :316 -/
  | check
  /-- about to return element `idx`, :280 and :317 -/
  | hit
  /-- about to compare element `i` with nil, :286 and :323 -/
  | test (i pos : Nat)
  /-- about to assign what was decoded to element `i`, :290 and :327 -/
  | store (i pos : Nat) (s : Slot)
  /-- about to read the length of element `i`, :295 and :332 -/
  | advance (i pos : Nat)
  /-- about to return element `idx`, :299 and :335 -/
  | last
  /-- returned an interface or an error, or panicked -/
  | done (r : Res Slot)
deriving DecidableEq, Repr

/-- A call of `ValueAt(idx)`, or `RecordAt(idx)` if `record`, on object `id`.  /repo/src/util/value_util.go:265, :302. -/
structure ReadTask where
  record : Bool
  id : Nat
  idx : Nat
  pc : ReadPc
deriving DecidableEq, Repr

/-- `NewMappedRecord` at /repo/src/util/value_util.go:327, `NewStandardMappedValue` at :290. -/
def allocFor (record : Bool) : Heap → Bytes → Heap × Res Nat := if record then allocRec else allocStd

/-- The tests at the begin of a call, /repo/src/util/value_util.go:267-277 and :304-314; the fields tested are never changed.  There is
no call on an object that is no value. -/
def startRead (h : Heap) (record : Bool) (id idx : Nat) : Option ReadTask :=
  match h[id]? with
  | some (.val d _) =>
    if d.kind ≠ (if record then VKind.records else VKind.array) then some ⟨record, id, idx, .done .err⟩
    else if idx ≥ d.size then some ⟨record, id, idx, .done .err⟩
    else some ⟨record, id, idx, .check⟩
  | _ => none

/-- The next step of a call, /repo/src/util/value_util.go:279-299 and :316-335. -/
def ReadTask.step (h : Heap) (t : ReadTask) : Heap × ReadTask :=
  match t.pc with
  | .check =>
    match h.slot t.id t.idx with
    | none => (h, { t with pc := .done .panic })
    | some .empty => (h, { t with pc := .test 0 0 })
    | some _ => (h, { t with pc := .hit })
  | .hit | .last =>
    match h.slot t.id t.idx with
    | none => (h, { t with pc := .done .panic })
    | some s => (h, { t with pc := .done (.ok s) })
  | .test i pos =>
    match h.slot t.id i, h[t.id]? with
    | some .empty, some (.val d _) =>
      if d.content.length < pos then (h, { t with pc := .done .err })
      else
        match allocFor t.record h (d.content.drop pos) with
        | (h, .ok p) => (h, { t with pc := .store i pos (.obj p) })
        | (h, .err) => (h, { t with pc := .store i pos .typedNil })
        | (h, .panic) => (h, { t with pc := .done .panic })
    | some _, _ => (h, { t with pc := .advance i pos })
    | none, _ => (h, { t with pc := .done .panic })
  | .store i pos s => (h.setSlot t.id i s, { t with pc := if s = .typedNil then .done .err else .advance i pos })
  | .advance i pos =>
    match h.slot t.id i with
    | some (.obj p) =>
      match h[p]? with
      | some o => (h, { t with pc := if i = t.idx then .last else .test (i + 1) (pos + o.bufLen) })
      | none => (h, { t with pc := .done .panic })
    | _ => (h, { t with pc := .done .panic })
  | .done _ => (h, t)

/-- The decoded objects and the calls made so far.  (Go runtime; no file in /repo.) -/
structure ReadWorld where
  heap : Heap
  tasks : List ReadTask
deriving DecidableEq, Repr

/-- What happens next: a call begins, or call number `k` makes a step.  (Go scheduler; no file in /repo.) -/
inductive ReadEvent where
  | start (record : Bool) (id idx : Nat)
  | step (k : Nat)
deriving DecidableEq, Repr

/-- One event, /repo/src/util/value_util.go:265-336. -/
def ReadEvent.run (w : ReadWorld) : ReadEvent → ReadWorld
  | .start record id idx =>
    match startRead w.heap record id idx with
    | some t => ⟨w.heap, w.tasks ++ [t]⟩
    | none => w
  | .step k =>
    match w.tasks[k]? with
    | some t => ⟨(t.step w.heap).1, w.tasks.set k (t.step w.heap).2⟩
    | none => w

/-- An execution, /repo/src/util/value_util.go:265-336. -/
def interleave (w : ReadWorld) (l : List ReadEvent) : ReadWorld := l.foldl ReadEvent.run w

end Poodle
