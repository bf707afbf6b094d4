import Verif.Model.ValueObj
import Verif.Model.ValueCopy

/-
Model of `Copy` of values and records as objects, /repo/src/util/value_util.go:165-175, :516-526, :749-761, :949-963, :1185-1199 and
/repo/src/util/record_util.go:255-264, :481-504: the objects that are made, and what they refer to.

Simplifications: as in `Verif.Model.ValueObj`; the objects are numbered in the order in which their copying ends (in Go an array is
allocated before its elements); a timestamp and a signature are values (Go copies a pointer to them).
-/

namespace Poodle

/-- Goes on after success only.  (Order of statements in Go; /repo/src/util/record_util.go:484-497.) -/
def andThen {α β : Type} (x : VHeap × Option (Res α)) (k : VHeap → α → VHeap × Option (Res β)) : VHeap × Option (Res β) :=
  match x with
  | (h, some (.ok a)) => k h a
  | (h, some .err) => (h, some .err)
  | (h, some .panic) => (h, some .panic)
  | (h, none) => (h, none)

/-- A new object with its number.  (Go allocation; /repo/src/util/value_util.go:951, :1187, /repo/src/util/record_util.go:483.) -/
def VHeap.alloc (h : VHeap) (n : VNode) : VHeap × Option (Res Nat) := (h ++ [n], some (.ok h.length))

/-- The loop of `ValueArray.Copy`, /repo/src/util/value_util.go:957-960, and of `RecordList.Copy`, :1193-1196. -/
def copyElems (cp : VHeap → Nat → VHeap × Option (Res Nat)) : VHeap → List Nat → VHeap × Option (Res (List Nat))
  | h, [] => (h, some (.ok []))
  | h, i :: l => andThen (cp h i) fun h j => andThen (copyElems cp h l) fun h js => (h, some (.ok (j :: js)))

/-- The value or scheme in `Record.Copy`, /repo/src/util/record_util.go:489-492 and :494-497. -/
def copyObjPart (cp : VHeap → Nat → VHeap × Option (Res Nat)) (h : VHeap) : Option Nat → VHeap × Option (Res (Option Nat))
  | none => (h, some (.ok none))
  | some i => andThen (cp h i) fun h j => (h, some (.ok (some j)))

/-- `Copy` of each object, /repo/src/util/value_util.go:165-175, :516-526, :749-761, :949-963, :1185-1199 and
/repo/src/util/record_util.go:255-264, :481-504.  The first argument bounds the depth of the recursion; `none` stands for reaching this
bound.  An error of decoding becomes a panic. -/
def VHeap.copy : Nat → VHeap → Nat → VHeap × Option (Res Nat)
  | 0, h, _ => (h, none)
  | f + 1, h, id =>
    match h[id]? with
    | none => (h, some .panic)
    | some (.prim data _ _) => h.alloc (.prim data false [])
    | some (.array elems _ _ _) => andThen (copyElems (VHeap.copy f) h elems) fun h l => h.alloc (.array l false [] 1)
    | some (.list elems _ _ _) => andThen (copyElems (VHeap.copy f) h elems) fun h l => h.alloc (.list l false [] 1)
    | some (.record r) =>
      match copyKeyPart r.key with
      | .ok k =>
        andThen (copyObjPart (VHeap.copy f) h r.value) fun h v =>
          andThen (copyObjPart (VHeap.copy f) h r.scheme) fun h s =>
            h.alloc (.record ⟨k, v, s, r.timestamp, r.sigR, r.sigS, false, [], 0, 0, 0⟩)
      | .err => (h, some .err)
      | .panic => (h, some .panic)
    | some (.mappedSimple _ buf) =>
      match decodeSimple buf with
      | .ok (content, buf, _) => h.alloc (.mappedSimple content buf)
      | _ => (h, some .panic)
    | some (.mappedStd d) =>
      match decodeStd d.buf with
      | .ok (d, _) => h.alloc (.mappedStd d)
      | _ => (h, some .panic)
    | some (.mappedRec r) =>
      match decodeRecord r.buf with
      | .ok (r, _) => h.alloc (.mappedRec r)
      | _ => (h, some .panic)

end Poodle
