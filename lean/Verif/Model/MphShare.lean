import Verif.Model.KeyShare
import Verif.Model.Mph

/-
Model of perfect hash tables that refer to the key objects they were built from, which the program keeps and may change:
/repo/src/util/mph_util.go:46-54, :191-344, :355-369.

Simplifications: those of Model/Mph.lean; a table loaded from bytes has keys of its own that cannot be changed, and is not here.
-/

namespace Poodle

/-- All keys, records and tables; the keys of a table are numbers of key objects.  (Go runtime; no file in /repo.) -/
structure MWorld where
  base : KWorld
  tables : List (MphTable Nat)

/-- `HashUint32` and `Equal` of the key objects, /repo/src/util/key_util.go:89-123, :264-324, :462-491, as they are now.  A number without
an object stands for nil (the functions below panic before they use it). -/
def refMphOps (f : UInt32 → Slice → UInt32) (keys : List KeyObj) : MphOps Nat where
  hash := fun seed i => match keys[i]? with
    | some k => k.hash (f seed)
    | none => 0
  equal := fun i j => match keys[i]?, keys[j]? with
    | some a, some b => a.equal? b
    | _, _ => none

/-- `MPHBuild`, /repo/src/util/mph_util.go:270-344: the slice of keys is copied (:279, :282), the keys are not.  An error stands for a
search that has not ended (see Model/Mph.lean). -/
def MWorld.build (f : UInt32 → Slice → UInt32) (w : MWorld) (order : List (Nat × List Nat) → List (Nat × List Nat)) (fuel : Nat)
    (vs : UInt32) (refs : List Nat) (byKey : Bool) : MWorld × Res Unit :=
  if refs.all (· < w.base.keys.length) then
    match mphBuild (refMphOps f w.base.keys) order fuel vs refs byKey with
    | .ok t => ({ w with tables := w.tables ++ [t] }, .ok ())
    | .err => (w, .err)
    | .panic => (w, .panic)
  else (w, .panic)

/-- `MPHTable.Lookup`, /repo/src/util/mph_util.go:355-369. -/
def MWorld.lookup (f : UInt32 → Slice → UInt32) (w : MWorld) (t s : Nat) : Res (UInt32 × Bool) :=
  match w.tables[t]?, w.base.keys[s]? with
  | some t, some _ => t.lookup (refMphOps f w.base.keys) s
  | _, _ => .panic

/-- `if !key_data.IsEncoded() { key_data.Encode(nil) }`, /repo/src/util/mph_util.go:235-241: the key, and whether there is no error. -/
def ensureEncoded (k : KeyObj) : KeyObj × Bool := if k.isEncoded then (k, true) else k.encode

/-- The loop over the verification keys of `MPHTable.Encode`, /repo/src/util/mph_util.go:233-245: the keys that are not encoded are
encoded, also if a later one fails. -/
def encodeRefs (keys : List KeyObj) : List Nat → List KeyObj × Res Bytes
  | [] => (keys, .ok [])
  | i :: is =>
    match keys[i]? with
    | none => (keys, .panic)
    | some k =>
      let r := ensureEncoded k
      if r.2 then
        match r.1.getBuf with
        | .ok b =>
          let rest := encodeRefs (keys.set i r.1) is
          (rest.1, rest.2 >>= fun bs => .ok (b ++ bs))
        | .err => (keys.set i r.1, .err)
        | .panic => (keys.set i r.1, .panic)
      else (keys.set i r.1, .err)

/-- `MPHTable.Encode`, /repo/src/util/mph_util.go:191-266. -/
def MWorld.encode (w : MWorld) (t : Nat) : MWorld × Res Bytes :=
  match w.tables[t]? with
  | none => (w, .panic)
  | some t =>
    let head := be32s t.level0 ++ be32 t.level0Mask ++ be32s t.level1 ++ be32 t.level1Mask
    match t.verify with
    | .keys refs =>
      let r := encodeRefs w.base.keys refs
      ({ w with base := { w.base with keys := r.1 } }, r.2 >>= fun bs => .ok (1 :: head ++ be32 refs.length ++ bs))
    | .hashes seed hs => (w, .ok (0 :: head ++ be32 seed.toNat ++ be32s hs))

end Poodle
