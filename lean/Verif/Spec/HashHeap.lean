import Verif.Model.HashHeap
import Verif.Spec.HashMap

/-
Specification of programs that use several hash maps, and of linked nodes that form buckets.
-/

namespace Poodle.Spec
open Poodle

variable {K V : Type}

/-- The nodes reached from `p`, up to the pointer `q`. -/
inductive Seg (h : HHeap K V) (q : Ptr) : Ptr → List Nat → List (K × V) → Prop
  | nil : Seg h q q [] []
  | cons {a : Nat} {nd : HNd K V} {as : List Nat} {l : List (K × V)} (ha : h[a]? = some nd) (hs : Seg h q nd.link as l) :
      Seg h q (some a) (a :: as) ((nd.key, nd.value) :: l)

/-- Which bucket of which map a node belongs to. -/
abbrev Owner := Nat → Option (Nat × Nat)

/-- `p` is the bucket `l`, and its nodes are owned by `o`. -/
def Bucket (h : HHeap K V) (own : Owner) (o : Nat × Nat) (p : Ptr) (l : List (K × V)) : Prop :=
  ∃ as, Seg h none p as l ∧ as.Nodup ∧ ∀ a ∈ as, own a = some o

/-- Calls on maps, not on iterators. -/
def OnHash : HCmd K V → Prop
  | .iter _ => False
  | .call _ _ => False
  | _ => True

/-- New maps are asked for with less than 2^32 buckets. -/
def SmallNew : HCmd K V → Prop
  | .newMap cap => cap < 2 ^ 32
  | _ => True

/-- Several finite maps, with their sizes; keys are identified by an equivalence, which may depend on the map. -/
abbrev EMaps (K V : Type) := List ((K → Option V) × Nat)

/-- A call acts on the map it is made on, and on no other. -/
def EMaps.exec (eqv : Nat → K → K → Bool) (ms : EMaps K V) : HCmd K V → EMaps K V × Out K V
  | .newMap _ => (ms ++ [((fun _ => none : K → Option V), 0)], .done)
  | .get i k => match ms[i]? with
    | none => (ms, .bad)
    | some (f, _) => (ms, .val (f k))
  | .put i k v => match ms[i]? with
    | none => (ms, .bad)
    | some (f, n) => (ms.set i (fun x => if eqv i x k then some v else f x, if (f k).isSome then n else n + 1), .val (f k))
  | .remove i k => match ms[i]? with
    | none => (ms, .bad)
    | some (f, n) => (ms.set i (fun x => if eqv i x k then none else f x, if (f k).isSome then n - 1 else n), .val (f k))
  | .size i => match ms[i]? with
    | none => (ms, .bad)
    | some (_, n) => (ms, .size n)
  | .iter _ => (ms, .done)
  | .call _ _ => (ms, .done)

/-- The outputs of a program on maps. -/
def EMaps.outs (eqv : Nat → K → K → Bool) (ms : EMaps K V) : List (HCmd K V) → List (Out K V)
  | [] => []
  | c :: cs => (ms.exec eqv c).2 :: EMaps.outs eqv (ms.exec eqv c).1 cs

end Poodle.Spec
