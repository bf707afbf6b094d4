import Verif.Model.AvlHeap
import Verif.Spec.Iter

/-
Specification of programs that use several sorted maps and iterators, and of linked nodes that form a tree.
-/

namespace Poodle

/-- A tree together with the addresses of its nodes. -/
inductive PTree (K V : Type) where
  | nil : PTree K V
  | node (a : Nat) (k : K) (v : V) (b : Int) (l r : PTree K V) : PTree K V
deriving DecidableEq, Repr

namespace PTree
variable {K V : Type}

/-- Its address. -/
def ptr : PTree K V → Ptr
  | nil => none
  | node a _ _ _ _ _ => some a

/-- The tree without addresses. -/
def erase : PTree K V → Tree K V
  | nil => .nil
  | node _ k v b l r => .node k v b l.erase r.erase

/-- The addresses, in symmetric order. -/
def addrs : PTree K V → List Nat
  | nil => []
  | node a _ _ _ l r => l.addrs ++ a :: r.addrs

/-- The nodes are in the heap. -/
def Owns (h : AHeap K V) : PTree K V → Prop
  | nil => True
  | node a k v b l r => h[a]? = some ⟨k, v, b, l.ptr, r.ptr⟩ ∧ Owns h l ∧ Owns h r

end PTree

namespace Spec
variable {K V : Type}

/-- The nodes reached from the pointer form the tree `P`: every node is reached along one path only. -/
structure IsTree (h : AHeap K V) (p : Ptr) (P : PTree K V) : Prop where
  root : P.ptr = p
  owns : P.Owns h
  nodup : P.addrs.Nodup

/-- Calls on maps, not on iterators. -/
def OnMaps : Cmd K V → Prop
  | .iter _ _ _ => False
  | .call _ _ => False
  | _ => True

/-- Several finite maps, with their sizes. -/
abbrev FMaps (K V : Type) := List (FMap K V × Nat)

/-- A call acts on the map it is made on, and on no other. -/
def FMaps.exec (cmp : K → K → Ordering) (ms : FMaps K V) : Cmd K V → FMaps K V × Out K V
  | .newMap => (ms ++ [(FMap.empty, 0)], .done)
  | .get i k => match ms[i]? with
    | none => (ms, .bad)
    | some (f, _) => (ms, .val (f k))
  | .put i k v => match ms[i]? with
    | none => (ms, .bad)
    | some (f, n) => (ms.set i (f.put cmp k v, if (f k).isSome then n else n + 1), .val (f k))
  | .remove i k => match ms[i]? with
    | none => (ms, .bad)
    | some (f, n) => (ms.set i (f.remove cmp k, if (f k).isSome then n - 1 else n), .val (f k))
  | .size i => match ms[i]? with
    | none => (ms, .bad)
    | some (_, n) => (ms, .size n)
  | .iter _ _ _ => (ms, .done)
  | .call _ _ => (ms, .done)

/-- The outputs of a program on maps. -/
def FMaps.outs (cmp : K → K → Ordering) (ms : FMaps K V) : List (Cmd K V) → List (Out K V)
  | [] => []
  | c :: cs => (ms.exec cmp c).2 :: FMaps.outs cmp (ms.exec cmp c).1 cs

/-! ### Iterators -/

/-- `ks` are the keys of the finite map, in increasing order. -/
def KeysOf (cmp : K → K → Ordering) (f : FMap K V) (ks : List K) : Prop :=
  ks.Pairwise (fun a b => cmp a b = .lt) ∧ ∀ k, (f k).isSome ↔ ∃ k' ∈ ks, cmp k k' = .eq

/-- Maps, and for each iterator its map and the keys to come.  `none`: nothing is said about the iterator. -/
structure IWorld (K V : Type) where
  maps : FMaps K V
  iters : List (Option (Nat × List K))

/-- The map whose set of keys is changed by the call: by adding a key or removing one. -/
def IWorld.changed (w : IWorld K V) : Cmd K V → Option Nat
  | .put i k _ => match w.maps[i]? with
    | none => none
    | some (f, _) => if (f k).isSome then none else some i
  | .remove i k => match w.maps[i]? with
    | none => none
    | some (f, _) => if (f k).isSome then some i else none
  | _ => none

/-- Iterators of a map whose keys have changed are given up. -/
def IWorld.given (w : IWorld K V) (c : Cmd K V) : List (Option (Nat × List K)) :=
  match w.changed c with
  | none => w.iters
  | some i => w.iters.map fun x => x.filter fun y => y.1 != i

/-- One call. -/
inductive IWorld.Step (cmp : K → K → Ordering) : IWorld K V → Cmd K V → Out K V → IWorld K V → Prop
  /-- Calls on maps return what finite maps return. -/
  | onMap (w : IWorld K V) (c : Cmd K V) (h : OnMaps c) : Step cmp w c (w.maps.exec cmp c).2 ⟨(w.maps.exec cmp c).1, w.given c⟩
  /-- A new iterator has all keys below the end key to come. -/
  | iter (w : IWorld K V) (i : Nat) (stop : Option K) (f : FMap K V) (n : Nat) (ks : List K) (h1 : w.maps[i]? = some (f, n))
      (h2 : KeysOf cmp f ks) :
      Step cmp w (.iter i none stop) .done { w with iters := w.iters ++ [some (i, ks.filter (InRange cmp none stop))] }
  /-- Nothing is said about iterators with a start key (see C22). -/
  | range (w : IWorld K V) (i : Nat) (start : K) (stop : Option K) (m : FMap K V × Nat) (h1 : w.maps[i]? = some m)
      (h2 : ∀ e, stop = some e → cmp start e ≠ .gt) :
      Step cmp w (.iter i (some start) stop) .done { w with iters := w.iters ++ [none] }
  /-- A start key above the end key is refused. -/
  | rangePanic (w : IWorld K V) (i : Nat) (start stop : K) (m : FMap K V × Nat) (h1 : w.maps[i]? = some m) (h2 : cmp start stop = .gt) :
      Step cmp w (.iter i (some start) (some stop)) .crash w
  | noMap (w : IWorld K V) (i : Nat) (start stop : Option K) (h1 : w.maps[i]? = none) : Step cmp w (.iter i start stop) .bad w
  | noIter (w : IWorld K V) (j : Nat) (c : IterCall) (h1 : w.iters[j]? = none) : Step cmp w (.call j c) .bad w
  /-- Anything may come from an iterator that has been given up; but the call changes nothing else. -/
  | given (w : IWorld K V) (j : Nat) (c : IterCall) (o : Out K V) (h1 : w.iters[j]? = some none) : Step cmp w (.call j c) o w
  /-- `Next`: the next key, and the value that the map has for it now. -/
  | next (w : IWorld K V) (j i : Nat) (k k' : K) (ks : List K) (f : FMap K V) (n : Nat) (v : V)
      (h1 : w.iters[j]? = some (some (i, k :: ks))) (h2 : w.maps[i]? = some (f, n)) (h3 : f k = some v) (h4 : cmp k k' = .eq) :
      Step cmp w (.call j .next) (.iter (.yield (k', v))) { w with iters := w.iters.set j (some (i, ks)) }
  | peek (w : IWorld K V) (j i : Nat) (k k' : K) (ks : List K) (f : FMap K V) (n : Nat) (v : V)
      (h1 : w.iters[j]? = some (some (i, k :: ks))) (h2 : w.maps[i]? = some (f, n)) (h3 : f k = some v) (h4 : cmp k k' = .eq) :
      Step cmp w (.call j .peek) (.iter (.yield (k', v))) w
  | hasNext (w : IWorld K V) (j i : Nat) (ks : List K) (h1 : w.iters[j]? = some (some (i, ks))) :
      Step cmp w (.call j .hasNext) (.iter (.bool (!ks.isEmpty))) w
  /-- After the last key `Next` and `Peek` panic (see C26). -/
  | atEnd (w : IWorld K V) (j i : Nat) (c : IterCall) (h1 : w.iters[j]? = some (some (i, []))) (h2 : c ≠ .hasNext) :
      Step cmp w (.call j c) .crash w

/-- All calls of a program. -/
inductive IWorld.Runs (cmp : K → K → Ordering) : IWorld K V → List (Cmd K V) → List (Out K V) → IWorld K V → Prop
  | nil (w : IWorld K V) : Runs cmp w [] [] w
  | cons (w w1 w2 : IWorld K V) (c : Cmd K V) (cs : List (Cmd K V)) (o : Out K V) (os : List (Out K V)) (h1 : Step cmp w c o w1)
      (h2 : Runs cmp w1 cs os w2) : Runs cmp w (c :: cs) (o :: os) w2

end Spec

end Poodle
