import Verif.Model.HashPanic
import Verif.Spec.HashMap

/-
Specification of histories of a map in which calls may panic.
-/

namespace Poodle.Spec
open Poodle

variable {K V : Type}

/-- The map after a call. -/
def applyE (eqv : K → K → Bool) (m : K → Option V) : MapOp K V → K → Option V
  | .put k v => fun x => if eqv x k then some v else m x
  | .remove k => fun x => if eqv x k then none else m x

/-- The key of a call. -/
def callKey : MapOp K V → K
  | .put k _ => k
  | .remove k => k

/-- The number of keys is changed by the call. -/
def Resizes (m : K → Option V) : MapOp K V → Prop
  | .put k _ => m k = none
  | .remove k => m k ≠ none

/-- A history: every call returns the previous binding and takes effect, or panics and has no effect, or panics and has taken
effect; the last only if it adds a key or removes one. -/
inductive PanicRuns (eqv : K → K → Bool) : (K → Option V) → List (MapOp K V) → List (Option (Option V)) → (K → Option V) → Prop
  | nil (m) : PanicRuns eqv m [] [] m
  | ret (m op os rs m') : PanicRuns eqv (applyE eqv m op) os rs m' → PanicRuns eqv m (op :: os) (some (m (callKey op)) :: rs) m'
  | lost (m op os rs m') : PanicRuns eqv m os rs m' → PanicRuns eqv m (op :: os) (none :: rs) m'
  | done (m op os rs m') : Resizes m op → PanicRuns eqv (applyE eqv m op) os rs m' → PanicRuns eqv m (op :: os) (none :: rs) m'

/-- A history in which calls that panic have no effect. -/
inductive SafeRuns (eqv : K → K → Bool) : (K → Option V) → List (MapOp K V) → List (Option (Option V)) → (K → Option V) → Prop
  | nil (m) : SafeRuns eqv m [] [] m
  | ret (m op os rs m') : SafeRuns eqv (applyE eqv m op) os rs m' → SafeRuns eqv m (op :: os) (some (m (callKey op)) :: rs) m'
  | lost (m op os rs m') : SafeRuns eqv m os rs m' → SafeRuns eqv m (op :: os) (none :: rs) m'

end Poodle.Spec
