import Verif.Model.Pkeygen

/-
Model of `main` of the key generator, /repo/src/main/pkeygen.go:98-123.  The arguments are those that `flag.Parse` delivers; arguments it
refuses are left out.
-/

namespace Poodle

/-- The class of a name, /repo/src/main/pkeygen.go:105-120. -/
def pkClass (name : String) : Option KeyClass :=
  if name = "node" then some .node
  else if name = "cluster" then some .cluster
  else if name = "universe" then some .universe
  else if name = "service" then some .service
  else if name = "federation" then some .federation
  else none

/-- How the program ends: normally, with `os.Exit(1)`, with `os.Exit(2)` after the usage was printed, or with a panic,
/repo/src/main/pkeygen.go:45-123. -/
inductive PkExit where
  | zero | one | two | panic
deriving DecidableEq, Repr

/-- `main`, /repo/src/main/pkeygen.go:98-123: the states it passes through, the last one, and how it ends.  The class in `i` is not
used, the one named is. -/
def pkeygenMain (A : Aead) (name : String) (i : PkInput) (f : PkFaults) (t : FsTree) : List FsTree × FsTree × PkExit :=
  match pkClass name with
  | none => ([], t, .two)
  | some cls => match processKey A { i with cls := cls } f t with
    | (l, t', .ok _) => (l, t', .zero)
    | (l, t', .err) => (l, t', .one)
    | (l, t', .panic) => (l, t', .panic)

end Poodle
