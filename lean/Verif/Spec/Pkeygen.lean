import Verif.Model.Pkeygen

/-
Specification for the key generator: places of keys, and what file systems the theorems are about.
-/

namespace Poodle.Spec

/-- The names on the way to the directory of a class. -/
def etcNames : KeyClass → List Path
  | .node => ["etc".toList, "poodle".toList, "node".toList]
  | .cluster => ["etc".toList, "poodle".toList, "cluster".toList]
  | .universe => ["etc".toList, "poodle".toList, "universe".toList]
  | .service => ["etc".toList, "poodle".toList, "service".toList]
  | .federation => ["etc".toList, "poodle".toList, "federation".toList]

/-- The name of the private key file. -/
def privName : KeyClass → Path
  | .node => "node_id".toList
  | .cluster => "cluster_id".toList
  | .universe => "universe_id".toList
  | .service => "service_id".toList
  | .federation => "federation_id".toList

/-- The name of the public key file. -/
def pubName (c : KeyClass) : Path := privName c ++ ".pub".toList

/-- A component of a path that is a name. -/
def Proper (n : Path) : Prop := n ≠ [] ∧ n ≠ ['.'] ∧ n ≠ ['.', '.']

/-- An alias that is a single file name. -/
def SimpleName (n : Path) : Prop := Proper n ∧ '/' ∉ n

/-- A file system in which every entry is in a directory, and the directory of the class, as far as it exists, is reached without
symbolic links. -/
structure NormalTree (t : FsTree) (cls : KeyClass) : Prop where
  parents : ∀ p n, t.get (p ++ [n]) ≠ none → p = [] ∨ t.get p = some .dir
  plain : ∀ q, q ≠ [] → q <+: etcNames cls → t.get q = none ∨ t.get q = some .dir

/-- The identifier is new: there is nothing in its place, and no symbolic link leads through its name. -/
structure FreshId (t : FsTree) (cls : KeyClass) (id : Path) : Prop where
  empty : ∀ p, t.get (etcNames cls ++ id :: p) = none
  unnamed : ∀ p l, t.get p = some (.link l) → id ∉ splitPath l

/-- The numbers that the random source delivers: X and D of a key pair, and twelve bytes. -/
structure GoodInput (i : PkInput) : Prop where
  x0 : 0 < i.x
  x1 : i.x < 2 ^ 256
  d1 : i.d < 2 ^ 256
  nonce : i.nonce.length = 12

/-- A key pair is stored in its place: plain files in a directory that is reached without links. -/
structure Stored (t : FsTree) (cls : KeyClass) (id : Path) (priv pub : Bytes) : Prop where
  dirs : ∀ q, q ≠ [] → q <+: etcNames cls ++ [id] → t.get q = some .dir
  priv : t.get (etcNames cls ++ [id] ++ [privName cls]) = some (.file priv)
  pub : t.get (etcNames cls ++ [id] ++ [pubName cls]) = some (.file pub)

/-- The states of a run: the first one, all that it passes through, and the last one. -/
def Passes (m : PkRun Unit) (t s : FsTree) : Prop := s = t ∨ s ∈ (m t).1 ∨ s = (m t).2.1

/-- The link from an alias to an identifier. -/
def aliasLink (cls : KeyClass) (id : Path) : FsEntry := .link (etcDir cls ++ "/".toList ++ id)

/-- The place of a name in the directory of a class. -/
def placeOf (cls : KeyClass) (n : Path) : List Path := etcNames cls ++ [n]

/-- A path leads to something, or its resolution fails for another reason than that there is nothing. -/
def SeenToExist (t : FsTree) (cls : KeyClass) (n : Path) : Prop := (t.stat (etcDir cls ++ "/".toList ++ n)).notExist = false

/-- Nothing goes wrong. -/
def noFaults : PkFaults := ⟨4, .done, .done, true, true⟩

/-- A passphrase is typed in twice, and long enough. -/
def GoodPass (i : PkInput) (p : Bytes) : Prop := i.pass1 = some p ∧ i.pass2 = some p ∧ 8 ≤ p.length

/-- A cipher that notices a wrong key. -/
def Committing (A : Aead) : Prop := ∀ k k' nonce plain, k ≠ k' → A.opened k' nonce (A.sealed k nonce plain) = none

/-- The user agreed that an alias is overwritten. -/
def Consent (i : PkInput) : Prop := i.force = true ∨ i.answer = ['y'] ∨ i.answer = ['Y']

end Poodle.Spec
