import Verif.Model.KeyFile

/-
Model of the key generator, /repo/src/main/pkeygen.go, with the functions of /repo/src/util/lc_util.go it calls, on a file system
with directories and symbolic links.

Simplified: permissions, hard links, other processes and file attributes are left out; a call that changes the file system may
fail for reasons of its own (`PkFaults`).  The process may stop at any point: a run yields all states it passes through.
-/

namespace Poodle

/-- What there is at a place in the file system, for the calls of `os` at /repo/src/util/lc_util.go:220-304 and
/repo/src/main/pkeygen.go:14-96. -/
inductive FsEntry where
  | file (content : Bytes)
  | dir
  | link (target : Path)
deriving DecidableEq, Repr

/-- A file system: places, given by the names from the root, and what is there (the calls of `os` at
/repo/src/util/lc_util.go:220-304 and /repo/src/main/pkeygen.go:14-96).  The root is a directory and not listed. -/
structure FsTree where
  entries : List (List Path × FsEntry)
deriving DecidableEq, Repr

namespace FsTree

/-- The entry at a place, see `FsTree` (/repo/src/main/pkeygen.go:14-21). -/
def get (t : FsTree) (p : List Path) : Option FsEntry := (t.entries.find? fun e => decide (e.1 = p)).map Prod.snd

/-- Creating or replacing an entry, see `FsTree` (/repo/src/util/lc_util.go:299, :373, :378; /repo/src/main/pkeygen.go:89). -/
def set (t : FsTree) (p : List Path) (e : FsEntry) : FsTree := ⟨(p, e) :: t.entries⟩

/-- Deleting an entry, see `FsTree` (/repo/src/main/pkeygen.go:82). -/
def erase (t : FsTree) (p : List Path) : FsTree := ⟨t.entries.filter fun e => decide (e.1 ≠ p)⟩

/-- A directory that is not empty, see `FsTree` (/repo/src/main/pkeygen.go:82). -/
def hasChild (t : FsTree) (p : List Path) : Bool := t.entries.any fun e => decide (e.1 ≠ [] ∧ e.1.dropLast = p)

end FsTree

/-- The components of a path, as the operating system sees the paths at /repo/src/util/lc_util.go:183-216 and
/repo/src/main/pkeygen.go:49, :80, :88. -/
def splitPath : Path → List Path
  | [] => [[]]
  | c :: p =>
    match splitPath p with
    | [] => [[c]]
    | x :: xs => if c = '/' then [] :: x :: xs else (c :: x) :: xs

/-- Where a path leads (path resolution of the operating system, for the calls at /repo/src/util/lc_util.go:220-304 and
/repo/src/main/pkeygen.go:14-96). -/
inductive FsLook where
  | dir (p : List Path)
  | file (p : List Path) (content : Bytes)
  /-- nothing is at `p`, the directory it would be in exists -/
  | absent (p : List Path)
  /-- a directory on the way does not exist -/
  | noEnt
  /-- something on the way is not a directory -/
  | notDir
  /-- too many symbolic links -/
  | loop
deriving DecidableEq, Repr

/-- Walking along components up to the next symbolic link, see `FsLook` (/repo/src/main/pkeygen.go:15). -/
inductive FsWalk where
  | stop (l : FsLook)
  | link (base : List Path) (target : Path) (rest : List Path)
deriving DecidableEq, Repr

/-- Walking along components from a directory, see `FsLook` (/repo/src/main/pkeygen.go:15). -/
def FsTree.walk (t : FsTree) : List Path → List Path → FsWalk
  | cur, [] => .stop (.dir cur)
  | cur, n :: rest =>
    if n = [] ∨ n = ['.'] then t.walk cur rest
    else if n = ['.', '.'] then t.walk cur.dropLast rest
    else match t.get (cur ++ [n]) with
      | none => .stop (if rest = [] then .absent (cur ++ [n]) else .noEnt)
      | some .dir => t.walk (cur ++ [n]) rest
      | some (.file c) => .stop (if rest = [] then .file (cur ++ [n]) c else .notDir)
      | some (.link l) => .link cur l rest

/-- Resolution of a path with at most `k` symbolic links, see `FsLook` (/repo/src/main/pkeygen.go:15). -/
def FsTree.resolve (t : FsTree) : Nat → List Path → List Path → FsLook
  | 0, cur, rest => match t.walk cur rest with
    | .stop l => l
    | .link _ _ _ => .loop
  | k + 1, cur, rest => match t.walk cur rest with
    | .stop l => l
    | .link base target rest => t.resolve k (if target.head? = some '/' then [] else base) (splitPath target ++ rest)

/-- `os.Stat` of an absolute path, /repo/src/util/lc_util.go:103, :112, :220, :298, :303; /repo/src/main/pkeygen.go:15.  Linux follows
at most 40 links. -/
def FsTree.stat (t : FsTree) (p : Path) : FsLook := t.resolve 40 [] (splitPath p)

/-- `os.IsNotExist` of the error of `os.Stat`, /repo/src/util/lc_util.go:220, :298; /repo/src/main/pkeygen.go:16. -/
def FsLook.notExist : FsLook → Bool
  | .absent _ => true
  | .noEnt => true
  | _ => false

/-- The place a path names, without following a link at its end, for `os.Remove`, `os.Symlink` and `os.Mkdir`,
/repo/src/main/pkeygen.go:82, :89; /repo/src/util/lc_util.go:299.  Simplified: a path that ends in "/", "." or ".." is refused. -/
def FsTree.place (t : FsTree) (p : List Path) : Option (List Path) :=
  match p.getLast? with
  | none => none
  | some n =>
    if n = [] ∨ n = ['.'] ∨ n = ['.', '.'] then none
    else match t.resolve 40 [] p.dropLast with
      | .dir d => some (d ++ [n])
      | _ => none

/-- The files by the path they are accessed with (`ioutil.ReadFile`, /repo/src/util/lc_util.go:224). -/
def FsTree.view (t : FsTree) : FS := fun p =>
  match t.stat p with
  | .file _ c => some c
  | _ => none

/-- A computation on the file system: the states after each step, the last state, the result (statement sequences of
/repo/src/main/pkeygen.go and /repo/src/util/lc_util.go; `Res.err`: `os.Exit(1)` or an error). -/
def PkRun (α : Type) := FsTree → List FsTree × FsTree × Res α

/-- One statement after another (Go language), /repo/src/main/pkeygen.go:45-96. -/
def PkRun.bind {α β : Type} (m : PkRun α) (f : α → PkRun β) : PkRun β := fun t =>
  match m t with
  | (l, t', .ok a) => (l ++ (f a t').1, (f a t').2)
  | (l, t', .err) => (l, t', .err)
  | (l, t', .panic) => (l, t', .panic)

/-- A statement that does not change the file system (Go language), /repo/src/main/pkeygen.go:45-96. -/
def PkRun.look {α : Type} (f : FsTree → Res α) : PkRun α := fun t => ([], t, f t)

/-- A statement that changes the file system at once (Go language), /repo/src/main/pkeygen.go:82, :89. -/
def PkRun.step (f : FsTree → Option FsTree) : PkRun Unit := fun t =>
  match f t with
  | some t' => ([t'], t', .ok ())
  | none => ([], t, .err)

/-- `os.Remove` (`unlink`, then `rmdir`), /repo/src/main/pkeygen.go:82. -/
def removeT (p : Path) (ok : Bool) : PkRun Unit := .step fun t =>
  if !ok then none
  else match t.place (splitPath p) with
    | none => none
    | some q => match t.get q with
      | none => none
      | some .dir => if t.hasChild q then none else some (t.erase q)
      | some _ => some (t.erase q)

/-- `os.Symlink`, /repo/src/main/pkeygen.go:89. -/
def symlinkT (target p : Path) (ok : Bool) : PkRun Unit := .step fun t =>
  if !ok then none
  else match t.place (splitPath p) with
    | none => none
    | some q => match t.get q with
      | none => some (t.set q (.link target))
      | some _ => none

/-- The directories around a path and the path itself, outermost first, for `os.MkdirAll`, /repo/src/util/lc_util.go:299. -/
def prefixes : List Path → List Path → List (List Path)
  | _, [] => []
  | cur, n :: rest => (cur ++ [n]) :: prefixes (cur ++ [n]) rest

/-- `os.MkdirAll` with the paths of a directory and those around it, outermost first, /repo/src/util/lc_util.go:299 (the library goes
from the innermost to the first one that exists, and back; its result is ignored).  At most `n` directories can be made. -/
def mkdirAllT : Nat → List (List Path) → FsTree → List FsTree × FsTree
  | _, [], t => ([], t)
  | n, p :: ps, t =>
    match t.resolve 40 [] p with
    | .dir _ => mkdirAllT n ps t
    | .absent _ => match n with
      | 0 => ([], t)
      | n + 1 => match t.place p with
        | none => ([], t)
        | some q => match t.get q with
          | some _ => ([], t)
          | none =>
            let r := mkdirAllT n ps (t.set q .dir)
            (t.set q .dir :: r.1, r.2)
    | _ => ([], t)

/-- `lc_mkdir_if_not_exist`, /repo/src/util/lc_util.go:296-309: `stat_info` is nil, and its use panics, if the second `os.Stat`
fails. -/
def mkdirIfNotExistT (p : Path) (n : Nat) : PkRun Unit := fun t =>
  let r := if (t.stat p).notExist then mkdirAllT n (prefixes [] (splitPath p)) t else ([], t)
  match r.2.stat p with
  | .dir _ => (r.1, r.2, .ok ())
  | .file _ _ => (r.1, r.2, .err)
  | _ => (r.1, r.2, .panic)

/-- `ioutil.WriteFile`, /repo/src/util/lc_util.go:373, :378: the file is created or truncated, then written byte after byte. -/
def writeFileT (p : Path) (c : Bytes) (e : WriteEnd) : PkRun Unit := fun t =>
  let go (q : List Path) : List FsTree × FsTree × Res Unit :=
    match e with
    | .done => ((List.range (c.length + 1)).map fun k => t.set q (.file (c.take k)), t.set q (.file c), .ok ())
    | .notOpened => ([], t, .err)
    | .failedAfter m => ((List.range (m + 1)).map fun k => t.set q (.file (c.take k)), t.set q (.file (c.take m)), .err)
  match t.stat p with
  | .file q _ => go q
  | .absent q => go q
  | _ => ([], t, .err)

/-- What may go wrong during a run of the key generator, /repo/src/main/pkeygen.go:45-96: the number of directories that can be made,
how the two files are written, whether an alias can be removed and made. -/
structure PkFaults where
  mkdirs : Nat
  priv : WriteEnd
  pub : WriteEnd
  remove : Bool
  symlink : Bool
deriving DecidableEq, Repr

/-- `lc_save_key_pair`, /repo/src/util/lc_util.go:333-384. -/
def saveKeyPairT (A : Aead) (cls : KeyClass) (id : Path) (pub priv : Int) (secret nonce : Bytes) (f : PkFaults) : PkRun Unit :=
  (mkdirIfNotExistT (keyDir cls id) f.mkdirs).bind fun _ =>
  (PkRun.look fun _ => if aesKeyOk secret then .ok () else .err).bind fun _ =>
  (writeFileT (privKeyPath cls id) (privContent A secret nonce priv) f.priv).bind fun _ =>
  writeFileT (pubKeyPath cls id) (pubContent pub) f.pub

/-- A lower case hexadecimal digit as printed by `%x`, /repo/src/main/pkeygen.go:36. -/
def hexLow (d : Nat) : Char := "0123456789abcdef".toList.getD d '0'

/-- The identifier of a key pair, `fmt.Sprintf("%x", pub_key.X.Bytes())`, /repo/src/main/pkeygen.go:36. -/
def keyId (x : Nat) : Path := (natBytes x).flatMap fun b => [hexLow (b.toNat / 16), hexLow (b.toNat % 16)]

/-- The arguments and inputs of a run of the key generator, /repo/src/main/pkeygen.go:45-55, :23-41: class, alias, force, the answer to
the question whether to overwrite, the two passphrases (`none`: reading failed), and what the random source delivers: X and D of
the key pair (modelled by `EcParams.generateKey`) and the nonce. -/
structure PkInput where
  cls : KeyClass
  aliasName : Path
  force : Bool
  answer : Path
  pass1 : Option Bytes
  pass2 : Option Bytes
  x : Nat
  d : Nat
  nonce : Bytes
deriving DecidableEq, Repr

/-- `PromptPassphrase`, /repo/src/util/lc_util.go:37-66. -/
def promptPassphrase (repeated : Bool) (pass1 pass2 : Option Bytes) : Res Bytes :=
  match pass1 with
  | none => .err
  | some p =>
    if p.length < 8 then .err
    else if repeated then
      match pass2 with
      | none => .err
      | some q => if p = q then .ok p else .err
    else .ok p

/-- `generate_key_pair`, /repo/src/main/pkeygen.go:23-43.  A failing random source is not modelled. -/
def generateKeyPair (A : Aead) (i : PkInput) (f : PkFaults) : PkRun Bytes :=
  (PkRun.look fun _ => promptPassphrase true i.pass1 i.pass2).bind fun secret =>
  (saveKeyPairT A i.cls (keyId i.x) i.x i.d (pkeygenSecret secret) i.nonce f).bind fun _ =>
  PkRun.look fun _ => .ok (pkeygenSecret secret)

/-- Removal of an alias that exists, /repo/src/main/pkeygen.go:81-87. -/
def removeExisting (p : Path) (allowed : Bool) : PkRun Unit := fun t =>
  if (t.stat p).notExist then ([], t, .ok ()) else removeT p allowed t

/-- The alias part of `process_key`, /repo/src/main/pkeygen.go:79-95. -/
def makeAlias (i : PkInput) (f : PkFaults) : PkRun Unit :=
  (removeExisting (etcDir i.cls ++ "/".toList ++ i.aliasName) f.remove).bind fun _ =>
  symlinkT (etcDir i.cls ++ "/".toList ++ keyId i.x) (etcDir i.cls ++ "/".toList ++ i.aliasName) f.symlink

/-- `process_key`, /repo/src/main/pkeygen.go:45-96. -/
def processKey (A : Aead) (i : PkInput) (f : PkFaults) : PkRun Unit :=
  (PkRun.look fun t =>
    if i.aliasName ≠ [] ∧ ¬ (t.stat (etcDir i.cls ++ "/".toList ++ i.aliasName)).notExist ∧ ¬ i.force ∧ i.answer ≠ ['y'] ∧ i.answer ≠ ['Y'] then .err
    else .ok ()).bind fun _ =>
  (generateKeyPair A i f).bind fun secret =>
  (PkRun.look fun t => loadPubKey t.view i.cls (keyId i.x)).bind fun _ =>
  (PkRun.look fun t => loadPrivKey A t.view i.cls (keyId i.x) secret).bind fun _ =>
  if i.aliasName = [] then PkRun.look fun _ => .ok () else makeAlias i f

/-- `LCLoadPrivKeyPrompt`, /repo/src/util/lc_util.go:130-142, with the passphrase typed in (`none`: reading failed). -/
def loadPrivKeyPrompt (A : Aead) (fs : FS) (cls : KeyClass) (id : Path) (pass : Option Bytes) : Res Nat :=
  match fs (privKeyPath cls id) with
  | none => .err
  | some _ => (promptPassphrase false pass none).bind fun secret => loadPrivKey A fs cls id secret

/-- `LCSaveKeyPairPrompt`, /repo/src/util/lc_util.go:150-157: as `saveKeyPair`, with the passphrase typed in. -/
def saveKeyPairPrompt (A : Aead) (fs : FS) (cls : KeyClass) (id : Path) (pub priv : Int) (pass : Option Bytes) (nonce : Bytes)
    (d : DirState) (e1 e2 : WriteEnd) : List FS × Res Unit :=
  match promptPassphrase false pass none with
  | .ok secret => saveKeyPair A fs cls id pub priv secret nonce d e1 e2
  | .err => ([fs], .err)
  | .panic => ([fs], .panic)

end Poodle
