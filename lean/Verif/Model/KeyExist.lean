import Verif.Model.KeyFile

/-
Model of the tests whether a key exists and of saving a public key alone, /repo/src/util/lc_util.go:101-117, :311-331.
-/

namespace Poodle

/-- `LCExistPubKey`, /repo/src/util/lc_util.go:101-108.  Simplified: `os.Stat` succeeds for regular files only, since `FS` has no
directories; any error counts as missing, as in the code. -/
def existPubKey (fs : FS) (cls : KeyClass) (id : Path) : Bool := (fs (pubKeyPath cls id)).isSome

/-- `LCExistPrivKey`, /repo/src/util/lc_util.go:110-117, simplified in the same way. -/
def existPrivKey (fs : FS) (cls : KeyClass) (id : Path) : Bool := (fs (privKeyPath cls id)).isSome

/-- `lc_save_pub_key`, /repo/src/util/lc_util.go:311-331: every state of the file system during the call, starting with the given one,
and the result. -/
def savePubKey (fs : FS) (cls : KeyClass) (id : Path) (pub : Int) (d : DirState) (e : WriteEnd) : List FS × Res Unit :=
  match d with
  | .missing => ([fs], .panic)
  | .notDir => ([fs], .err)
  | .dir =>
    let w := writeFile fs (pubKeyPath cls id) (pubContent pub) e
    (fs :: w.1, if w.2 then .ok () else .err)

end Poodle
