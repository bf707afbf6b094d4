import Verif.Model.Conv
import Verif.Model.Crc

/-
Model of the key files of /repo/src/util/lc_util.go and of /repo/src/main/pkeygen.go:33-37.

The file system is a map from paths to contents.  AES-GCM is an abstract pair of functions (see `Aead`), `hash/crc32` is modelled
in `Verif.Model.Crc`.  Not modelled: permissions, prompting, symbolic links, concurrent writers.
-/

namespace Poodle

/-- A path or identifier: a Go string as a list of characters (the parameters of /repo/src/util/lc_util.go:179-216). -/
abbrev Path := List Char

/-- The key classes `CLS_NODE` ... `CLS_FEDERATION`, /repo/src/util/const_util.go:26-30.  Any other number panics
(/repo/src/util/lc_util.go:175, :196, :213) and is not modelled. -/
inductive KeyClass where
  | node | cluster | universe | service | federation
deriving DecidableEq, Repr

/-- `lc_get_etc_dir`, /repo/src/util/lc_util.go:162-177 with `DEFAULT_ETC_DIR` of const_util.go:10. -/
def etcDir : KeyClass → Path
  | .node => "/etc/poodle".toList ++ "/node".toList
  | .cluster => "/etc/poodle".toList ++ "/cluster".toList
  | .universe => "/etc/poodle".toList ++ "/universe".toList
  | .service => "/etc/poodle".toList ++ "/service".toList
  | .federation => "/etc/poodle".toList ++ "/federation".toList

/-- `lc_get_key_dir`, /repo/src/util/lc_util.go:179-181. -/
def keyDir (cls : KeyClass) (id : Path) : Path := etcDir cls ++ "/".toList ++ id

/-- `lc_get_pub_key_path`, /repo/src/util/lc_util.go:183-198. -/
def pubKeyPath (cls : KeyClass) (id : Path) : Path :=
  match cls with
  | .node => keyDir cls id ++ "/node_id.pub".toList
  | .cluster => keyDir cls id ++ "/cluster_id.pub".toList
  | .universe => keyDir cls id ++ "/universe_id.pub".toList
  | .service => keyDir cls id ++ "/service_id.pub".toList
  | .federation => keyDir cls id ++ "/federation_id.pub".toList

/-- `lc_get_priv_key_path`, /repo/src/util/lc_util.go:200-215. -/
def privKeyPath (cls : KeyClass) (id : Path) : Path :=
  match cls with
  | .node => keyDir cls id ++ "/node_id".toList
  | .cluster => keyDir cls id ++ "/cluster_id".toList
  | .universe => keyDir cls id ++ "/universe_id".toList
  | .service => keyDir cls id ++ "/service_id".toList
  | .federation => keyDir cls id ++ "/federation_id".toList

/-- The regular files, by the path string they are accessed with, /repo/src/util/lc_util.go:220-227, :373, :378. -/
abbrev FS := Path → Option Bytes

/-- Replacing the content of a file: the effect of `ioutil.WriteFile`, used in /repo/src/util/lc_util.go. -/
def FS.set (fs : FS) (p : Path) (c : Bytes) : FS := fun q => if q = p then some c else fs q

/-- `hex.fromHexChar` as called by `hex.Decode`, /repo/src/util/lc_util.go:231. -/
def fromHexChar (c : UInt8) : Option Nat :=
  if 0x30 ≤ c.toNat ∧ c.toNat ≤ 0x39 then some (c.toNat - 0x30)
  else if 0x61 ≤ c.toNat ∧ c.toNat ≤ 0x66 then some (c.toNat - 0x61 + 10)
  else if 0x41 ≤ c.toNat ∧ c.toNat ≤ 0x46 then some (c.toNat - 0x41 + 10)
  else none

/-- `hex.Decode`, /repo/src/util/lc_util.go:230-234: an error on a foreign character and on odd length. -/
def hexDecode : Bytes → Option Bytes
  | [] => some []
  | [_] => none
  | a :: b :: r =>
    match fromHexChar a, fromHexChar b, hexDecode r with
    | some x, some y, some t => some (UInt8.ofNat (x * 16 + y) :: t)
    | _, _, _ => none

/-- A hex digit as printed by `%X`, /repo/src/util/lc_util.go:373, :378. -/
def hexChar (d : Nat) : UInt8 := if d < 10 then UInt8.ofNat (0x30 + d) else UInt8.ofNat (0x41 + (d - 10))

/-- `fmt.Sprintf("%X", data)`, /repo/src/util/lc_util.go:373, :378. -/
def hexEncode : Bytes → Bytes
  | [] => []
  | b :: r => hexChar (b.toNat / 16) :: hexChar (b.toNat % 16) :: hexEncode r

/-- The four big endian bytes of a checksum, /repo/src/util/lc_util.go:237-238, :360-361, :367-368. -/
def crcBytes (data : Bytes) : Bytes := beBytes 4 (crc32 data).toNat

/-- The part of `lc_load_key_data` after reading the file, /repo/src/util/lc_util.go:229-250; `output[:n-4]` panics for `n < 4`. -/
def loadKeyBytes (input : Bytes) : Res Bytes :=
  match hexDecode input with
  | none => .err
  | some output =>
    let n : Int := output.length
    do
      let data ← goSlice output 0 (n - 4)
      let content ← goSlice output (n - 4) n
      if crcBytes data = content then .ok data else .err

/-- `lc_load_key_data`, /repo/src/util/lc_util.go:218-251.  An unreadable file is not distinguished from a missing one. -/
def loadKeyData (fs : FS) (p : Path) : Res Bytes :=
  match fs p with
  | none => .err
  | some input => loadKeyBytes input

/-- AES-GCM as used at /repo/src/util/lc_util.go:278-288 and :343-365, with the only law of it that is used: opening what was sealed
under the same key and nonce gives back the plaintext. -/
structure Aead where
  sealed : Bytes → Bytes → Bytes → Bytes
  opened : Bytes → Bytes → Bytes → Option Bytes
  law : ∀ key nonce plain, opened key nonce (sealed key nonce plain) = some plain

/-- The key lengths accepted by `aes.NewCipher`, /repo/src/util/lc_util.go:278, :343. -/
def aesKeyOk (secret : Bytes) : Bool := secret.length = 16 || secret.length = 24 || secret.length = 32

/-- `lc_load_pub_key`, /repo/src/util/lc_util.go:254-263: the X coordinate (Y is computed from it, see `Verif.Model.Ecdsa`). -/
def loadPubKey (fs : FS) (cls : KeyClass) (id : Path) : Res Nat := do
  let data ← loadKeyData fs (pubKeyPath cls id)
  .ok (beVal data)

/-- `lc_load_priv_key`, /repo/src/util/lc_util.go:266-294: the private number D.  `data[12:]` panics if there are fewer than 12 bytes
(`data[:12]` may reach into the checksum, within the capacity). -/
def loadPrivKey (A : Aead) (fs : FS) (cls : KeyClass) (id : Path) (secret : Bytes) : Res Nat := do
  let data ← loadKeyData fs (privKeyPath cls id)
  if data.length < 12 then .panic
  else if ¬ aesKeyOk secret then .err
  else match A.opened secret (data.take 12) (data.drop 12) with
    | none => .err
    | some plain => .ok (beVal plain)

/-- What `lc_mkdir_if_not_exist` finds, /repo/src/util/lc_util.go:296-309. -/
inductive DirState where
  /-- the directory exists, or was created -/
  | dir
  /-- the path exists and is not a directory -/
  | notDir
  /-- it does not exist and could not be created: `stat_info` is nil, its use at :304 panics -/
  | missing
deriving DecidableEq, Repr

/-- How a call of `ioutil.WriteFile` ends, /repo/src/util/lc_util.go:373, :378. -/
inductive WriteEnd where
  | done
  | notOpened
  | failedAfter (k : Nat)
deriving DecidableEq, Repr

/-- `ioutil.WriteFile`: the states of the file system after truncation and after each written byte, and whether it succeeded,
/repo/src/util/lc_util.go:373, :378. -/
def writeFile (fs : FS) (p : Path) (c : Bytes) (e : WriteEnd) : List FS × Bool :=
  match e with
  | .done => ((List.range (c.length + 1)).map fun k => fs.set p (c.take k), true)
  | .notOpened => ([], false)
  | .failedAfter m => ((List.range (m + 1)).map fun k => fs.set p (c.take k), false)

/-- The content of the public key file, /repo/src/util/lc_util.go:359-362, :378. -/
def pubContent (pub : Int) : Bytes :=
  let b := bigIntToByteArray pub
  hexEncode (b ++ crcBytes b)

/-- The content of the private key file, /repo/src/util/lc_util.go:364-369, :373. -/
def privContent (A : Aead) (secret nonce : Bytes) (priv : Int) : Bytes :=
  let e := nonce ++ A.sealed secret nonce (bigIntToByteArray priv)
  hexEncode (e ++ crcBytes e)

/-- `lc_save_key_pair`, /repo/src/util/lc_util.go:333-384: every state of the file system that exists during the call, in order,
starting with the given one, and the result.  `nonce` is what the random source delivers (12 bytes). -/
def saveKeyPair (A : Aead) (fs : FS) (cls : KeyClass) (id : Path) (pub priv : Int) (secret nonce : Bytes) (d : DirState)
    (e1 e2 : WriteEnd) : List FS × Res Unit :=
  match d with
  | .missing => ([fs], .panic)
  | .notDir => ([fs], .err)
  | .dir =>
    if ¬ aesKeyOk secret then ([fs], .err)
    else
      let w1 := writeFile fs (privKeyPath cls id) (privContent A secret nonce priv) e1
      let s1 := fs :: w1.1
      if w1.2 = false then (s1, .err)
      else
        let fs1 := s1.getLastD fs
        let w2 := writeFile fs1 (pubKeyPath cls id) (pubContent pub) e2
        if w2.2 = false then (s1 ++ w2.1, .err) else (s1 ++ w2.1, .ok ())

/-- The secret handed to `LCSaveKeyPair` by the key generator, /repo/src/main/pkeygen.go:33-34: `copy` into 16 zero bytes. -/
def pkeygenSecret (secret : Bytes) : Bytes := secret.take 16 ++ List.replicate (16 - secret.length) 0

/-- `AESPad`, /repo/src/util/ecdsa_util.go:30-38. -/
def aesPad (input : Bytes) : Res Bytes :=
  if input.length ≥ 16 then goSlice input ((input.length : Int) - 16) input.length
  else .ok (input ++ List.replicate (16 - input.length) 0)

end Poodle
