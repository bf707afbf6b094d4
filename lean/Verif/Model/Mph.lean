import Verif.Model.Key
import Verif.Model.Murmur

/-
Model of /repo/src/util/mph_util.go (minimal perfect hash table).

The seed search of `MPHBuild` need not terminate; the model takes a number of attempts per bucket (`fuel`), and `Res.err`
means "still searching after that many attempts" (MPHBuild itself returns no error).  `sort.Sort` is not stable: the order of the
buckets is produced by an arbitrary function `order`; the theorems assume only that it permutes.  The random verification seed
is a parameter.  `int` is 64 bits wide, so `int(hash)` is not negative.
-/

namespace Poodle

/-- The methods of `IKey` used by the table: `hash seed k` is `k.HashUint32(MurmurSeed(seed).Hash)`
(/repo/src/util/mph_util.go:280, :301, :328, :356, :358, :366), `equal` is `k.Equal` (:361, `none`: panics). -/
structure MphOps (K : Type) where
  hash : UInt32 → K → UInt32
  equal : K → K → Option Bool

/-- The fields `verifyKey`, `verifySeed`, `verifyHash`, /repo/src/util/mph_util.go:51-53; `verifyKey` is nil or not. -/
inductive MphVerify (K : Type) where
  | keys (ks : List K)
  | hashes (seed : UInt32) (hs : List UInt32)
deriving DecidableEq, Repr

/-- `MPHTable`, /repo/src/util/mph_util.go:46-54. -/
structure MphTable (K : Type) where
  level0 : List UInt32
  level0Mask : Nat
  level1 : List UInt32
  level1Mask : Nat
  verify : MphVerify K
deriving DecidableEq, Repr

/-- The loop of `nextPow2`, /repo/src/util/mph_util.go:347-351. -/
def nextPow2Loop : Nat → Nat → Nat → Nat
  | 0, i, _ => i
  | fuel + 1, i, n => if i ≥ n then i else nextPow2Loop fuel (i * 2) n

/-- `nextPow2`, /repo/src/util/mph_util.go:346-352; `n` doublings suffice (the overflow for n > 2^62 is not modelled). -/
def nextPow2 (n : Nat) : Nat := nextPow2Loop n 1 n

variable {K : Type}

/-- Distribution of the key indices over `sparseBuckets`, /repo/src/util/mph_util.go:281-285, from index `i` on. -/
def mphSparse (hash : UInt32 → K → UInt32) (mask : Nat) : List K → Nat → List (List Nat) → Res (List (List Nat))
  | [], _, sp => .ok sp
  | k :: ks, i, sp =>
    let n := (hash 0 k).toNat &&& mask
    match sp[n]? with
    | none => .panic
    | some v => mphSparse hash mask ks (i + 1) (sp.set n (v ++ [i]))

/-- The non-empty buckets, /repo/src/util/mph_util.go:286-291. -/
def mphBuckets (sp : List (List Nat)) : List (Nat × List Nat) :=
  (sp.zipIdx.filter fun p => p.1.length > 0).map fun p => (p.2, p.1)

/-- One attempt to place a bucket, /repo/src/util/mph_util.go:299-314; the boolean is false if the attempt failed and
`occ` was restored.  `level1` keeps what was written. -/
def mphPlace (hash : UInt32 → K → UInt32) (keys : List K) (mask : Nat) (seed : UInt32) :
    List Nat → List Bool → List UInt32 → List Nat → Res (List Bool × List UInt32 × Bool)
  | [], occ, l1, _ => .ok (occ, l1, true)
  | i :: is, occ, l1, tmp =>
    match keys[i]? with
    | none => .panic
    | some k =>
      let n := (hash seed k).toNat &&& mask
      match occ[n]? with
      | none => .panic
      | some true => .ok (tmp.foldl (fun o n => o.set n false) occ, l1, false)
      | some false =>
        if n < l1.length then mphPlace hash keys mask seed is (occ.set n true) (l1.set n (UInt32.ofNat i)) (tmp ++ [n])
        else .panic

/-- The seed search for one bucket, /repo/src/util/mph_util.go:297-315; the seed wraps around at 2^32. -/
def mphSearch (hash : UInt32 → K → UInt32) (keys : List K) (mask : Nat) (vals : List Nat) :
    Nat → UInt32 → List Bool → List UInt32 → Res (List Bool × List UInt32 × UInt32)
  | 0, _, _, _ => .err
  | fuel + 1, seed, occ, l1 =>
    match mphPlace hash keys mask seed vals occ l1 [] with
    | .ok (occ, l1, true) => .ok (occ, l1, seed)
    | .ok (occ, l1, false) => mphSearch hash keys mask vals fuel (seed + 1) occ l1
    | .err => .err
    | .panic => .panic

/-- The loop over the buckets, /repo/src/util/mph_util.go:294-316. -/
def mphFill (hash : UInt32 → K → UInt32) (keys : List K) (mask fuel : Nat) :
    List (Nat × List Nat) → List UInt32 → List Bool → List UInt32 → Res (List UInt32 × List UInt32)
  | [], l0, _, l1 => .ok (l0, l1)
  | b :: bs, l0, occ, l1 =>
    match mphSearch hash keys mask b.2 fuel 0 occ l1 with
    | .ok (occ, l1, seed) =>
      if b.1 < l0.length then mphFill hash keys mask fuel bs (l0.set b.1 seed) occ l1 else .panic
    | .err => .err
    | .panic => .panic

/-- `MPHBuild`, /repo/src/util/mph_util.go:270-344, with at most `fuel` attempts per bucket. -/
def mphBuild (ops : MphOps K) (order : List (Nat × List Nat) → List (Nat × List Nat)) (fuel : Nat) (verifySeed : UInt32)
    (keys : List K) (byKey : Bool) : Res (MphTable K) := do
  let n0 := nextPow2 (keys.length / 4)
  let n1 := nextPow2 keys.length
  let sp ← mphSparse ops.hash (n0 - 1) keys 0 (List.replicate n0 [])
  let (l0, l1) ← mphFill ops.hash keys (n1 - 1) fuel (order (mphBuckets sp)) (List.replicate n0 0) (List.replicate n1 false)
    (List.replicate n1 0)
  .ok ⟨l0, n0 - 1, l1, n1 - 1, if byKey then .keys keys else .hashes verifySeed (keys.map (ops.hash verifySeed))⟩

/-- `MPHTable.Lookup`, /repo/src/util/mph_util.go:355-369. -/
def MphTable.lookup (ops : MphOps K) (t : MphTable K) (s : K) : Res (UInt32 × Bool) :=
  match t.level0[(ops.hash 0 s).toNat &&& t.level0Mask]? with
  | none => .panic
  | some seed =>
    match t.level1[(ops.hash seed s).toNat &&& t.level1Mask]? with
    | none => .panic
    | some n =>
      match t.verify with
      | .keys ks => match ks[n.toNat]? with
        | none => .panic
        | some k => match ops.equal s k with
          | none => .panic
          | some b => .ok (n, b)
      | .hashes vseed hs => match hs[n.toNat]? with
        | none => .panic
        | some h => .ok (n, decide (ops.hash vseed s = h))

/-- `binary.BigEndian.PutUint32` of `uint32(n)`, /repo/src/util/mph_util.go:205-259. -/
def be32 (n : Nat) : Bytes := [UInt8.ofNat (n / 2 ^ 24), UInt8.ofNat (n / 2 ^ 16), UInt8.ofNat (n / 2 ^ 8), UInt8.ofNat n]

/-- A length test followed by `binary.BigEndian.Uint32`, e.g. /repo/src/util/mph_util.go:73-77, on `buf[pos:]`; also the rest. -/
def readU32 : Bytes → Res (Nat × Bytes)
  | a :: b :: c :: d :: rest => .ok (a.toNat * 2 ^ 24 + b.toNat * 2 ^ 16 + c.toNat * 2 ^ 8 + d.toNat, rest)
  | _ => .err

/-- The loops reading arrays, /repo/src/util/mph_util.go:84-87, :109-112, :181-184. -/
def readU32sLoop : Nat → Bytes → Res (List UInt32 × Bytes)
  | 0, buf => .ok ([], buf)
  | n + 1, buf => do
    let (x, buf) ← readU32 buf
    let (xs, buf) ← readU32sLoop n buf
    .ok (UInt32.ofNat x :: xs, buf)

/-- Reading an array of known length with the preceding length test, /repo/src/util/mph_util.go:80-87, :105-112, :175-184. -/
def readU32s (n : Nat) (buf : Bytes) : Res (List UInt32 × Bytes) :=
  if buf.length < 4 * n then .err else readU32sLoop n buf

/-- The loop reading the verification keys, /repo/src/util/mph_util.go:137-152. -/
def loadKeys : Nat → Bytes → Res (List KeyObj × Bytes)
  | 0, buf => .ok ([], buf)
  | n + 1, buf => do
    let (m, len) ← newMappedKey buf
    if buf.length < len then .err
    else do
      let (ks, buf) ← loadKeys n (buf.drop len)
      .ok (.mapped m :: ks, buf)

/-- `NewMPHTable`, /repo/src/util/mph_util.go:57-188; second component: the number of consumed bytes. -/
def newMphTable (buf : Bytes) : Res (MphTable KeyObj × Nat) :=
  match buf with
  | [] => .err
  | magic :: r =>
    if magic ≠ 0 ∧ magic ≠ 1 then .err
    else do
      let (n0, r) ← readU32 r
      let (l0, r) ← readU32s n0 r
      let (m0, r) ← readU32 r
      let (n1, r) ← readU32 r
      let (l1, r) ← readU32s n1 r
      let (m1, r) ← readU32 r
      if magic = 1 then do
        let (nk, r) ← readU32 r
        let (ks, r) ← loadKeys nk r
        .ok (⟨l0, m0, l1, m1, .keys ks⟩, buf.length - r.length)
      else do
        let (vs, r) ← readU32 r
        let (nh, r) ← readU32 r
        let (hs, r) ← readU32s nh r
        .ok (⟨l0, m0, l1, m1, .hashes (UInt32.ofNat vs) hs⟩, buf.length - r.length)

/-- An array, /repo/src/util/mph_util.go:205-209, :215-219, :255-260: length and elements. -/
def be32s (l : List UInt32) : Bytes := be32 l.length ++ l.flatMap fun x => be32 x.toNat

/-- The bytes of one verification key, /repo/src/util/mph_util.go:235-244.  (`Encode` also updates the key object: see
Model/MphShare.lean.) -/
def mphKeyBuf (o : KeyObj) : Res Bytes :=
  if o.isEncoded then o.getBuf
  else match o.encode with
    | (o', true) => o'.getBuf
    | (_, false) => .err

/-- The loop over the verification keys, /repo/src/util/mph_util.go:233-245. -/
def mphKeyBufs : List KeyObj → Res Bytes
  | [] => .ok []
  | k :: ks => do
    let b ← mphKeyBuf k
    let bs ← mphKeyBufs ks
    .ok (b ++ bs)

/-- `MPHTable.Encode`, /repo/src/util/mph_util.go:191-266. -/
def MphTable.encode (t : MphTable KeyObj) : Res Bytes :=
  let head := be32s t.level0 ++ be32 t.level0Mask ++ be32s t.level1 ++ be32 t.level1Mask
  match t.verify with
  | .keys ks => do
    let bs ← mphKeyBufs ks
    .ok (1 :: head ++ be32 ks.length ++ bs)
  | .hashes seed hs => .ok (0 :: head ++ be32 seed.toNat ++ be32s hs)

/-- Composite keys under a family of hash functions of byte slices, /repo/src/util/key_util.go:462-468. -/
def keyMphOps (f : UInt32 → Slice → UInt32) : MphOps KeyObj := ⟨fun seed k => k.hash (f seed), KeyObj.equal?⟩

/-- The family used by the code: Murmur hashes, /repo/src/util/mph_util.go:280, :298, :328. -/
def murmurMphOps : MphOps KeyObj := keyMphOps fun seed s => murmurHash seed s.bytes

end Poodle
