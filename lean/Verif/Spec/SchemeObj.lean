import Verif.Model.SchemeObj

/-
Specification of a scheme made from bytes: what its calls answer, by the bytes and by whether `Decode` was called.
-/

namespace Poodle.Spec

/-- What the scheme has: nothing before `Decode` is called, then what the bytes decode to, if they do. -/
def known (buf : Bytes) (tried : Bool) : Option Scheme :=
  if tried then
    match decodeScheme buf with
    | .ok (c, _) => some c
    | _ => none
  else none

/-- A getter: panics as long as nothing is known. -/
def shown (c : Option Scheme) (f : Scheme → Option SchemeOut) : Res SchemeOut :=
  match c.bind f with
  | none => .panic
  | some o => .ok o

/-- What a call answers, but for `Copy` and `EstBufSize`. -/
def answer (buf : Bytes) (tried : Bool) : SchemeCall → Res SchemeOut
  | .decode => match decodeScheme buf with
    | .ok (_, n) => .ok (.number n)
    | .err => .err
    | .panic => .panic
  | .isDecoded => .ok (.flag (known buf tried).isSome)
  | .isEncoded => .ok (.flag true)
  | .encode => .err
  | .domain => shown (known buf tried) fun c => some (.slice c.domain)
  | .domainName => shown (known buf tried) fun c => some (.slice (some c.domain.bytes))
  | .tablet => shown (known buf tried) fun c => some (.slice c.tablet)
  | .tabletName => shown (known buf tried) fun c => some (.slice (some c.tablet.bytes))
  | .buckets => shown (known buf tried) fun c => some (.slices c.buckets)
  | .bucketAt i => shown (known buf tried) fun c => if 0 ≤ i then (c.buckets.bind fun bs => bs[i.toNat]?).map .slice else none
  | .magic => match buf.head? with
    | none => .panic
    | some b => .ok (.number b.toNat)
  | .buf => .ok (.slice (some buf))
  | .copy => .panic
  | .est => .panic

/-- The answers of a history of calls. -/
def answers (buf : Bytes) : Bool → List SchemeCall → List (Res SchemeOut)
  | _, [] => []
  | tried, c :: cs => answer buf tried c :: answers buf (tried || c == .decode) cs

/-- A scheme without any part. -/
def noScheme : Scheme := { domain := none, tablet := none, buckets := none }

end Poodle.Spec
