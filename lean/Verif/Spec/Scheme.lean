import Verif.Model.Scheme
import Verif.Spec.Key

/-
Specification of scheme equality and size.
-/

namespace Poodle.Spec

/-- Two schemes with the same domain name, tablet name and bucket names (a nil part counts as an empty one, as in
`DomainName`/`TabletName`). -/
def SameScheme (s t : Scheme) : Prop :=
  s.domain.bytes = t.domain.bytes ∧ s.tablet.bytes = t.tablet.bytes ∧
    (s.buckets.getD []).map Slice.bytes = (t.buckets.getD []).map Slice.bytes

/-- Size of a length-prefixed string that is left out when nil. -/
def partSize (s : Slice) : Nat := (s.map fun d => uvLen d.length + d.length).getD 0

/-- Size of the encoded form of a scheme: a magic byte and the parts that are present. -/
def schemeSize (s : Scheme) : Nat :=
  1 + partSize s.domain + partSize s.tablet + (s.buckets.map fun bs => keySize (bs.map Slice.bytes)).getD 0

end Poodle.Spec
