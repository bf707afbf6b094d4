import Verif.Spec.Codec

/-
Specification of the bytes of keys and schemes: counted sequences of counted strings, written without reference to the decoder.
-/

namespace Poodle.Spec
open Poodle

/-- `buf` starts with the counted string `d`, and `rest` follows.  Where nothing is left, an empty string is read. -/
inductive WireString : Bytes → Bytes → Bytes → Prop
  | absent : WireString [] [] []
  | present (p d rest : Bytes) : IsUvarint p d.length → p.length ≤ 10 → WireString (p ++ d ++ rest) d rest

/-- `buf` starts with the counted strings `ds`, and `rest` follows. -/
inductive WireStrings : Bytes → List Bytes → Bytes → Prop
  | nil (buf : Bytes) : WireStrings buf [] buf
  | cons (buf d mid : Bytes) (ds : List Bytes) (rest : Bytes) : WireString buf d mid → WireStrings mid ds rest → WireStrings buf (d :: ds) rest

/-- `buf` starts with a count whose end would be beyond the largest signed number of 64 bits. -/
def WireOverflow (buf : Bytes) : Prop :=
  ∃ p rest v, buf = p ++ rest ∧ IsUvarint p v ∧ p.length ≤ 10 ∧ v < 2 ^ 64 ∧ 2 ^ 63 ≤ p.length + v

/-- `buf` starts with the number of strings `ds`, which is at most that of the bytes behind it, and with these; `rest` follows. -/
def WireList (buf : Bytes) (ds : List Bytes) (rest : Bytes) : Prop :=
  buf = [] ∧ ds = [] ∧ rest = [] ∨
    ∃ p body, buf = p ++ body ∧ IsUvarint p ds.length ∧ p.length ≤ 10 ∧ ds.length ≤ body.length ∧ WireStrings body ds rest

/-- `buf` starts with several lists of strings, one after the other, and `rest` follows. -/
inductive WireLists : Bytes → List (List Bytes) → Bytes → Prop
  | nil (buf : Bytes) : WireLists buf [] buf
  | cons (buf : Bytes) (ds : List Bytes) (mid : Bytes) (dss : List (List Bytes)) (rest : Bytes) :
      WireList buf ds mid → WireLists mid dss rest → WireLists buf (ds :: dss) rest

/-- `buf` starts with an overflowing number, or with a number not above that of the bytes behind it and fewer strings than that, followed by an
overflowing one. -/
def WireListOverflow (buf : Bytes) : Prop :=
  WireOverflow buf ∨
    ∃ p body n ds rest, buf = p ++ body ∧ IsUvarint p n ∧ p.length ≤ 10 ∧ n ≤ body.length ∧ WireStrings body ds rest ∧ ds.length < n ∧ WireOverflow rest

end Poodle.Spec
