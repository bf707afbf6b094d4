import Verif.Model.Trie
import Verif.Spec.Codec

/-
Specification of tries.
-/

namespace Poodle.Spec
variable {α : Type}

/-- The trie after a history of `Set` calls, whether or not they panic. -/
def trieHistory (ops : List (KeyObj × Option α)) : TrieNode α := ops.foldl (fun t op => (t.set op.1 op.2).1) newTrie

/-- What a map holds for the empty key after a history. -/
def lastEmpty (ops : List (KeyObj × Option α)) : Option α :=
  ops.foldl (fun acc op => if op.1.isEmpty then op.2 else acc) none

/-- `buf` starts with a number 0 written in `n` bytes, or is empty. -/
def ZeroMark (buf : Bytes) (n : Nat) : Prop :=
  (buf = [] ∧ n = 0) ∨ ∃ p rest, buf = p ++ rest ∧ IsUvarint p 0 ∧ p.length ≤ 10 ∧ n = p.length

/-- `buf` starts with a node that is not a dummy, up to its value: a number that is not 0, a key that is not empty or has a length
the key decoder crashes on, a parent offset that is 0 in 32 bits, and a value for which the value decoder does not report an error. -/
def NodeAtRoot (buf : Bytes) : Prop :=
  ∃ mark n1, decodeUvarint64 buf = .ok (mark, n1) ∧ mark ≠ 0 ∧
    (decodeVarchar (buf.drop n1) = .panic ∨
      ∃ key n2, decodeVarchar (buf.drop n1) = .ok (key, n2) ∧ key ≠ [] ∧
        ∃ off n3, decodeUvarint64 (buf.drop (n1 + n2)) = .ok (off, n3) ∧ off % 2 ^ 32 = 0 ∧
          decodeVarchar (buf.drop (n1 + n2 + n3)) ≠ .err)

/-- An iterator after `m` calls of `Next`. -/
def nextTimes : Nat → TrieIter → Res TrieIter
  | 0, i => .ok i
  | m + 1, i => do
    let (_, j) ← i.next
    nextTimes m j

end Poodle.Spec
