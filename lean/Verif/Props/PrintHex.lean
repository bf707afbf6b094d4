import Verif.Spec.KeyFile
import Verif.Props.Print

/-
Property C185 (continued): the key in the text of a trie node (/repo/src/util/trie_util.go:523, :972).
-/

namespace Poodle.Props
open Poodle Poodle.Spec

theorem hexDigitOf_digit : ∀ x : Fin 16, IsHexDigit (UInt8.ofNat (hexDigitOf x.val).toNat) x.val := by
  unfold IsHexDigit
  decide +kernel

theorem showHexBytes_hex (b : Bytes) : IsHexOf ((showHexBytes b).map fun c => UInt8.ofNat c.toNat) b := by
  induction b with
  | nil => exact .nil
  | cons x l ih =>
    have hx := x.toNat_lt
    exact .cons _ _ _ _ _ (hexDigitOf_digit ⟨x.toNat / 16, by omega⟩) (hexDigitOf_digit ⟨x.toNat % 16, by omega⟩) ih

/-- C185: the text of a node shows its key: between "k=" and ", child=[" are the bytes of the key as pairs of hexadecimal digits, the
higher one first. -/
theorem C185_key_partial {α : Type} (showA : α → Text) (mapped : Bool) (k : Bytes) (d : α) (off : Nat) (buf : Bytes) (kids : List (PNode α)) :
    ∃ h rest : Text, (PNode.node mapped k d off buf kids).toText showA =
      txt (if mapped then "MappedTrieNode: k=" else "TrieNode: k=") ++ h ++ txt ", child=[" ++ rest ∧
      IsHexOf (h.map fun c => UInt8.ofNat c.toNat) k := by
  refine ⟨showHexBytes k, showNat kids.length ++ (txt "], data=" ++ (showA d ++ (txt ", off=" ++ (showNat off ++ (txt ", buf=" ++
    (showBytes (buf.take 16) ++ txt " ")))))), ?_, showHexBytes_hex k⟩
  rw [PNode.toText]
  simp only [List.append_assoc]

example := C185_key_partial (fun _ : Unit => []) false [0x1f, 0xa0] () 0 [] []
example : (PNode.node false [0x1f, 0xa0] () 0 [] []).toText (fun _ : Unit => []) =
    "TrieNode: k=1fa0, child=[0], data=, off=0, buf=[] ".toList := by decide +kernel

end Poodle.Props
