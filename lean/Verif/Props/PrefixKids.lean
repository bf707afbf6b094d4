import Verif.Props.PrefixKeys
import Verif.Props.TrieNodes

/-
C165: exactly which new children cannot be put.
-/

namespace Poodle.Props
open Poodle Poodle.Spec

variable {α : Type}

/-- C165, for keys without child: putting a child under the key and removing it panic exactly if the key of another child strictly
continues the key; the nodes are then as before. -/
theorem C165_absent_partial (enc : α → Res Bytes) (os : List (TOp α)) (hos : ∀ o ∈ os, KeyFits o) (hN : os.length < 2 ^ 63) (n : Nat)
    (a : ANode α) (ha : (absMem (nodesAfter enc os))[n]? = some a) (k : Bytes) (hk : a.kids k = none) (c : Nat)
    (hc : c < (nodesAfter enc os).length) :
    ((nodesAfter enc os).exec enc (.put n k c) = (nodesAfter enc os, .panic) ↔ Blocked a k) ∧
    ((nodesAfter enc os).exec enc (.remove n k) = (nodesAfter enc os, .panic) ↔ Blocked a k) := by
  obtain ⟨hf, -⟩ := C165_fails_partial enc os hos hN n a ha k c hc none 0
  rw [absMem_get] at ha
  rcases e : (nodesAfter enc os)[n]? with - | t
  · rw [e] at ha; cases ha
  rw [e] at ha
  obtain rfl : absNode t = a := by simpa using ha
  have ht := nodesAfter_good enc os hos hN n t e
  have hset : (nodesAfter enc os).set n { t with children := t.children } = nodesAfter enc os := by
    obtain ⟨hl, he⟩ := List.getElem?_eq_some_iff.mp e
    rw [← he]
    exact List.set_getElem_self hl
  obtain ⟨p1, p2, -, p4⟩ := bytes_calls t.children ht.good k
  refine ⟨⟨fun h => ?_, fun h => ?_⟩, ⟨fun h => ?_, fun h => ?_⟩⟩
  · by_contra hb
    rw [h] at hf
    exact absurd (hf hb).1 (by simp)
  · have h1 := (p1 c).mpr (p4 hk h)
    simp only [TMem.exec, if_pos hc, TMem.putChild, e, childOps_eq]
    rcases put_step bytesOps_lawful.1 t.children ht.good k c with ⟨-, h2⟩ | ⟨m', h2, -⟩
    · rw [h2]; simp only; rw [hset]
    · rw [h2] at h1; simp at h1
  · by_contra hb
    have := (hf hb).2
    rw [h] at this
    exact absurd this (by simp)
  · have h1 := p2.mpr (p4 hk h)
    simp only [TMem.exec, TMem.removeChild, e, childOps_eq]
    rcases remove_step bytesOps_lawful.1 bytesOps_lawful.2 t.children ht.good k with ⟨-, h2⟩ | ⟨m', h2, -⟩
    · rw [h2]; simp only; rw [hset]
    · rw [h2] at h1; simp at h1

example := C165_absent_partial Res.ok sampleNodes sampleNodes_fit (by decide) 0 _ rfl [99] (by decide +kernel) 1 (by decide)
example := C165_absent_partial Res.ok sampleNodes sampleNodes_fit (by decide) 0 _ rfl [] (by decide +kernel) 1 (by decide)
/-- The empty key is blocked by the children "a" and "b". -/
example : ((nodesAfter Res.ok sampleNodes).exec Res.ok (.put 0 [] 1)).2 = .panic := by decide +kernel

end Poodle.Props
