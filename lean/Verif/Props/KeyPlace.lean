import Verif.Props.NodePaths

/-
Property C86 (continued): which identifiers share key files (/repo/src/util/lc_util.go:162-216), for all identifiers.
-/

namespace Poodle.Props
open Poodle Poodle.Spec

/-- Where an identifier leads, relative to the directory it is used in: so many levels up, then down these names, innermost first. -/
def relative (i : Path) : Nat × List Path :=
  (components i).foldl (fun p c => if c = [] ∨ c = ['.'] then p
    else if c = ['.', '.'] then (match p.2 with
      | [] => (p.1 + 1, [])
      | _ :: l => (p.1, l))
    else (p.1, c :: p.2)) (0, [])

theorem foldl_follow_relative (dir : List Path) (l : List Path) (p : Nat × List Path) :
    l.foldl follow (p.2 ++ dir.drop p.1) =
      (l.foldl (fun p c => if c = [] ∨ c = ['.'] then p
        else if c = ['.', '.'] then (match p.2 with
          | [] => (p.1 + 1, [])
          | _ :: l => (p.1, l))
        else (p.1, c :: p.2)) p).2 ++ dir.drop (l.foldl (fun p c => if c = [] ∨ c = ['.'] then p
        else if c = ['.', '.'] then (match p.2 with
          | [] => (p.1 + 1, [])
          | _ :: l => (p.1, l))
        else (p.1, c :: p.2)) p).1 := by
  induction l generalizing p with
  | nil => rfl
  | cons c l ih =>
    simp only [List.foldl_cons]
    rw [← ih]
    congr 1
    rw [follow]
    by_cases h1 : c = [] ∨ c = ['.']
    · rw [if_pos h1, if_pos h1]
    · rw [if_neg h1, if_neg h1]
      by_cases h2 : c = ['.', '.']
      · rw [if_pos h2, if_pos h2]
        rcases p with ⟨k, - | ⟨a, ns⟩⟩
        · simp [List.tail_drop]
        · simp
      · rw [if_neg h2, if_neg h2]
        rfl

/-- The directory of a key. -/
theorem location_relative (c : KeyClass) (i : Path) :
    location (keyDir c i) = (relative i).2 ++ (location (etcDir c)).drop (relative i).1 := by
  have : keyDir c i = etcDir c ++ '/' :: i := append_slash _ _
  rw [this, location_slash]
  exact foldl_follow_relative (location (etcDir c)) (components i) (0, [])

/-- The names of the files of a class. -/
theorem key_file_names (c : KeyClass) : ∃ f g : Path, (∀ i, location (pubKeyPath c i) = f :: location (keyDir c i) ∧
      location (privKeyPath c i) = g :: location (keyDir c i)) ∧ f.head? = some (classLetter c) ∧ g.head? = some (classLetter c) ∧
      f.getLast? = some 'b' ∧ g.getLast? = some 'd' := by
  have hf : ∀ (f d : Path), ProperName f → location (d ++ '/' :: f) = f :: location d := fun f d h => location_name h
  cases c
  · exact ⟨"node_id.pub".toList, "node_id".toList, fun i => ⟨hf _ _ ⟨by decide, by decide, by decide, by decide⟩,
      hf _ _ ⟨by decide, by decide, by decide, by decide⟩⟩, by decide, by decide, by decide, by decide⟩
  · exact ⟨"cluster_id.pub".toList, "cluster_id".toList, fun i => ⟨hf _ _ ⟨by decide, by decide, by decide, by decide⟩,
      hf _ _ ⟨by decide, by decide, by decide, by decide⟩⟩, by decide, by decide, by decide, by decide⟩
  · exact ⟨"universe_id.pub".toList, "universe_id".toList, fun i => ⟨hf _ _ ⟨by decide, by decide, by decide, by decide⟩,
      hf _ _ ⟨by decide, by decide, by decide, by decide⟩⟩, by decide, by decide, by decide, by decide⟩
  · exact ⟨"service_id.pub".toList, "service_id".toList, fun i => ⟨hf _ _ ⟨by decide, by decide, by decide, by decide⟩,
      hf _ _ ⟨by decide, by decide, by decide, by decide⟩⟩, by decide, by decide, by decide, by decide⟩
  · exact ⟨"federation_id.pub".toList, "federation_id".toList, fun i => ⟨hf _ _ ⟨by decide, by decide, by decide, by decide⟩,
      hf _ _ ⟨by decide, by decide, by decide, by decide⟩⟩, by decide, by decide, by decide, by decide⟩

/-- C86, exactly, for all identifiers: keys of different classes never share a file, nor do a public and a private key; two identifiers of a
class share files exactly if they lead to the same directory. -/
theorem C86_exact_partial (c c' : KeyClass) (i i' : Path) :
    (location (pubKeyPath c i) = location (pubKeyPath c' i') ↔ c = c' ∧
      (relative i).2 ++ (location (etcDir c)).drop (relative i).1 = (relative i').2 ++ (location (etcDir c)).drop (relative i').1) ∧
    (location (privKeyPath c i) = location (privKeyPath c' i') ↔ c = c' ∧
      (relative i).2 ++ (location (etcDir c)).drop (relative i).1 = (relative i').2 ++ (location (etcDir c)).drop (relative i').1) ∧
    location (pubKeyPath c i) ≠ location (privKeyPath c' i') := by
  obtain ⟨f, g, e, f1, g1, f2, g2⟩ := key_file_names c
  obtain ⟨f', g', e', f1', g1', f2', g2'⟩ := key_file_names c'
  rw [(e i).1, (e i).2, (e' i').1, (e' i').2, ← location_relative]
  refine ⟨⟨fun h => ?_, ?_⟩, ⟨fun h => ?_, ?_⟩, fun h => ?_⟩
  · obtain ⟨h1, h2⟩ := List.cons.inj h
    obtain rfl : c = c' := classLetter_injective (by rw [← f1, ← f1', h1])
    exact ⟨rfl, by rw [h2, location_relative]⟩
  · rintro ⟨rfl, h⟩
    rw [← (e i).1, ← (e' i').1, (e i).1, (e i').1, h, ← location_relative]
  · obtain ⟨h1, h2⟩ := List.cons.inj h
    obtain rfl : c = c' := classLetter_injective (by rw [← g1, ← g1', h1])
    exact ⟨rfl, by rw [h2, location_relative]⟩
  · rintro ⟨rfl, h⟩
    rw [← (e i).2, ← (e' i').2, (e i).2, (e i').2, h, ← location_relative]
  · have := (List.cons.inj h).1
    rw [this, g2'] at f2
    simp at f2

/-- C86 for identifiers that do not lead out of the directory of the class: they share files exactly if class and path without detours are
the same. -/
theorem C86_staying_partial (c c' : KeyClass) (i i' : Path) (h : (relative i).1 = 0) (h' : (relative i').1 = 0) :
    location (pubKeyPath c i) = location (pubKeyPath c' i') ↔ c = c' ∧ (relative i).2 = (relative i').2 := by
  rw [(C86_exact_partial c c' i i').1, h, h', List.drop_zero, List.append_left_inj]

example := (C86_exact_partial .node .node "../node/a".toList "a".toList).1.mpr ⟨rfl, by decide +kernel⟩
example := C86_staying_partial .node .cluster "a/./b".toList "a//b".toList (by decide +kernel) (by decide +kernel)

end Poodle.Props
