import Verif.Model.NodePaths
import Verif.Props.KeyFile

/-
Property C226: the places of the files of nodes (/repo/src/util/lc_util.go:386-404).
-/

namespace Poodle.Props
open Poodle Poodle.Spec

/-! ### C226 Nodes and domains do not get in each other's way -/

/-- The places that belong to a node. -/
inductive NodePlace where
  | conf | log | lib | transaction | domain (d : Path)

/-- Where they are. -/
def NodePlace.path (node : Path) : NodePlace → Path
  | .conf => nodeConfPath node
  | .log => logDir node
  | .lib => libDir node
  | .transaction => transactionLogDir node
  | .domain d => domainDir node d

/-- A path leads to the place another one leads to, or into it. -/
def LeadsInto (p q : Path) : Prop := location q <:+ location p

/-- The places of a node that are in its library directory. -/
def NodePlace.inLib : NodePlace → Prop
  | .lib | .transaction | .domain _ => True
  | .conf | .log => False

/-- The full claim: a place of a node is inside a place of a node only if it is the same one, or the latter is the library directory of the
same node. -/
def NodesApart : Prop := ∀ (n n' : Path) (x x' : NodePlace), LeadsInto (x.path n) (x'.path n') →
  n = n' ∧ (x = x' ∨ (x' = .lib ∧ x.inLib))

/-- C226 is false: the data of the domain "../transaction" of a node are its transaction log. -/
theorem C226_refuted : ¬ NodesApart := by
  intro h
  have := (h ['a'] ['a'] (.domain "../transaction".toList) .transaction ⟨[], by decide +kernel⟩).2
  simp at this

/-- C226 is also false for nodes: a domain of the node "a/domain" is a domain of the node "a" if their names fit. -/
example : LeadsInto ((NodePlace.domain "c".toList).path "a/domain/b".toList) ((NodePlace.domain "b/domain/c".toList).path "a".toList) :=
  ⟨[], by decide +kernel⟩

/-- Where the places are, as chains of names, innermost first. -/
def NodePlace.chain (node : Path) : NodePlace → List Path
  | .conf => ["node.conf".toList, node, "node".toList, "poodle".toList, "etc".toList]
  | .log => [node, "poodle".toList, "log".toList, "var".toList]
  | .lib => [node, "poodle".toList, "lib".toList, "var".toList]
  | .transaction => ["transaction".toList, node, "poodle".toList, "lib".toList, "var".toList]
  | .domain d => [d, "domain".toList, node, "poodle".toList, "lib".toList, "var".toList]

/-- The domain that is meant has a proper name. -/
def NodePlace.Named : NodePlace → Prop
  | .domain d => ProperName d
  | _ => True

theorem follow_name {dir : List Path} {n : Path} (h : ProperName n) : follow dir n = n :: dir := by
  rw [follow, if_neg (by simp [h.1, h.2.1]), if_neg h.2.2.1]

theorem location_name {a n : Path} (h : ProperName n) : location (a ++ '/' :: n) = n :: location a := by
  rw [location_slash, components_name h.2.2.2, List.foldl_cons, List.foldl_nil, follow_name h]

theorem append_slash (a n : Path) : a ++ "/".toList ++ n = a ++ '/' :: n := by
  have : "/".toList = ['/'] := by decide
  rw [this, List.append_assoc]; rfl

theorem location_chain (n : Path) (x : NodePlace) (hn : ProperName n) (hx : x.Named) : location (x.path n) = x.chain n := by
  have hlib : location (libDir n) = NodePlace.chain n .lib := by
    have : libDir n = "/var/lib/poodle".toList ++ '/' :: n := append_slash _ _
    rw [this, location_name hn]
    have : location "/var/lib/poodle".toList = ["poodle".toList, "lib".toList, "var".toList] := by decide +kernel
    rw [this, NodePlace.chain]
  cases x with
  | conf =>
    have : NodePlace.path n .conf = keyDir .node n ++ '/' :: "node.conf".toList := by simp [NodePlace.path, nodeConfPath]
    rw [this, location_name ⟨by decide, by decide, by decide, by decide⟩, location_keyDir _ _ hn]
    have : location (etcDir .node) = ["node".toList, "poodle".toList, "etc".toList] := by decide +kernel
    rw [this, NodePlace.chain]
  | log =>
    have : NodePlace.path n .log = "/var/log/poodle".toList ++ '/' :: n := append_slash _ _
    rw [this, location_name hn]
    have : location "/var/log/poodle".toList = ["poodle".toList, "log".toList, "var".toList] := by decide +kernel
    rw [this, NodePlace.chain]
  | lib => exact hlib
  | transaction =>
    have : NodePlace.path n .transaction = libDir n ++ '/' :: "transaction".toList := by simp [NodePlace.path, transactionLogDir]
    rw [this, location_name ⟨by decide, by decide, by decide, by decide⟩, hlib, NodePlace.chain, NodePlace.chain]
  | domain d =>
    have : NodePlace.path n (.domain d) = (libDir n ++ '/' :: "domain".toList) ++ '/' :: d := by simp [NodePlace.path, domainDir]
    rw [this, location_name hx, location_name ⟨by decide, by decide, by decide, by decide⟩, hlib, NodePlace.chain, NodePlace.chain]

/-- C226 for nodes and domains with proper names: one place is inside another only if it is the same, or the other one is the library
directory of the same node. -/
theorem C226_apart_partial (n n' : Path) (x x' : NodePlace) (hn : ProperName n) (hn' : ProperName n') (hx : x.Named) (hx' : x'.Named) :
    LeadsInto (x.path n) (x'.path n') ↔ n = n' ∧ (x = x' ∨ (x' = .lib ∧ x.inLib)) := by
  unfold LeadsInto
  rw [location_chain n x hn hx, location_chain n' x' hn' hx', ← List.reverse_prefix]
  have e1 : "etc".toList ≠ "var".toList := by decide
  have e2 : "log".toList ≠ "lib".toList := by decide
  have e3 : "transaction".toList ≠ "domain".toList := by decide
  have e1' := e1.symm
  have e2' := e2.symm
  have e3' := e3.symm
  have k : (n' = n) = (n = n') := propext eq_comm
  generalize "etc".toList = s1 at *
  generalize "var".toList = s2 at *
  generalize "log".toList = s3 at *
  generalize "lib".toList = s4 at *
  generalize "transaction".toList = s5 at *
  generalize "domain".toList = s6 at *
  cases x <;> cases x' <;>
    simp [NodePlace.chain, NodePlace.inLib, List.cons_prefix_cons, *]
  exact fun _ => eq_comm

/-- C226: the configuration of a node is not a key file of any class. -/
theorem C226_conf_partial (n i : Path) (c : KeyClass) (hn : ProperName n) :
    location (nodeConfPath n) ≠ location (pubKeyPath c i) ∧ location (nodeConfPath n) ≠ location (privKeyPath c i) := by
  have e : location (nodeConfPath n) = NodePlace.chain n .conf := location_chain n .conf hn trivial
  rw [e]
  have hpub : ∃ f : Path, pubKeyPath c i = keyDir c i ++ '/' :: f ∧ ProperName f ∧ f ≠ "node.conf".toList := by
    cases c
    · exact ⟨"node_id.pub".toList, by simp [pubKeyPath], ⟨by decide, by decide, by decide, by decide⟩, by decide⟩
    · exact ⟨"cluster_id.pub".toList, by simp [pubKeyPath], ⟨by decide, by decide, by decide, by decide⟩, by decide⟩
    · exact ⟨"universe_id.pub".toList, by simp [pubKeyPath], ⟨by decide, by decide, by decide, by decide⟩, by decide⟩
    · exact ⟨"service_id.pub".toList, by simp [pubKeyPath], ⟨by decide, by decide, by decide, by decide⟩, by decide⟩
    · exact ⟨"federation_id.pub".toList, by simp [pubKeyPath], ⟨by decide, by decide, by decide, by decide⟩, by decide⟩
  have hpriv : ∃ f : Path, privKeyPath c i = keyDir c i ++ '/' :: f ∧ ProperName f ∧ f ≠ "node.conf".toList := by
    cases c
    · exact ⟨"node_id".toList, by simp [privKeyPath], ⟨by decide, by decide, by decide, by decide⟩, by decide⟩
    · exact ⟨"cluster_id".toList, by simp [privKeyPath], ⟨by decide, by decide, by decide, by decide⟩, by decide⟩
    · exact ⟨"universe_id".toList, by simp [privKeyPath], ⟨by decide, by decide, by decide, by decide⟩, by decide⟩
    · exact ⟨"service_id".toList, by simp [privKeyPath], ⟨by decide, by decide, by decide, by decide⟩, by decide⟩
    · exact ⟨"federation_id".toList, by simp [privKeyPath], ⟨by decide, by decide, by decide, by decide⟩, by decide⟩
  obtain ⟨f, h1, h2, h3⟩ := hpub
  obtain ⟨g, k1, k2, k3⟩ := hpriv
  rw [h1, k1, location_name h2, location_name k2]
  constructor
  · intro h
    exact h3 (List.cons.inj h).1.symm
  · intro h
    exact k3 (List.cons.inj h).1.symm

example := C226_apart_partial "n1".toList "n1".toList (.domain "d".toList) .lib ⟨by decide, by decide, by decide, by decide⟩
  ⟨by decide, by decide, by decide, by decide⟩ ⟨by decide, by decide, by decide, by decide⟩ trivial
example := C226_conf_partial "n1".toList "n1".toList .node ⟨by decide, by decide, by decide, by decide⟩

end Poodle.Props
