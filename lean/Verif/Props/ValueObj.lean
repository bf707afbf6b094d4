import Verif.Lemmas.ObjCopy
import Mathlib.Order.WellFounded
import Mathlib.Order.RelClasses
import Mathlib.Data.Fintype.Card
import Mathlib.Data.Finite.Defs

/-
Properties C107 and C108: encoding values and records that share parts, and changing parts after encoding
(/repo/src/util/value_util.go, /repo/src/util/record_util.go).
-/

namespace Poodle.Props
open Poodle Spec

/-! ### Static types over histories -/

theorem isValue_set {h : VHeap} {id : Nat} {n n' : VNode} (hn : h[id]? = some n) (e : n'.isValue = n.isValue) (j : Nat) :
    ((h.set id n')[j]?).map VNode.isValue = (h[j]?).map VNode.isValue := by
  rw [List.getElem?_set]
  split
  · rename_i e'
    subst e'
    rw [hn, if_pos (List.getElem?_eq_some_iff.mp hn).1]
    simp [e]
  · rfl

theorem typed_set {h : VHeap} (ht : Typed h) {id : Nat} {n n' : VNode} (hn : h[id]? = some n) (e : n'.isValue = n.isValue)
    (hn' : TypedNode h n') : Typed (h.set id n') := by
  have key : ∀ m, TypedNode (h.set id n') m ↔ TypedNode h m := by
    intro m
    cases m <;> simp only [TypedNode, isValue_iff, isRecord_iff, isValue_set hn e]
  intro j m hm
  rw [key]
  rw [List.getElem?_set] at hm
  split at hm
  · split at hm
    · simp only [Option.some.injEq] at hm
      exact hm ▸ hn'
    · simp at hm
  · exact ht j m hm

theorem typed_run {h : VHeap} (ht : Typed h) (op : VOp) : Typed (op.run h) := by
  cases op with
  | new o =>
    refine typed_append ht ?_
    cases o <;> simp [NewObj.node, TypedNode]
  | append id i =>
    simp only [VOp.run, VHeap.append]
    cases hn : h[id]? with
    | none => exact ht
    | some n =>
      have h0 := ht id n hn
      cases n with
      | array l e b est =>
        simp only
        split
        · refine typed_set ht hn rfl ?_
          intro j hj
          rcases List.mem_append.mp hj with hj | hj
          · exact h0 j hj
          · simp only [List.mem_singleton] at hj; subst hj; assumption
        · exact ht
      | list l e b est =>
        simp only
        split
        · refine typed_set ht hn rfl ?_
          intro j hj
          rcases List.mem_append.mp hj with hj | hj
          · exact h0 j hj
          · simp only [List.mem_singleton] at hj; subst hj; assumption
        · exact ht
      | _ => exact ht
  | deleteAt id idx =>
    simp only [VOp.run, VHeap.deleteAt]
    cases hn : h[id]? with
    | none => exact ht
    | some n =>
      have h0 := ht id n hn
      have sub : ∀ (l : List Nat) j, j ∈ l.take idx ++ l.drop ((idx + 1) % 65536) → j ∈ l := by
        intro l j hj
        rcases List.mem_append.mp hj with hj | hj
        · exact List.mem_of_mem_take hj
        · exact List.mem_of_mem_drop hj
      cases n with
      | array l e b est =>
        simp only
        split
        · exact ht
        · exact typed_set ht hn rfl fun j hj => h0 j (sub l j hj)
      | list l e b est =>
        simp only
        split
        · exact ht
        · exact typed_set ht hn rfl fun j hj => h0 j (sub l j hj)
      | _ => exact ht
  | setKey id k =>
    simp only [VOp.run, VHeap.setKey]
    cases hn : h[id]? with
    | none => exact ht
    | some n =>
      have h0 := ht id n hn
      cases n with
      | record r => exact typed_set ht hn rfl h0
      | _ => exact ht
  | setValue id i =>
    simp only [VOp.run, VHeap.setValue]
    cases hn : h[id]? with
    | none => exact ht
    | some n =>
      have h0 := ht id n hn
      cases n with
      | record r =>
        simp only
        split
        · refine typed_set ht hn rfl ⟨fun j hj => ?_, h0.2⟩
          simp only [Option.some.injEq] at hj; subst hj; assumption
        · exact ht
      | _ => exact ht
  | setScheme id i =>
    simp only [VOp.run, VHeap.setScheme]
    cases hn : h[id]? with
    | none => exact ht
    | some n =>
      have h0 := ht id n hn
      cases n with
      | record r =>
        simp only
        split
        · refine typed_set ht hn rfl ⟨h0.1, fun j hj => ?_⟩
          simp only [Option.some.injEq] at hj; subst hj; assumption
        · exact ht
      | _ => exact ht
  | setTimestamp id t =>
    simp only [VOp.run, VHeap.setTimestamp]
    cases hn : h[id]? with
    | none => exact ht
    | some n =>
      have h0 := ht id n hn
      cases n with
      | record r => exact typed_set ht hn rfl h0
      | _ => exact ht
  | setSignature id t =>
    simp only [VOp.run, VHeap.setSignature]
    cases hn : h[id]? with
    | none => exact ht
    | some n =>
      have h0 := ht id n hn
      cases n with
      | record r => exact typed_set ht hn rfl h0
      | _ => exact ht
  | encode id d => exact (encode_outcome d h id).same.typed ht
  | copy id d => exact (copy_out d h id).typed ht

theorem typed_history (ops : List VOp) : Typed (valueHistory ops) := by
  have key : ∀ (ops : List VOp) (h : VHeap), Typed h → Typed (ops.foldl VOp.run h) := by
    intro ops
    induction ops with
    | nil => exact fun _ h => h
    | cons op ops ih => exact fun h ht => ih _ (typed_run ht op)
  exact key ops [] (by intro i n hn; simp at hn)

/-! ### C107: encoding objects that share parts -/

/-- C107: `Encode` of an object gives the encoding of what it contains, no matter how often its parts occur in it or elsewhere; it leaves
what every object contains as it was, and `Buf()` is this encoding afterwards. -/
theorem C107_encode (ops : List VOp) (i : Nat) (c : Content) (hc : Contains (valueHistory ops) i c) :
    ∃ d, ∀ depth ≥ d, ∃ h', (valueHistory ops).encode depth i = (h', some (contentEncode c)) ∧
      (∀ j c', Contains h' j c' ↔ Contains (valueHistory ops) j c') ∧
      ∀ w, contentEncode c = .ok w → ∃ n, h'[i]? = some n ∧ n.isEncoded = true ∧ n.getBuf = .ok w := by
  obtain ⟨d, hd⟩ := hc
  refine ⟨d, fun depth hle => ?_⟩
  have o := encode_outcome depth (valueHistory ops) i
  have e := o.exact c (unfold_le hle hd)
  refine ⟨((valueHistory ops).encode depth i).1, Prod.ext rfl e, fun j c' => o.same.contains, fun w hw => ?_⟩
  exact (o.success (typed_history ops) w (by rw [e, hw])).2

/-- C107: and only objects that contain something can be encoded. -/
theorem C107_success (ops : List VOp) (i depth : Nat) (w : Bytes) (h : ((valueHistory ops).encode depth i).2 = some (.ok w)) :
    ∃ c, Contains (valueHistory ops) i c ∧ contentEncode c = .ok w := by
  obtain ⟨⟨c, hc, hw⟩, -⟩ := (encode_outcome depth (valueHistory ops) i).success (typed_history ops) w h
  exact ⟨c, ⟨_, hc⟩, hw⟩

/-- What an object refers to unfolds one step earlier. -/
theorem unfold_refs {f : Nat} {h : VHeap} {i j : Nat} {c : Content} (hc : unfold f h i = some c) (hr : Refers h i j) :
    ∃ g c', g < f ∧ unfold g h j = some c' := by
  obtain ⟨n, hn, hj⟩ := hr
  cases f with
  | zero => simp [unfold] at hc
  | succ f =>
    rw [unfold, hn] at hc
    have part : ∀ v o, unfoldPart (unfold f h) v = some o → j ∈ v.toList → ∃ c', unfold f h j = some c' := by
      intro v o ho hj
      cases v with
      | none => simp at hj
      | some k =>
        simp only [Option.toList_some, List.mem_singleton] at hj
        subst hj
        simp only [unfoldPart, Option.map_eq_some_iff, Option.bind_eq_some_iff] at ho
        obtain ⟨a, ⟨c', hc', -⟩, -⟩ := ho
        exact ⟨c', hc'⟩
    suffices ∃ c', unfold f h j = some c' by
      obtain ⟨c', hc'⟩ := this
      exact ⟨f, c', by omega, hc'⟩
    cases n with
    | array l e b n =>
      simp only [Option.map_eq_some_iff] at hc
      obtain ⟨as, has, -⟩ := hc
      obtain ⟨a, ha⟩ := unfoldAll_mem has hj
      obtain ⟨c', hc', -⟩ := Option.bind_eq_some_iff.mp ha
      exact ⟨c', hc'⟩
    | list l e b n =>
      simp only [Option.map_eq_some_iff] at hc
      obtain ⟨as, has, -⟩ := hc
      obtain ⟨a, ha⟩ := unfoldAll_mem has hj
      obtain ⟨c', hc', -⟩ := Option.bind_eq_some_iff.mp ha
      exact ⟨c', hc'⟩
    | record r =>
      simp only [Option.map_eq_some_iff, Option.bind_eq_some_iff] at hc
      obtain ⟨v, hv, s, hs, -⟩ := hc
      simp only [VNode.refs, List.mem_append] at hj
      rcases hj with hj | hj
      · exact part _ _ hv hj
      · exact part _ _ hs hj
    | prim => simp [VNode.refs] at hj
    | mappedSimple => simp [VNode.refs] at hj
    | mappedStd => simp [VNode.refs] at hj
    | mappedRec => simp [VNode.refs] at hj

theorem unfold_strictlyInside {h : VHeap} {i j : Nat} (hr : StrictlyInside h i j) :
    ∀ {f : Nat} {c : Content}, unfold f h i = some c → ∃ g c', g < f ∧ unfold g h j = some c' := by
  induction hr with
  | single hr => exact fun hc => unfold_refs hc hr
  | tail _ hr ih =>
    intro f c hc
    obtain ⟨g, c', hg, hc'⟩ := ih hc
    obtain ⟨g', c'', hg', hc''⟩ := unfold_refs hc' hr
    exact ⟨g', c'', by omega, hc''⟩

theorem not_cyclic {h : VHeap} {j : Nat} (hr : StrictlyInside h j j) : ∀ f c, unfold f h j ≠ some c := by
  intro f
  induction f using Nat.strong_induction_on with
  | _ f ih =>
    intro c hc
    obtain ⟨g, c', hg, hc'⟩ := unfold_strictlyInside hr hc
    exact ih g hg c' hc'

/-- An object all of whose references contain something contains something. -/
theorem contains_of_refs {h : VHeap} (ht : Typed h) {i : Nat} {n : VNode} (hn : h[i]? = some n)
    (hr : ∀ j ∈ VNode.refs n, ∃ c, Contains h j c) : ∃ c, Contains h i c := by
  obtain ⟨f, hf⟩ : ∃ f, ∀ j ∈ VNode.refs n, ∃ c, unfold f h j = some c := by
    generalize VNode.refs n = l at hr
    induction l with
    | nil => exact ⟨0, by simp⟩
    | cons k l ih =>
      obtain ⟨f, hf⟩ := ih fun j hj => hr j (by simp [hj])
      obtain ⟨c, g, hg⟩ := hr k (by simp)
      refine ⟨max f g, fun j hj => ?_⟩
      rcases List.mem_cons.mp hj with rfl | hj
      · exact ⟨c, unfold_le (Nat.le_max_right f g) hg⟩
      · obtain ⟨c', hc'⟩ := hf j hj
        exact ⟨c', unfold_le (Nat.le_max_left f g) hc'⟩
  have left : ∀ j c, h.isValue j = true → unfold f h j = some c → ∃ v, c = .inl v := by
    intro j c hv hc
    obtain ⟨m, hm, k, -⟩ := unfold_kind hc
    simp only [VHeap.isValue, hm] at hv
    obtain ⟨v, e, -⟩ := k hv
    exact ⟨v, e⟩
  have part : ∀ v : Option Nat, (∀ j, v = some j → h.isValue j = true) → (∀ j ∈ v.toList, ∃ c, unfold f h j = some c) →
      ∃ o, unfoldPart (unfold f h) v = some o := by
    intro v hv hu
    cases v with
    | none => exact ⟨none, rfl⟩
    | some k =>
      obtain ⟨c, hc⟩ := hu k (by simp)
      obtain ⟨v, rfl⟩ := left k c (hv k rfl) hc
      exact ⟨some v, by simp [unfoldPart, hc]⟩
  have h0 := ht i n hn
  suffices ∃ c, unfold (f + 1) h i = some c by
    obtain ⟨c, hc⟩ := this
    exact ⟨c, _, hc⟩
  rw [unfold, hn]
  cases n with
  | array l e b n =>
    obtain ⟨as, has⟩ := unfoldAll_total (u := fun j => (unfold f h j).bind Sum.getLeft?) (l := l) fun j hj => by
      obtain ⟨c, hc⟩ := hf j hj
      obtain ⟨v, rfl⟩ := left j c (h0 j hj) hc
      exact ⟨v, by simp [hc]⟩
    exact ⟨_, by simp only [has]; rfl⟩
  | list l e b n =>
    obtain ⟨as, has⟩ := unfoldAll_total (u := fun j => (unfold f h j).bind Sum.getRight?) (l := l) fun j hj => by
      obtain ⟨c, hc⟩ := hf j hj
      obtain ⟨m, hm, -, k⟩ := unfold_kind hc
      have := h0 j hj
      simp only [VHeap.isRecord, hm, Bool.not_eq_true'] at this
      obtain ⟨v, rfl⟩ := k this
      exact ⟨v, by simp [hc]⟩
    exact ⟨_, by simp only [has]; rfl⟩
  | record r =>
    obtain ⟨v, hv⟩ := part r.value h0.1 fun j hj => hf j (List.mem_append_left _ hj)
    obtain ⟨s, hs⟩ := part r.scheme h0.2 fun j hj => hf j (List.mem_append_right _ hj)
    exact ⟨_, by simp only [hv, hs]; rfl⟩
  | prim => exact ⟨_, rfl⟩
  | mappedSimple => exact ⟨_, rfl⟩
  | mappedStd => exact ⟨_, rfl⟩
  | mappedRec => exact ⟨_, rfl⟩

/-- References are to objects that exist. -/
theorem refs_exist {h : VHeap} (ht : Typed h) {i j : Nat} (hr : Refers h i j) : ∃ n, h[j]? = some n := by
  obtain ⟨n, hn, hj⟩ := hr
  have val : ∀ k, h.isValue k = true → ∃ n, h[k]? = some n := by
    intro k hk
    rw [isValue_iff] at hk
    cases e : h[k]? with
    | none => simp [e] at hk
    | some n => exact ⟨n, rfl⟩
  have h0 := ht i n hn
  cases n with
  | array l e b n => exact val j (h0 j hj)
  | list l e b n =>
    have := h0 j hj
    rw [isRecord_iff] at this
    cases e : h[j]? with
    | none => simp [e] at this
    | some n => exact ⟨n, rfl⟩
  | record r =>
    simp only [VNode.refs, List.mem_append, Option.mem_toList] at hj
    rcases hj with hj | hj
    · exact val j (h0.1 j hj)
    · exact val j (h0.2 j hj)
  | prim => simp [VNode.refs] at hj
  | mappedSimple => simp [VNode.refs] at hj
  | mappedStd => simp [VNode.refs] at hj
  | mappedRec => simp [VNode.refs] at hj

/-- C107: an object contains something, so that `Encode` finishes, exactly if no object in it is nested in itself. -/
theorem C107_contains_iff (ops : List VOp) (i : Nat) (hi : i < (valueHistory ops).length) :
    (∃ c, Contains (valueHistory ops) i c) ↔
      ∀ j, Inside (valueHistory ops) i j → ¬ StrictlyInside (valueHistory ops) j j := by
  have ht := typed_history ops
  generalize valueHistory ops = h at ht hi
  constructor
  · rintro ⟨c, f, hc⟩ j hj hcyc
    rcases (Relation.reflTransGen_iff_eq_or_transGen.mp hj) with rfl | hj
    · exact not_cyclic hcyc f c hc
    · obtain ⟨g, c', -, hc'⟩ := unfold_strictlyInside hj hc
      exact not_cyclic hcyc g c' hc'
  · intro hacyc
    -- the objects inside `i` are finitely many, and being nested is a strict order on them
    have ex : ∀ j, Inside h i j → j < h.length := by
      intro j hj
      rcases Relation.reflTransGen_iff_eq_or_transGen.mp hj with rfl | hj
      · exact hi
      · obtain ⟨k, -, hk⟩ := Relation.TransGen.tail'_iff.mp hj
        obtain ⟨n, hn⟩ := refs_exist ht hk
        exact (List.getElem?_eq_some_iff.mp hn).1
    let T := {j : Fin h.length // Inside h i j}
    let R : T → T → Prop := fun a b => StrictlyInside h b.1 a.1
    have : IsTrans T R := ⟨fun a b c h1 h2 => Relation.TransGen.trans h2 h1⟩
    have : Std.Irrefl R := ⟨fun a ha => hacyc a.1 a.2 ha⟩
    have wf : WellFounded R := Finite.wellFounded_of_trans_of_irrefl R
    have key : ∀ a : T, ∃ c, Contains h a.1 c := by
      intro a
      induction a using wf.induction with
      | _ a ih =>
        obtain ⟨n, hn⟩ : ∃ n, h[(a.1 : Nat)]? = some n := ⟨_, List.getElem?_eq_getElem a.1.2⟩
        refine contains_of_refs ht hn fun j hj => ?_
        have hr : Refers h a.1 j := ⟨n, hn, hj⟩
        have hin : Inside h i j := a.2.tail hr
        exact ih ⟨⟨j, ex j hin⟩, hin⟩ (Relation.TransGen.single hr)
    exact key ⟨⟨i, hi⟩, Relation.ReflTransGen.refl⟩

/-- C107: so an object nested in itself is never encoded successfully, nor one that contains such an object. -/
theorem C107_cycle (ops : List VOp) (i j depth : Nat) (w : Bytes) (hj : Inside (valueHistory ops) i j)
    (hc : StrictlyInside (valueHistory ops) j j) : ((valueHistory ops).encode depth i).2 ≠ some (.ok w) := by
  intro h
  obtain ⟨c, hcc, -⟩ := C107_success ops i depth w h
  by_cases hi : i < (valueHistory ops).length
  · exact (C107_contains_iff ops i hi).mp ⟨c, hcc⟩ j hj hc
  · obtain ⟨f, hf⟩ := hcc
    obtain ⟨n, hn, -⟩ := unfold_kind hf
    rw [List.getElem?_eq_none (by omega)] at hn
    simp at hn

/-- Two records sharing one value: an array of a primitive, twice in a list. -/
def sharedOps : List VOp :=
  [.new .list, .new .record, .new .record, .new .array, .new (.prim (some [7])), .append 3 4, .append 3 4, .setValue 1 3, .setValue 2 3,
    .setScheme 2 3, .append 0 1, .append 0 2, .append 0 1]

/-- C107: the hypotheses of `C107_contains_iff`. -/
example := C107_contains_iff sharedOps 3 (by decide +kernel)

/-- C107: the hypotheses of `C107_success`. -/
example := C107_success sharedOps 3 9 [0x41, 2, 6, 1, 1, 7, 1, 1, 7] (by decide +kernel)

/-- C107: the hypotheses of `C107_encode`. -/
example := C107_encode sharedOps 3 (.inl (.array [.prim (some [7]), .prim (some [7])])) ⟨2, rfl⟩

example : ((valueHistory sharedOps).encode 9 0).2 = some (contentEncode (.inl (.records
    [.record none (some (.array [.prim (some [7]), .prim (some [7])])) none none none none,
     .record none (some (.array [.prim (some [7]), .prim (some [7])])) (some (.array [.prim (some [7]), .prim (some [7])])) none none none,
     .record none (some (.array [.prim (some [7]), .prim (some [7])])) none none none none]))) := by decide +kernel

example : Contains (valueHistory sharedOps) 3 (.inl (.array [.prim (some [7]), .prim (some [7])])) := ⟨2, rfl⟩

/-- An array appended to itself. -/
example : StrictlyInside (valueHistory [.new .array, .append 0 0]) 0 0 :=
  .single ⟨.array [0] false [] 2, by decide +kernel, by decide⟩

/-! ### C108: changing parts after encoding -/

/-- The full claim of C108: whenever a value or record made by the program says that it is encoded, `Buf()` is the encoding of what it
contains. -/
def EncodedCurrent : Prop :=
  ∀ (ops : List VOp) (i : Nat) (n : VNode), (valueHistory ops)[i]? = some n → VNode.constructed n = true → n.isEncoded = true →
    Current (valueHistory ops) i

/-- A call other than `Encode` changes one object at most, which is not encoded then. -/
theorem run_get (h : VHeap) (op : VOp) (hop : ∀ id d, op ≠ .encode id d) (i : Nat) :
    (op.run h)[i]? = h[i]? ∨ (h[i]? = none ∧ ∃ n, (op.run h)[i]? = some n ∧ (VNode.constructed n = true → n.isEncoded = false)) ∨
      (op.changes = some i ∧ ∃ n, (op.run h)[i]? = some n ∧ n.isEncoded = false) := by
  have setc : ∀ (id : Nat) (n n' : VNode), h[id]? = some n → op.changes = some id → n'.isEncoded = false → op.run h = h.set id n' →
      (op.run h)[i]? = h[i]? ∨ (h[i]? = none ∧ ∃ n, (op.run h)[i]? = some n ∧ (VNode.constructed n = true → n.isEncoded = false)) ∨
      (op.changes = some i ∧ ∃ n, (op.run h)[i]? = some n ∧ n.isEncoded = false) := by
    intro id n n' hn hc he hr
    by_cases e : id = i
    · subst e
      exact .inr (.inr ⟨hc, n', by rw [hr]; exact get_set_self hn n', he⟩)
    · left
      rw [hr, List.getElem?_set_ne e]
  have nop : op.run h = h → _ := fun e => Or.inl (b := (h[i]? = none ∧ ∃ n, (op.run h)[i]? = some n ∧
      (VNode.constructed n = true → n.isEncoded = false)) ∨
      (op.changes = some i ∧ ∃ n, (op.run h)[i]? = some n ∧ n.isEncoded = false)) (congrArg (fun l : VHeap => l[i]?) e)
  cases op with
  | new o =>
    rcases Nat.lt_trichotomy i h.length with hi | hi | hi
    · left
      rw [VOp.run, List.getElem?_append_left hi]
    · right; left
      refine ⟨List.getElem?_eq_none (by omega), o.node, by simp [VOp.run, hi], ?_⟩
      cases o <;> simp [NewObj.node, VNode.constructed, VNode.isEncoded]
    · left
      rw [VOp.run, List.getElem?_eq_none (by simp; omega), List.getElem?_eq_none (by omega)]
  | append id j =>
    cases hn : h[id]? with
    | none => exact nop (by simp only [VOp.run, VHeap.append, hn])
    | some n =>
      cases n with
      | array l e b est =>
        by_cases hv : h.isValue j = true
        · exact setc id _ _ hn rfl rfl (by simp only [VOp.run, VHeap.append, hn]; rw [if_pos hv])
        · exact nop (by simp only [VOp.run, VHeap.append, hn]; rw [if_neg hv])
      | list l e b est =>
        by_cases hv : h.isRecord j = true
        · exact setc id _ _ hn rfl rfl (by simp only [VOp.run, VHeap.append, hn]; rw [if_pos hv])
        · exact nop (by simp only [VOp.run, VHeap.append, hn]; rw [if_neg hv])
      | _ => exact nop (by simp only [VOp.run, VHeap.append, hn])
  | deleteAt id idx =>
    cases hn : h[id]? with
    | none => exact nop (by simp only [VOp.run, VHeap.deleteAt, hn])
    | some n =>
      cases n with
      | array l e b est =>
        by_cases hv : idx ≥ l.length % 65536
        · exact nop (by simp only [VOp.run, VHeap.deleteAt, hn]; rw [if_pos hv])
        · exact setc id _ _ hn rfl rfl (by simp only [VOp.run, VHeap.deleteAt, hn]; rw [if_neg hv])
      | list l e b est =>
        by_cases hv : idx ≥ l.length % 65536
        · exact nop (by simp only [VOp.run, VHeap.deleteAt, hn]; rw [if_pos hv])
        · exact setc id _ _ hn rfl rfl (by simp only [VOp.run, VHeap.deleteAt, hn]; rw [if_neg hv])
      | _ => exact nop (by simp only [VOp.run, VHeap.deleteAt, hn])
  | setKey id k =>
    cases hn : h[id]? with
    | none => exact nop (by simp only [VOp.run, VHeap.setKey, hn])
    | some n =>
      cases n with
      | record r =>
        exact setc id _ (.record { r with key := some k, encoded := false, estKey := k.estBufSize }) hn rfl rfl
          (by simp only [VOp.run, VHeap.setKey, hn])
      | _ => exact nop (by simp only [VOp.run, VHeap.setKey, hn])
  | setValue id j =>
    cases hn : h[id]? with
    | none => exact nop (by simp only [VOp.run, VHeap.setValue, hn])
    | some n =>
      cases n with
      | record r =>
        by_cases hv : h.isValue j = true
        · exact setc id _ _ hn rfl rfl (by simp only [VOp.run, VHeap.setValue, hn]; rw [if_pos hv])
        · exact nop (by simp only [VOp.run, VHeap.setValue, hn]; rw [if_neg hv])
      | _ => exact nop (by simp only [VOp.run, VHeap.setValue, hn])
  | setScheme id j =>
    cases hn : h[id]? with
    | none => exact nop (by simp only [VOp.run, VHeap.setScheme, hn])
    | some n =>
      cases n with
      | record r =>
        by_cases hv : h.isValue j = true
        · exact setc id _ _ hn rfl rfl (by simp only [VOp.run, VHeap.setScheme, hn]; rw [if_pos hv])
        · exact nop (by simp only [VOp.run, VHeap.setScheme, hn]; rw [if_neg hv])
      | _ => exact nop (by simp only [VOp.run, VHeap.setScheme, hn])
  | setTimestamp id t =>
    cases hn : h[id]? with
    | none => exact nop (by simp only [VOp.run, VHeap.setTimestamp, hn])
    | some n =>
      cases n with
      | record r =>
        exact setc id _ (.record { r with timestamp := t, encoded := false }) hn rfl rfl
          (by simp only [VOp.run, VHeap.setTimestamp, hn])
      | _ => exact nop (by simp only [VOp.run, VHeap.setTimestamp, hn])
  | setSignature id R S =>
    cases hn : h[id]? with
    | none => exact nop (by simp only [VOp.run, VHeap.setSignature, hn])
    | some n =>
      cases n with
      | record r =>
        exact setc id _ (.record { r with sigR := R, sigS := S, encoded := false }) hn rfl rfl
          (by simp only [VOp.run, VHeap.setSignature, hn])
      | _ => exact nop (by simp only [VOp.run, VHeap.setSignature, hn])
  | encode id d => exact absurd rfl (hop id d)
  | copy id d =>
    have o := (copy_out d h id).grown
    by_cases hi : i < h.length
    · exact .inl (o.old hi)
    · cases hn : (h.copy d id).1[i]? with
      | none => exact .inl (by rw [VOp.run, hn, List.getElem?_eq_none (by omega)])
      | some n => exact .inr (.inl ⟨List.getElem?_eq_none (by omega), n, hn, (o.new i n (by omega) hn).2⟩)

theorem constructed_bare (n : VNode) : VNode.constructed (bare n) = VNode.constructed n := by cases n <;> rfl

/-- C108: the bytes of an encoded object are always the encoding of what it contained at some earlier moment. -/
theorem C108_past_partial (ops : List VOp) (i : Nat) (n : VNode) (hn : (valueHistory ops)[i]? = some n)
    (hc : VNode.constructed n = true) (he : n.isEncoded = true) :
    ∃ before after c w, ops = before ++ after ∧ Contains (valueHistory before) i c ∧ contentEncode c = .ok w ∧ n.getBuf = .ok w := by
  induction ops using List.reverseRecOn generalizing n with
  | nil => simp [valueHistory] at hn
  | append_singleton ops op ih =>
    have e : valueHistory (ops ++ [op]) = op.run (valueHistory ops) := by simp [valueHistory]
    rw [e] at hn
    have old : ∀ m, (valueHistory ops)[i]? = some m → VNode.constructed m = true → m.isEncoded = true → m.getBuf = n.getBuf →
        ∃ before after c w, ops ++ [op] = before ++ after ∧ Contains (valueHistory before) i c ∧ contentEncode c = .ok w ∧
          n.getBuf = .ok w := by
      intro m h1 h2 h3 h4
      obtain ⟨b, a, c, w, e1, e2, e3, e4⟩ := ih m h1 h2 h3
      exact ⟨b, a ++ [op], c, w, by rw [e1, List.append_assoc], e2, e3, h4 ▸ e4⟩
    by_cases hop : ∃ id d, op = .encode id d
    · obtain ⟨id, d, rfl⟩ := hop
      have o := encode_outcome d (valueHistory ops) id
      simp only [VOp.run] at hn
      rcases o.kept (typed_history ops) i with hk | ⟨c, w, m, e1, e2, e3, e4, e5⟩
      · have hs := o.same.get i
        rw [hn] at hk hs
        cases hm : (valueHistory ops)[i]? with
        | none => simp [hm] at hk
        | some m =>
          simp only [hm, Option.map_some, Option.some.injEq, observed, Prod.mk.injEq] at hk hs
          exact old m hm (by rw [← constructed_bare, ← hs, constructed_bare]; exact hc) (hk.1 ▸ he) hk.2.symm
      · rw [hn] at e1
        obtain rfl := Option.some.inj e1
        exact ⟨ops, [.encode id d], c, w, rfl, e2, e3, e5⟩
    · rcases run_get (valueHistory ops) op (fun id d h => hop ⟨id, d, h⟩) i with h | ⟨-, m, h1, h2⟩ | ⟨-, m, h1, h2⟩
      · rw [hn] at h
        exact old n h.symm hc he rfl
      · rw [hn] at h1
        obtain rfl := Option.some.inj h1
        rw [h2 hc] at he
        simp at he
      · rw [hn] at h1
        obtain rfl := Option.some.inj h1
        rw [h2] at he
        simp at he

example := C108_past_partial (sharedOps ++ [.encode 3 9, .append 3 4, .encode 0 9]) 4 (.prim (some [7]) true [1, 1, 7]) (by decide +kernel) rfl rfl

theorem unfold_agree {h h' : VHeap} (f : Nat) : ∀ {i : Nat}, (∀ j, Inside h i j → h'[j]? = h[j]?) → unfold f h' i = unfold f h i := by
  induction f with
  | zero => exact fun _ => rfl
  | succ f ih =>
    intro i hi
    rw [unfold, unfold, hi i .refl]
    cases hn : h[i]? with
    | none => rfl
    | some n =>
      have step : ∀ j ∈ VNode.refs n, unfold f h' j = unfold f h j := fun j hj =>
        ih fun k hk => hi k (Relation.ReflTransGen.head ⟨n, hn, hj⟩ hk)
      have all : ∀ {α : Type} (p : Content → Option α) (l : List Nat), (∀ j ∈ l, unfold f h' j = unfold f h j) →
          unfoldAll (fun j => (unfold f h' j).bind p) l = unfoldAll (fun j => (unfold f h j).bind p) l := by
        intro α p l hl
        induction l with
        | nil => rfl
        | cons k l ihl =>
          simp only [unfoldAll]
          rw [hl k (by simp), ihl fun j hj => hl j (by simp [hj])]
      have part : ∀ v : Option Nat, (∀ j ∈ v.toList, unfold f h' j = unfold f h j) →
          unfoldPart (unfold f h') v = unfoldPart (unfold f h) v := by
        intro v hv
        cases v with
        | none => rfl
        | some k => simp only [unfoldPart]; rw [hv k (by simp)]
      cases n with
      | array l e b n => simp only; rw [all _ l step]
      | list l e b n => simp only; rw [all _ l step]
      | record r =>
        simp only
        rw [part r.value fun j hj => step j (List.mem_append_left _ hj), part r.scheme fun j hj => step j (List.mem_append_right _ hj)]
      | _ => rfl

/-- C108: an encoded object stays current as long as neither it nor an object nested in it is changed. -/
theorem C108_unaffected_partial (ops : List VOp) (op : VOp) (i : Nat) (hcur : Current (valueHistory ops) i)
    (hop : ∀ x, op.changes = some x → ¬ Inside (valueHistory ops) i x) : Current (valueHistory (ops ++ [op])) i := by
  have e : valueHistory (ops ++ [op]) = op.run (valueHistory ops) := by simp [valueHistory]
  rw [e]
  obtain ⟨n, c, w, hn, hc, hw, he, hb⟩ := hcur
  by_cases hen : ∃ id d, op = .encode id d
  · obtain ⟨id, d, rfl⟩ := hen
    have o := encode_outcome d (valueHistory ops) id
    simp only [VOp.run]
    rcases o.kept (typed_history ops) i with hk | ⟨c', w', m, e1, e2, e3, e4, e5⟩
    · cases hm : ((valueHistory ops).encode d id).1[i]? with
      | none => simp [hm, hn] at hk
      | some m =>
        simp only [hm, hn, Option.map_some, Option.some.injEq, observed, Prod.mk.injEq] at hk
        exact ⟨m, c, w, hm, o.same.contains.mpr hc, hw, hk.1.trans he, hk.2.trans hb⟩
    · exact ⟨m, c', w', e1, o.same.contains.mpr e2, e3, e4, e5⟩
  · have agree : ∀ j, Inside (valueHistory ops) i j → (op.run (valueHistory ops))[j]? = (valueHistory ops)[j]? := by
      intro j hj
      rcases run_get (valueHistory ops) op (fun id d h => hen ⟨id, d, h⟩) j with h | ⟨h, -⟩ | ⟨h, -⟩
      · exact h
      · exfalso
        rcases Relation.reflTransGen_iff_eq_or_transGen.mp hj with rfl | hj
        · rw [hn] at h
          simp at h
        · obtain ⟨k, -, hk⟩ := Relation.TransGen.tail'_iff.mp hj
          obtain ⟨m, hm⟩ := refs_exist (typed_history ops) hk
          rw [hm] at h
          simp at h
      · exact absurd hj (hop j h)
    obtain ⟨f, hf⟩ := hc
    exact ⟨n, c, w, by rw [agree i .refl, hn], ⟨f, by rw [unfold_agree f agree, hf]⟩, hw, he, hb⟩

/-- C108: an object that is changed itself is no longer encoded (the other objects are as before). -/
theorem C108_changed_partial (ops : List VOp) (op : VOp) (x : Nat) (hop : op.changes = some x) :
    (∀ j : Nat, (valueHistory (ops ++ [op]))[j]? = (valueHistory ops)[j]?) ∨
      ((∃ n, (valueHistory (ops ++ [op]))[x]? = some n ∧ n.isEncoded = false) ∧
        ∀ j : Nat, j ≠ x → (valueHistory (ops ++ [op]))[j]? = (valueHistory ops)[j]?) := by
  have e : valueHistory (ops ++ [op]) = op.run (valueHistory ops) := by simp [valueHistory]
  rw [e]
  have hne : ∀ id d, op ≠ .encode id d := by rintro id d rfl; simp [VOp.changes] at hop
  have other : ∀ j : Nat, j ≠ x → (op.run (valueHistory ops))[j]? = (valueHistory ops)[j]? := by
    intro j hj
    rcases run_get (valueHistory ops) op hne j with h | ⟨h, m, h1, -⟩ | ⟨h, -⟩
    · exact h
    · -- only `new` and `Copy` make an object
      exfalso
      have hlen : (op.run (valueHistory ops)).length = (valueHistory ops).length := by
        cases op <;> simp only [VOp.run, VHeap.append, VHeap.deleteAt, VHeap.setKey, VHeap.setValue, VHeap.setScheme,
          VHeap.setTimestamp, VHeap.setSignature] <;> simp [VOp.changes] at hop
        all_goals (split <;> try split) <;> simp
      have := (List.getElem?_eq_some_iff.mp h1).1
      rw [List.getElem?_eq_none_iff] at h
      omega
    · rw [hop] at h
      exact absurd (Option.some.inj h).symm hj
  rcases run_get (valueHistory ops) op hne x with h | ⟨h, m, h1, -⟩ | ⟨-, h⟩
  · left
    intro j
    by_cases hj : j = x
    · rw [hj, h]
    · exact other j hj
  · exfalso
    have hlen : (op.run (valueHistory ops)).length = (valueHistory ops).length := by
      cases op <;> simp only [VOp.run, VHeap.append, VHeap.deleteAt, VHeap.setKey, VHeap.setValue, VHeap.setScheme,
        VHeap.setTimestamp, VHeap.setSignature] <;> simp [VOp.changes] at hop
      all_goals (split <;> try split) <;> simp
    have := (List.getElem?_eq_some_iff.mp h1).1
    rw [List.getElem?_eq_none_iff] at h
    omega
  · exact .inr ⟨h, other⟩

example := C108_changed_partial (sharedOps ++ [.encode 0 9]) (.append 3 4) 3 rfl

/-- An array is encoded; then its element, another array, is appended to. -/
def staleOps : List VOp := [.new .array, .new .array, .append 0 1, .encode 0 9, .new (.prim (some [7])), .append 1 2]

/-- C108 as stated does not hold: changing an element does not make the array say that it is not encoded. -/
theorem C108_refuted : ¬ EncodedCurrent := by
  intro h
  have hn : (valueHistory staleOps)[0]? = some (.array [1] true [0x41, 0x01, 0x01, 0x00] 4) := by decide +kernel
  obtain ⟨n, c, w, h1, h2, h3, -, h4⟩ := h staleOps 0 _ hn rfl rfl
  rw [hn] at h1
  obtain rfl := Option.some.inj h1
  have hc : Contains (valueHistory staleOps) 0 (.inl (.array [.array [.prim (some [7])]])) := ⟨4, rfl⟩
  rw [contains_unique h2 hc] at h3
  have hw : contentEncode (.inl (.array [.array [.prim (some [7])]])) = .ok [0x41, 0x01, 0x06, 0x41, 0x01, 0x03, 0x01, 0x01, 0x07] := by
    decide +kernel
  rw [hw] at h3
  rw [← h3] at h4
  revert h4
  decide

example : Current (valueHistory (sharedOps ++ [.encode 3 9])) 3 :=
  ⟨.array [4, 4] true [0x41, 0x02, 0x06, 0x01, 0x01, 0x07, 0x01, 0x01, 0x07] 9, .inl (.array [.prim (some [7]), .prim (some [7])]), _,
    by decide +kernel, ⟨2, rfl⟩, by decide +kernel, rfl, rfl⟩

example := C108_unaffected_partial (sharedOps ++ [.encode 3 9]) (.new .array) 3
  ⟨.array [4, 4] true [0x41, 0x02, 0x06, 0x01, 0x01, 0x07, 0x01, 0x01, 0x07] 9, .inl (.array [.prim (some [7]), .prim (some [7])]), _,
    by decide +kernel, ⟨2, rfl⟩, by decide +kernel, rfl, rfl⟩ (by simp [VOp.changes])

end Poodle.Props
