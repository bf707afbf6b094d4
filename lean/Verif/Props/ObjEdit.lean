import Verif.Spec.ObjCopy
import Verif.Props.ValueObj

/-
Property C116: what changing an object does to the contents of all objects (/repo/src/util/value_util.go, /repo/src/util/record_util.go).
-/

namespace Poodle.Props
open Poodle Spec

/-- Objects that do not contain the changed one. -/
theorem unfold_frame {h h' : VHeap} {x : Nat} (ha : ∀ k : Nat, k ≠ x → h'[k]? = h[k]?) {k : Nat} (hk : ¬ Inside h k x) (f : Nat) :
    unfold f h' k = unfold f h k :=
  unfold_agree f fun j hj => ha j fun e => hk (e ▸ hj)

/-- What an object refers to does not contain it, if it contains something. -/
theorem not_inside_ref {h : VHeap} {x j : Nat} {c : Content} (hc : Contains h x c) {n : VNode} (hn : h[x]? = some n) (hj : j ∈ VNode.refs n) :
    ¬ Inside h j x := by
  intro hi
  obtain ⟨f, hf⟩ := hc
  exact not_cyclic (Relation.TransGen.head' ⟨n, hn, hj⟩ hi) f c hf

theorem set_agree (h : VHeap) (x : Nat) (n : VNode) : ∀ k : Nat, k ≠ x → (h.set x n)[k]? = h[k]? := fun _ hk =>
  List.getElem?_set_ne (Ne.symm hk)

theorem unfoldAll_congr' {α : Type} {u u' : Nat → Option α} {l : List Nat} (h : ∀ j ∈ l, u j = u' j) : unfoldAll u l = unfoldAll u' l := by
  induction l with
  | nil => rfl
  | cons i l ih => rw [unfoldAll, unfoldAll, h i (by simp), ih fun j hj => h j (by simp [hj])]

theorem unfoldAll_append {α : Type} (u : Nat → Option α) (l m : List Nat) :
    unfoldAll u (l ++ m) = (unfoldAll u l).bind fun a => (unfoldAll u m).map (a ++ ·) := by
  induction l with
  | nil => cases hm : unfoldAll u m <;> simp [unfoldAll, hm]
  | cons i l ih =>
    rw [List.cons_append, unfoldAll, ih, unfoldAll]
    cases u i <;> cases unfoldAll u l <;> cases unfoldAll u m <;> simp

theorem unfoldAll_take_drop {α : Type} {u : Nat → Option α} {l : List Nat} {as : List α} (h : unfoldAll u l = some as) (n : Nat) :
    unfoldAll u (l.take n) = some (as.take n) ∧ unfoldAll u (l.drop n) = some (as.drop n) := by
  induction l generalizing as n with
  | nil =>
    simp only [unfoldAll, Option.some.injEq] at h
    subst h
    simp [unfoldAll]
  | cons i l ih =>
    simp only [unfoldAll, Option.bind_eq_some_iff, Option.map_eq_some_iff] at h
    obtain ⟨a, ha, as, has, rfl⟩ := h
    cases n with
    | zero => simp [unfoldAll, ha, has]
    | succ n => simpa [unfoldAll, ha] using ih has n

theorem array_inv {h : VHeap} {x : Nat} {vs : List CVal} (hc : Contains h x (.inl (.array vs))) :
    ∃ f l e b est, h[x]? = some (.array l e b est) ∧ unfoldAll (fun j => (unfold f h j).bind Sum.getLeft?) l = some vs := by
  obtain ⟨f, hf⟩ := hc
  cases f with
  | zero => simp [unfold] at hf
  | succ f =>
    rw [unfold] at hf
    cases hn : h[x]? with
    | none => simp [hn] at hf
    | some n =>
      cases n <;> simp [hn, Option.map_eq_some_iff, Option.bind_eq_some_iff] at hf
      exact ⟨f, _, _, _, _, rfl, hf⟩

theorem list_inv {h : VHeap} {x : Nat} {rs : List CRec} (hc : Contains h x (.inl (.records rs))) :
    ∃ f l e b est, h[x]? = some (.list l e b est) ∧ unfoldAll (fun j => (unfold f h j).bind Sum.getRight?) l = some rs := by
  obtain ⟨f, hf⟩ := hc
  cases f with
  | zero => simp [unfold] at hf
  | succ f =>
    rw [unfold] at hf
    cases hn : h[x]? with
    | none => simp [hn] at hf
    | some n =>
      cases n <;> simp [hn, Option.map_eq_some_iff, Option.bind_eq_some_iff] at hf
      exact ⟨f, _, _, _, _, rfl, hf⟩

theorem record_inv {h : VHeap} {x : Nat} {k : Option KeyObj} {v s : Option CVal} {t R S : Option Int}
    (hc : Contains h x (.inr (.record k v s t R S))) :
    ∃ f r, h[x]? = some (.record r) ∧ r.key.map bareKey = k ∧ unfoldPart (unfold f h) r.value = some v ∧
      unfoldPart (unfold f h) r.scheme = some s ∧ r.timestamp = t ∧ r.sigR = R ∧ r.sigS = S := by
  obtain ⟨f, hf⟩ := hc
  cases f with
  | zero => simp [unfold] at hf
  | succ f =>
    rw [unfold] at hf
    cases hn : h[x]? with
    | none => simp [hn] at hf
    | some n =>
      cases n with
      | record r =>
        simp only [hn, Option.map_eq_some_iff, Option.bind_eq_some_iff, Sum.inr.injEq, CRec.record.injEq] at hf
        obtain ⟨v', hv, s', hs, e1, rfl, rfl, e2, e3, e4⟩ := hf
        exact ⟨f, r, rfl, e1, hv, hs, e2, e3, e4⟩
      | _ => simp [hn, Option.map_eq_some_iff] at hf

theorem elems_frame {α : Type} {p : Content → Option α} {h h' : VHeap} {x : Nat} (ha : ∀ k : Nat, k ≠ x → h'[k]? = h[k]?) {l : List Nat}
    (hl : ∀ j ∈ l, ¬ Inside h j x) {f g : Nat} (hfg : f ≤ g) {as : List α}
    (hu : unfoldAll (fun j => (unfold f h j).bind p) l = some as) : unfoldAll (fun j => (unfold g h' j).bind p) l = some as := by
  rw [unfoldAll_congr' (u' := fun j => (unfold g h j).bind p) fun j hj => by rw [unfold_frame ha (hl j hj)]]
  refine unfoldAll_mono (fun j a hja => ?_) hu
  obtain ⟨c, q1, q2⟩ := Option.bind_eq_some_iff.mp hja
  exact Option.bind_eq_some_iff.mpr ⟨c, unfold_le hfg q1, q2⟩

theorem part_frame {h h' : VHeap} {x : Nat} (ha : ∀ k : Nat, k ≠ x → h'[k]? = h[k]?) {o : Option Nat}
    (hl : ∀ j, o = some j → ¬ Inside h j x) {f g : Nat} (hfg : f ≤ g) {p : Option CVal}
    (hu : unfoldPart (unfold f h) o = some p) : unfoldPart (unfold g h') o = some p := by
  cases o with
  | none => exact hu
  | some j =>
    simp only [unfoldPart] at hu ⊢
    rw [unfold_frame ha (hl j rfl)]
    exact unfoldPart_mono (v := some j) (fun _ _ hh => unfold_le hfg hh) hu

theorem isValue_of_contains {h : VHeap} {i : Nat} {v : CVal} (hc : Contains h i (.inl v)) : h.isValue i = true := by
  obtain ⟨f, hf⟩ := hc
  obtain ⟨n, hn, -, h2⟩ := unfold_kind hf
  simp only [VHeap.isValue, hn]
  cases hv : n.isValue with
  | true => rfl
  | false => obtain ⟨r, hr⟩ := h2 hv; simp at hr

theorem isRecord_of_contains {h : VHeap} {i : Nat} {r : CRec} (hc : Contains h i (.inr r)) : h.isRecord i = true := by
  obtain ⟨f, hf⟩ := hc
  obtain ⟨n, hn, h1, -⟩ := unfold_kind hf
  simp only [VHeap.isRecord, hn]
  cases hv : n.isValue with
  | false => rfl
  | true => obtain ⟨v, hr, -⟩ := h1 hv; simp at hr

theorem history_snoc (ops : List VOp) (op : VOp) : valueHistory (ops ++ [op]) = op.run (valueHistory ops) := by simp [valueHistory]

/-! ### C116: calls change what they are to change -/

/-- C116: `Append` puts the new element behind the others. -/
theorem C116_append_value (ops : List VOp) (id i : Nat) (vs : List CVal) (v : CVal)
    (hc : Contains (valueHistory ops) id (.inl (.array vs))) (hv : Contains (valueHistory ops) i (.inl v))
    (hi : ¬ Inside (valueHistory ops) i id) : Contains (valueHistory (ops ++ [.append id i])) id (.inl (.array (vs ++ [v]))) := by
  rw [history_snoc, VOp.run]
  generalize valueHistory ops = h at *
  obtain ⟨f, l, en, b, est, hn, hf⟩ := array_inv hc
  have hel : ∀ j ∈ l, ¬ Inside h j id := fun j hj => not_inside_ref hc hn hj
  have hval := isValue_of_contains hv
  obtain ⟨g, hg⟩ := hv
  simp only [VHeap.append, hn, hval, if_true]
  have ag := set_agree h id (.array (l ++ [i]) false b (est + h.est i))
  refine ⟨max f g + 1, ?_⟩
  rw [unfold, get_set_self hn]
  simp only [Option.map_eq_some_iff, Sum.inl.injEq, CVal.array.injEq, exists_eq_right]
  rw [unfoldAll_append, elems_frame ag hel (le_max_left f g) hf]
  simp [unfoldAll, unfold_frame ag hi, unfold_le (le_max_right f g) hg]

/-- C116: the same for lists of records. -/
theorem C116_append_record (ops : List VOp) (id i : Nat) (rs : List CRec) (r : CRec)
    (hc : Contains (valueHistory ops) id (.inl (.records rs))) (hv : Contains (valueHistory ops) i (.inr r))
    (hi : ¬ Inside (valueHistory ops) i id) : Contains (valueHistory (ops ++ [.append id i])) id (.inl (.records (rs ++ [r]))) := by
  rw [history_snoc, VOp.run]
  generalize valueHistory ops = h at *
  obtain ⟨f, l, en, b, est, hn, hf⟩ := list_inv hc
  have hel : ∀ j ∈ l, ¬ Inside h j id := fun j hj => not_inside_ref hc hn hj
  have hval := isRecord_of_contains hv
  obtain ⟨g, hg⟩ := hv
  simp only [VHeap.append, hn, hval, if_true]
  have ag := set_agree h id (.list (l ++ [i]) false b (est + h.est i))
  refine ⟨max f g + 1, ?_⟩
  rw [unfold, get_set_self hn]
  simp only [Option.map_eq_some_iff, Sum.inl.injEq, CVal.records.injEq, exists_eq_right]
  rw [unfoldAll_append, elems_frame ag hel (le_max_left f g) hf]
  simp [unfoldAll, unfold_frame ag hi, unfold_le (le_max_right f g) hg]

/-- C116: an object that is appended to something inside of it contains nothing that could be written down, and cannot be encoded. -/
theorem C116_append_cycle (ops : List VOp) (id i : Nat) (hi : Inside (valueHistory ops) i id)
    (hch : valueHistory (ops ++ [.append id i]) ≠ valueHistory ops) (c : Content) :
    ¬ Contains (valueHistory (ops ++ [.append id i])) id c := by
  rw [history_snoc, VOp.run] at hch ⊢
  generalize valueHistory ops = h at *
  have main : ∀ n n', h[id]? = some n → h.append id i = h.set id n' → (∀ j ∈ VNode.refs n, j ∈ VNode.refs n') → i ∈ VNode.refs n' →
      ¬ Contains (h.append id i) id c := by
    intro n n' hn he hs hin
    rw [he]
    have r1 : Refers (h.set id n') id i := ⟨n', get_set_self hn n', hin⟩
    have r2 : Inside (h.set id n') i id := by
      refine Relation.ReflTransGen.mono ?_ _ _ hi
      rintro a b ⟨m, hm, hb⟩
      by_cases e : a = id
      · subst e
        rw [hn] at hm
        obtain rfl := Option.some.inj hm
        exact ⟨n', get_set_self hn n', hs b hb⟩
      · exact ⟨m, by rw [set_agree h id n' a e]; exact hm, hb⟩
    rintro ⟨f, hf⟩
    exact not_cyclic (Relation.TransGen.head' r1 r2) f c hf
  unfold VHeap.append at hch
  cases hn : h[id]? with
  | none => simp [hn] at hch
  | some n =>
    cases n with
    | array l e b est =>
      simp only [hn] at hch
      split at hch
      · rename_i hv
        exact main _ (.array (l ++ [i]) false b (est + h.est i)) hn (by simp only [VHeap.append, hn, hv, if_true])
          (fun j hj => List.mem_append_left _ hj) (by simp [VNode.refs])
      · exact absurd rfl hch
    | list l e b est =>
      simp only [hn] at hch
      split at hch
      · rename_i hv
        exact main _ (.list (l ++ [i]) false b (est + h.est i)) hn (by simp only [VHeap.append, hn, hv, if_true])
          (fun j hj => List.mem_append_left _ hj) (by simp [VNode.refs])
      · exact absurd rfl hch
    | _ => simp [hn] at hch

/-- C116: each setter of a record replaces its own part; the others stay. -/
theorem C116_setters (ops : List VOp) (id : Nat) (k : Option KeyObj) (v s : Option CVal) (t R S : Option Int)
    (hc : Contains (valueHistory ops) id (.inr (.record k v s t R S))) :
    (∀ k', Contains (valueHistory (ops ++ [.setKey id k'])) id (.inr (.record (some (bareKey k')) v s t R S))) ∧
    (∀ i v', Contains (valueHistory ops) i (.inl v') → ¬ Inside (valueHistory ops) i id →
      Contains (valueHistory (ops ++ [.setValue id i])) id (.inr (.record k (some v') s t R S))) ∧
    (∀ i v', Contains (valueHistory ops) i (.inl v') → ¬ Inside (valueHistory ops) i id →
      Contains (valueHistory (ops ++ [.setScheme id i])) id (.inr (.record k v (some v') t R S))) ∧
    (∀ t', Contains (valueHistory (ops ++ [.setTimestamp id t'])) id (.inr (.record k v s t' R S))) ∧
    ∀ R' S', Contains (valueHistory (ops ++ [.setSignature id R' S'])) id (.inr (.record k v s t R' S')) := by
  simp only [history_snoc, VOp.run]
  generalize valueHistory ops = h at *
  obtain ⟨f, r, hn, rfl, hv, hs, rfl, rfl, rfl⟩ := record_inv hc
  have h1 : ∀ j, r.value = some j → ¬ Inside h j id := fun j hj => not_inside_ref hc hn (by simp [VNode.refs, hj])
  have h2 : ∀ j, r.scheme = some j → ¬ Inside h j id := fun j hj => not_inside_ref hc hn (by simp [VNode.refs, hj])
  have main : ∀ r' : RecNode, r'.value = r.value → r'.scheme = r.scheme →
      Contains (h.set id (.record r')) id (.inr (.record (r'.key.map bareKey) v s r'.timestamp r'.sigR r'.sigS)) := by
    intro r' e1 e2
    have ag := set_agree h id (.record r')
    refine ⟨f + 1, ?_⟩
    rw [unfold, get_set_self hn]
    simp only [e1, e2]
    rw [part_frame ag h1 (le_refl f) hv, part_frame ag h2 (le_refl f) hs]
    rfl
  refine ⟨fun k' => ?_, fun i v' hi hnot => ?_, fun i v' hi hnot => ?_, fun t' => ?_, fun R' S' => ?_⟩
  · simp only [VHeap.setKey, hn]
    exact main { r with key := some k', encoded := false, estKey := k'.estBufSize } rfl rfl
  · simp only [VHeap.setValue, hn, isValue_of_contains hi, if_true]
    obtain ⟨g, hg⟩ := hi
    have ag := set_agree h id (.record { r with value := some i, encoded := false, estValue := h.est i })
    refine ⟨max f g + 1, ?_⟩
    rw [unfold, get_set_self hn]
    simp only
    rw [part_frame ag h2 (le_max_left f g) hs]
    simp [unfoldPart, unfold_frame ag hnot, unfold_le (le_max_right f g) hg]
  · simp only [VHeap.setScheme, hn, isValue_of_contains hi, if_true]
    obtain ⟨g, hg⟩ := hi
    have ag := set_agree h id (.record { r with scheme := some i, encoded := false, estScheme := h.est i })
    refine ⟨max f g + 1, ?_⟩
    rw [unfold, get_set_self hn]
    simp only
    rw [part_frame ag h1 (le_max_left f g) hv]
    simp [unfoldPart, unfold_frame ag hnot, unfold_le (le_max_right f g) hg]
  · simp only [VHeap.setTimestamp, hn]
    exact main { r with timestamp := t', encoded := false } rfl rfl
  · simp only [VHeap.setSignature, hn]
    exact main { r with sigR := R', sigS := S', encoded := false } rfl rfl

/-- C116: nothing else changes: an object that neither is the changed one nor contains it contains what it did. -/
theorem C116_frame (ops : List VOp) (op : VOp) (k : Nat) (hk : k < (valueHistory ops).length)
    (hop : ∀ x, op.changes = some x → ¬ Inside (valueHistory ops) k x) (c : Content) :
    Contains (valueHistory (ops ++ [op])) k c ↔ Contains (valueHistory ops) k c := by
  rw [history_snoc]
  by_cases hen : ∃ id d, op = .encode id d
  · obtain ⟨id, d, rfl⟩ := hen
    exact (encode_outcome d (valueHistory ops) id).same.contains
  · have agree : ∀ j, Inside (valueHistory ops) k j → (op.run (valueHistory ops))[j]? = (valueHistory ops)[j]? := by
      intro j hj
      rcases run_get (valueHistory ops) op (fun id d h => hen ⟨id, d, h⟩) j with h | ⟨h, -⟩ | ⟨h, -⟩
      · exact h
      · exfalso
        rw [List.getElem?_eq_none_iff] at h
        rcases Relation.reflTransGen_iff_eq_or_transGen.mp hj with rfl | hj
        · omega
        · obtain ⟨a, -, ha⟩ := Relation.TransGen.tail'_iff.mp hj
          obtain ⟨m, hm⟩ := refs_exist (typed_history ops) ha
          have := (List.getElem?_eq_some_iff.mp hm).1
          omega
      · exact absurd hj (hop j h)
    exact exists_congr fun f => by rw [unfold_agree f agree]

/-! ### C117: DeleteAt -/

/-- The full claim of C117: every element of an array can be deleted. -/
def DeleteAtExact : Prop :=
  ∀ (ops : List VOp) (id idx : Nat) (vs : List CVal), Contains (valueHistory ops) id (.inl (.array vs)) → idx < 65536 → idx < vs.length →
    ((valueHistory ops).deleteAt id idx).2 = .ok () ∧
      Contains (valueHistory (ops ++ [.deleteAt id idx])) id (.inl (.array (vs.eraseIdx idx)))

/-- C117: `DeleteAt` panics exactly if the index is not below the size as a 16 bit number; otherwise just the element at the index is
gone. -/
theorem C117_value_partial (ops : List VOp) (id idx : Nat) (vs : List CVal) (hc : Contains (valueHistory ops) id (.inl (.array vs))) :
    (idx < vs.length % 65536 → ((valueHistory ops).deleteAt id idx).2 = .ok () ∧
      Contains (valueHistory (ops ++ [.deleteAt id idx])) id (.inl (.array (vs.eraseIdx idx)))) ∧
    (¬ idx < vs.length % 65536 → (valueHistory ops).deleteAt id idx = (valueHistory ops, .panic)) := by
  rw [history_snoc, VOp.run]
  generalize valueHistory ops = h at *
  obtain ⟨f, l, en, b, est, hn, hf⟩ := array_inv hc
  have hlen := unfoldAll_length hf
  constructor
  · intro hlt
    have hlt' : ¬ idx ≥ l.length % 65536 := by rw [← hlen]; omega
    simp only [VHeap.deleteAt, hn, if_neg hlt', true_and]
    have e : (idx + 1) % 65536 = idx + 1 := by omega
    rw [e]
    have ag := set_agree h id (.array (l.take idx ++ l.drop (idx + 1)) false b (est - h.est (l.getD idx 0)))
    refine ⟨f + 1, ?_⟩
    rw [unfold, get_set_self hn]
    simp only [Option.map_eq_some_iff, Sum.inl.injEq, CVal.array.injEq, exists_eq_right]
    have q := elems_frame (l := l) ag (fun j hj => not_inside_ref hc hn hj) (le_refl f) hf
    rw [unfoldAll_append, (unfoldAll_take_drop q idx).1, (unfoldAll_take_drop q (idx + 1)).2, List.eraseIdx_eq_take_drop_succ]
    rfl
  · intro hge
    simp only [VHeap.deleteAt, hn]
    rw [if_pos (by rw [← hlen]; omega)]

/-- C117: the same for lists of records. -/
theorem C117_record_partial (ops : List VOp) (id idx : Nat) (rs : List CRec) (hc : Contains (valueHistory ops) id (.inl (.records rs))) :
    (idx < rs.length % 65536 → ((valueHistory ops).deleteAt id idx).2 = .ok () ∧
      Contains (valueHistory (ops ++ [.deleteAt id idx])) id (.inl (.records (rs.eraseIdx idx)))) ∧
    (¬ idx < rs.length % 65536 → (valueHistory ops).deleteAt id idx = (valueHistory ops, .panic)) := by
  rw [history_snoc, VOp.run]
  generalize valueHistory ops = h at *
  obtain ⟨f, l, en, b, est, hn, hf⟩ := list_inv hc
  have hlen := unfoldAll_length hf
  constructor
  · intro hlt
    have hlt' : ¬ idx ≥ l.length % 65536 := by rw [← hlen]; omega
    simp only [VHeap.deleteAt, hn, if_neg hlt', true_and]
    have e : (idx + 1) % 65536 = idx + 1 := by omega
    rw [e]
    have ag := set_agree h id (.list (l.take idx ++ l.drop (idx + 1)) false b (est - h.est (l.getD idx 0)))
    refine ⟨f + 1, ?_⟩
    rw [unfold, get_set_self hn]
    simp only [Option.map_eq_some_iff, Sum.inl.injEq, CVal.records.injEq, exists_eq_right]
    have q := elems_frame (l := l) ag (fun j hj => not_inside_ref hc hn hj) (le_refl f) hf
    rw [unfoldAll_append, (unfoldAll_take_drop q idx).1, (unfoldAll_take_drop q (idx + 1)).2, List.eraseIdx_eq_take_drop_succ]
    rfl
  · intro hge
    simp only [VHeap.deleteAt, hn]
    rw [if_pos (by rw [← hlen]; omega)]

/-- An array with a primitive as each of its elements. -/
def repeatOps (n : Nat) : List VOp := [.new .array, .new (.prim (some [7]))] ++ List.replicate n (.append 0 1)

theorem repeatOps_contains (n : Nat) : Contains (valueHistory (repeatOps n)) 0 (.inl (.array (List.replicate n (.prim (some [7]))))) ∧
    (valueHistory (repeatOps n))[1]? = some (.prim (some [7]) false []) := by
  induction n with
  | zero => exact ⟨⟨2, rfl⟩, rfl⟩
  | succ n ih =>
    obtain ⟨h1, h2⟩ := ih
    have e : repeatOps (n + 1) = repeatOps n ++ [.append 0 1] := by
      simp [repeatOps, List.replicate_succ']
    rw [e, List.replicate_succ']
    have hp : Contains (valueHistory (repeatOps n)) 1 (.inl (.prim (some [7]))) := ⟨1, by simp [unfold, h2]⟩
    have hni : ¬ Inside (valueHistory (repeatOps n)) 1 0 := by
      intro hi
      rcases Relation.reflTransGen_iff_eq_or_transGen.mp hi with e | hi
      · simp at e
      · obtain ⟨b, ⟨m, hm, hb⟩, -⟩ := Relation.TransGen.head'_iff.mp hi
        rw [h2] at hm
        obtain rfl := Option.some.inj hm
        simp [VNode.refs] at hb
    refine ⟨C116_append_value _ 0 1 _ _ h1 hp hni, ?_⟩
    rw [history_snoc]
    rcases run_get (valueHistory (repeatOps n)) (.append 0 1) (by simp) 1 with h | ⟨h, -⟩ | ⟨h, -⟩
    · rw [h, h2]
    · simp [h2] at h
    · simp [VOp.changes] at h

/-- C117 as stated does not hold: nothing can be deleted from an array of 65536 elements. -/
theorem C117_refuted : ¬ DeleteAtExact := by
  intro H
  obtain ⟨hc, -⟩ := repeatOps_contains 65536
  obtain ⟨h1, -⟩ := H (repeatOps 65536) 0 0 _ hc (by decide) (by rw [List.length_replicate]; decide)
  have := (C117_value_partial (repeatOps 65536) 0 0 _ hc).2 (by rw [List.length_replicate]; decide)
  rw [this] at h1
  simp at h1

/-- A record and what is put into it. -/
def editOps : List VOp := [.new .array, .new (.prim (some [7])), .append 0 1, .new .record, .setValue 2 0, .new .list]

example : Contains (valueHistory editOps) 2 (.inr (.record none (some (.array [.prim (some [7])])) none none none none)) ∧
    Contains (valueHistory editOps) 3 (.inl (.records [])) ∧ Contains (valueHistory editOps) 0 (.inl (.array [.prim (some [7])])) ∧
    Contains (valueHistory editOps) 1 (.inl (.prim (some [7]))) :=
  ⟨⟨4, rfl⟩, ⟨1, rfl⟩, ⟨3, rfl⟩, ⟨2, rfl⟩⟩

theorem editOps_apart : ¬ Inside (valueHistory editOps) 2 3 ∧ ¬ Inside (valueHistory editOps) 1 0 := by
  have key : ∀ a b, Inside (valueHistory editOps) a b → a = b ∨ (a = 0 ∧ b = 1) ∨ (a = 2 ∧ b ≤ 1) := by
    intro a b hab
    induction hab with
    | refl => simp
    | tail _ hr ih =>
      obtain ⟨n, hn, hj⟩ := hr
      rename_i b c hab
      have hb := (List.getElem?_eq_some_iff.mp hn).1
      have hl : (valueHistory editOps).length = 4 := rfl
      have : b = 0 ∨ b = 1 ∨ b = 2 ∨ b = 3 := by omega
      rcases this with rfl | rfl | rfl | rfl
      · have : n = .array [1] false [] 3 := by simpa using hn.symm.trans (by decide +kernel : _ = some (VNode.array [1] false [] 3))
        subst this
        simp [VNode.refs] at hj
        omega
      · have : n = .prim (some [7]) false [] := by simpa using hn.symm.trans (by decide +kernel : _ = some (VNode.prim (some [7]) false []))
        subst this
        simp [VNode.refs] at hj
      · have e : (valueHistory editOps)[2]? = some (.record ⟨none, some 0, none, none, none, none, false, [], 0, 3, 0⟩) := by decide +kernel
        rw [e] at hn
        obtain rfl := Option.some.inj hn
        simp [VNode.refs] at hj
        omega
      · have : n = .list [] false [] 1 := by simpa using hn.symm.trans (by decide +kernel : _ = some (VNode.list [] false [] 1))
        subst this
        simp [VNode.refs] at hj
  exact ⟨fun h => by have := key _ _ h; omega, fun h => by have := key _ _ h; omega⟩

example : Inside (valueHistory editOps) 0 0 ∧ valueHistory (editOps ++ [.append 0 0]) ≠ valueHistory editOps :=
  ⟨.refl, by decide +kernel⟩

example := C116_append_cycle editOps 0 0 .refl (by decide +kernel)

example := C116_setters editOps 2 none (some (.array [.prim (some [7])])) none none none none ⟨4, rfl⟩

example := C117_value_partial editOps 0 0 [.prim (some [7])] ⟨3, rfl⟩

example := C117_record_partial editOps 3 0 [] ⟨1, rfl⟩

example := C116_append_value editOps 0 1 [.prim (some [7])] (.prim (some [7])) ⟨3, rfl⟩ ⟨2, rfl⟩ editOps_apart.2

example := C116_append_record editOps 3 2 [] (.record none (some (.array [.prim (some [7])])) none none none none) ⟨1, rfl⟩ ⟨4, rfl⟩ editOps_apart.1

example := C116_frame editOps (.deleteAt 0 0) 1 (by decide +kernel) (fun x hx => by cases hx; exact editOps_apart.2)

end Poodle.Props
