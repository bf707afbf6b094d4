import Verif.Spec.KeyShare
import Verif.Props.ObjCopy
import Verif.Props.Key

/-
C192: records that refer to keys which the program and other records refer to as well.
-/

namespace Poodle.Props
open Poodle Spec

/-! ### Single calls -/

/-- How a key object may change: its encoding, and new sub keys at the end of a `Key`. -/
def GrownTo (k k' : KeyObj) (extra : List Slice) : Prop :=
  match k with
  | .key x => ∃ x', k' = .key x' ∧ x'.keys = x.keys ++ extra
  | _ => k' = k

theorem GrownTo.refl (k : KeyObj) : GrownTo k k [] := by cases k <;> simp [GrownTo]

theorem GrownTo.trans {a b c : KeyObj} {l m : List Slice} (h : GrownTo a b l) (g : GrownTo b c m) : GrownTo a c (l ++ m) := by
  cases a with
  | key x =>
    obtain ⟨x', rfl, e⟩ := h
    obtain ⟨x'', rfl, e'⟩ := g
    exact ⟨x'', rfl, by rw [e', e, List.append_assoc]⟩
  | empty => cases h; exact g
  | mapped _ => cases h; exact g

theorem GrownTo.bare {k k' : KeyObj} (h : GrownTo k k' []) : bareKey k' = bareKey k := by
  cases k with
  | key x => obtain ⟨x', rfl, e⟩ := h; simp [bareKey, e]
  | empty => cases h; rfl
  | mapped _ => cases h; rfl

theorem grown_encode (k : KeyObj) : GrownTo k k.encode.1 [] := by
  cases k with
  | key x =>
    refine ⟨x.encode.1, rfl, ?_⟩
    rw [key_encode_eq]
    split <;> simp
  | empty => rfl
  | mapped _ => rfl

theorem grown_encodedKey {o : Option KeyObj} {k k' : KeyObj} (ho : o = some k) (h : encodedKey o = some k') : GrownTo k k' [] := by
  subst ho
  simp only [encodedKey] at h
  split at h
  · cases h; exact .refl _
  · cases h; exact grown_encode k

/-- The sub keys that a call adds to a key object. -/
def addedBy (c : KCall) (i : Nat) : List Slice :=
  match c with
  | .add j s => if j = i ∧ s.bytes ≠ [] then [s] else []
  | _ => []

theorem get_append_left {α : Type} {l m : List α} {i : Nat} {a : α} (h : l[i]? = some a) : (l ++ m)[i]? = some a := by
  rw [List.getElem?_append_left (List.getElem?_eq_some_iff.mp h).1, h]

/-- A call on a key object: only `Add` changes the sub keys. -/
theorem keys_step (w : KWorld) (c : KCall) (i : Nat) (k : KeyObj) (hk : w.keys[i]? = some k) :
    ∃ k', (c.run w).1.keys[i]? = some k' ∧ GrownTo k k' (addedBy c i) := by
  have hi := (List.getElem?_eq_some_iff.mp hk).1
  cases c with
  | newKey => exact ⟨k, get_append_left hk, .refl k⟩
  | newSimpleKey s => exact ⟨k, get_append_left hk, .refl k⟩
  | newEmptyKey => exact ⟨k, get_append_left hk, .refl k⟩
  | newMappedKey buf =>
    refine ⟨k, ?_, .refl k⟩
    rw [KCall.run]
    rcases Poodle.newMappedKey buf with ⟨m, n⟩ | - | -
    · exact get_append_left hk
    · exact hk
    · exact hk
  | add j s =>
    rw [KCall.run, KWorld.add]
    by_cases hj : j = i
    · subst hj
      rw [hk]
      cases k with
      | key x =>
        simp only [Key.add]
        by_cases hs : s.bytes.length = 0
        · rw [if_pos hs]
          refine ⟨_, hk, x, rfl, ?_⟩
          simp [addedBy, List.length_eq_zero_iff.mp hs]
        · rw [if_neg hs]
          refine ⟨_, List.getElem?_set_self hi, _, rfl, ?_⟩
          simp [addedBy, show s.bytes ≠ [] by rintro h; simp [h] at hs]
      | empty => exact ⟨_, hk, rfl⟩
      | mapped _ => exact ⟨_, hk, rfl⟩
    · have e : addedBy (.add j s) i = [] := by simp [addedBy, hj]
      rw [e]
      refine ⟨k, ?_, .refl k⟩
      split
      · split
        · simp only
          rw [List.getElem?_set_ne hj, hk]
        · exact hk
      · exact hk
  | encodeKey j =>
    rw [KCall.run, KWorld.encodeKey]
    by_cases hj : j = i
    · subst hj
      rw [hk]
      exact ⟨_, List.getElem?_set_self hi, grown_encode k⟩
    · refine ⟨k, ?_, .refl k⟩
      split
      · simp only
        rw [List.getElem?_set_ne hj, hk]
      · exact hk
  | newRecord => exact ⟨k, hk, .refl k⟩
  | setKey r j =>
    refine ⟨k, ?_, .refl k⟩
    rw [KCall.run, KWorld.setKey]
    split
    · exact hk
    · split <;> exact hk
  | setK r s =>
    refine ⟨k, ?_, .refl k⟩
    rw [KCall.run, KWorld.setK]
    split
    · exact hk
    · split
      · exact get_append_left hk
      · exact hk
  | setValue r v e => refine ⟨k, ?_, .refl k⟩; rw [KCall.run, KWorld.setValue]; split <;> exact hk
  | setScheme r v e => refine ⟨k, ?_, .refl k⟩; rw [KCall.run, KWorld.setScheme]; split <;> exact hk
  | setTimestamp r t => refine ⟨k, ?_, .refl k⟩; rw [KCall.run, KWorld.setTimestamp]; split <;> exact hk
  | setSignature r R S => refine ⟨k, ?_, .refl k⟩; rw [KCall.run, KWorld.setSignature]; split <;> exact hk
  | encode r =>
    rw [KCall.run, KWorld.encode]
    rcases hr : w.recs[r]? with - | x
    · exact ⟨k, hk, .refl k⟩
    · simp only
      have main : ∃ k', (match x.key, encodedKey (w.keyOf x) with
          | some i, some k => w.keys.set i k
          | _, _ => w.keys)[i]? = some k' ∧ GrownTo k k' [] := by
        rcases hx : x.key with - | j
        · exact ⟨k, hk, .refl k⟩
        · rcases he : encodedKey (w.keyOf x) with - | k1
          · exact ⟨k, hk, .refl k⟩
          · by_cases hj : j = i
            · subst hj
              refine ⟨k1, List.getElem?_set_self hi, ?_⟩
              exact grown_encodedKey (k := k) (by rw [KWorld.keyOf, hx]; exact hk) he
            · refine ⟨k, ?_, .refl k⟩
              simp only
              rw [List.getElem?_set_ne hj, hk]
      split <;> exact main
  | copy r =>
    refine ⟨k, ?_, .refl k⟩
    rw [KCall.run, KWorld.copy]
    split
    · exact hk
    · split
      · split
        · split
          · exact get_append_left hk
          · exact hk
        · exact hk
      · exact hk

theorem set_self_get {α : Type} {l : List α} {r j : Nat} {a x : α} (h : l[r]? = some x) (hj : j ≠ r) : (l.set j a)[r]? = some x := by
  rw [List.getElem?_set_ne hj, h]

/-- A call on a record object: only its setters and its `Encode` change it. -/
theorem recs_step (w : KWorld) (c : KCall) (r : Nat) (x : KRec) (hx : w.recs[r]? = some x) (hs : c.sets r = false) :
    (c.run w).1.recs[r]? = some x ∨ c = .encode r := by
  cases c with
  | newKey => exact .inl hx
  | newSimpleKey s => exact .inl hx
  | newEmptyKey => exact .inl hx
  | newMappedKey buf => left; rw [KCall.run]; split <;> exact hx
  | add j s =>
    left
    rw [KCall.run, KWorld.add]
    split
    · split <;> exact hx
    · exact hx
  | encodeKey j => left; rw [KCall.run, KWorld.encodeKey]; split <;> exact hx
  | newRecord => exact .inl (get_append_left hx)
  | setKey r' j =>
    left
    have hn : r' ≠ r := by rintro rfl; simp [KCall.sets] at hs
    rw [KCall.run, KWorld.setKey]
    split
    · exact hx
    · split <;> exact set_self_get hx hn
  | setK r' s =>
    left
    rw [KCall.run, KWorld.setK]
    split
    · exact hx
    · by_cases hs' : s.bytes.length = 0
      · simp only [Key.add, if_pos hs']
        exact hx
      · have hn : r' ≠ r := by
          rintro rfl
          simp [KCall.sets] at hs
          simp [hs] at hs'
        split
        · exact set_self_get hx hn
        · exact hx
  | setValue r' v e =>
    left
    have hn : r' ≠ r := by rintro rfl; simp [KCall.sets] at hs
    rw [KCall.run, KWorld.setValue]
    split
    · exact hx
    · exact set_self_get hx hn
  | setScheme r' v e =>
    left
    have hn : r' ≠ r := by rintro rfl; simp [KCall.sets] at hs
    rw [KCall.run, KWorld.setScheme]
    split
    · exact hx
    · exact set_self_get hx hn
  | setTimestamp r' t =>
    left
    have hn : r' ≠ r := by rintro rfl; simp [KCall.sets] at hs
    rw [KCall.run, KWorld.setTimestamp]
    split
    · exact hx
    · exact set_self_get hx hn
  | setSignature r' R S =>
    left
    have hn : r' ≠ r := by rintro rfl; simp [KCall.sets] at hs
    rw [KCall.run, KWorld.setSignature]
    split
    · exact hx
    · exact set_self_get hx hn
  | encode r' =>
    by_cases hn : r' = r
    · right; rw [hn]
    · left
      rw [KCall.run, KWorld.encode]
      split
      · exact hx
      · simp only
        split
        · exact set_self_get hx hn
        · exact hx
        · exact hx
  | copy r' =>
    left
    rw [KCall.run, KWorld.copy]
    split
    · exact hx
    · split
      · split
        · split
          · exact get_append_left hx
          · exact hx
        · exact hx
      · exact hx

/-- `Encode` of a record: the outcome is that of encoding its content, and only its bytes change. -/
theorem encode_step (w : KWorld) (r : Nat) (x : KRec) (hx : w.recs[r]? = some x) :
    ((∃ b, (CRec.record (w.keyOf x) x.value x.scheme x.timestamp x.sigR x.sigS).encode = .ok b ∧ (w.encode r).2 = .ok () ∧
        (w.encode r).1.recs = w.recs.set r { x with buf := b, encoded := true }) ∨
      ((CRec.record (w.keyOf x) x.value x.scheme x.timestamp x.sigR x.sigS).encode = .err ∧ (w.encode r).2 = .err ∧
        (w.encode r).1.recs = w.recs) ∨
      ((CRec.record (w.keyOf x) x.value x.scheme x.timestamp x.sigR x.sigS).encode = .panic ∧ (w.encode r).2 = .panic ∧
        (w.encode r).1.recs = w.recs)) := by
  simp only [KWorld.encode, hx]
  rcases he : (CRec.record (w.keyOf x) x.value x.scheme x.timestamp x.sigR x.sigS).encode with b | - | -
  · left; exact ⟨b, rfl, rfl, rfl⟩
  · right; left; exact ⟨rfl, rfl, rfl⟩
  · right; right; exact ⟨rfl, rfl, rfl⟩

/-- The content of a record encodes like the record. -/
theorem content_encode (k : Option KeyObj) (v s : Option CVal) (t R S : Option Int) :
    (CRec.record (k.map bareKey) v s t R S).encode = (CRec.record k v s t R S).encode := by
  rw [CRec.encode, CRec.encode, recKeyPart_bare]

/-! ### Well-formed worlds -/

/-- Records refer to existing keys. -/
def Linked (w : KWorld) : Prop := ∀ (r : Nat) (x : KRec) (i : Nat), w.recs[r]? = some x → x.key = some i → i < w.keys.length

theorem keys_mono (w : KWorld) (c : KCall) : w.keys.length ≤ (c.run w).1.keys.length := by
  by_contra h
  have hl : (c.run w).1.keys.length < w.keys.length := by omega
  obtain ⟨k', h1, -⟩ := keys_step w c (c.run w).1.keys.length _ (List.getElem?_eq_getElem hl)
  simp at h1

theorem linked_set {w : KWorld} (h : Linked w) {keys : List KeyObj} (hl : w.keys.length ≤ keys.length) {r : Nat} {y : KRec}
    (hy : ∀ i, y.key = some i → i < keys.length) : Linked ⟨keys, w.recs.set r y⟩ := by
  intro r' x i hx hi
  simp only at hx ⊢
  by_cases e : r = r'
  · subst e
    by_cases hr : r < w.recs.length
    · rw [List.getElem?_set_self hr] at hx
      cases hx
      exact hy i hi
    · rw [List.getElem?_eq_none (by simpa using hr)] at hx
      cases hx
  · rw [List.getElem?_set_ne e] at hx
    have := h r' x i hx hi
    omega

theorem linked_same {w w' : KWorld} (h : Linked w) (hl : w.keys.length ≤ w'.keys.length) (hr : w'.recs = w.recs) : Linked w' := by
  intro r x i hx hi
  rw [hr] at hx
  have := h r x i hx hi
  omega

theorem linked_append {w : KWorld} (h : Linked w) {keys : List KeyObj} (hl : w.keys.length ≤ keys.length) {y : KRec}
    (hy : ∀ i, y.key = some i → i < keys.length) : Linked ⟨keys, w.recs ++ [y]⟩ := by
  intro r x i hx hi
  simp only at hx ⊢
  rcases lt_trichotomy r w.recs.length with hlt | rfl | hgt
  · rw [List.getElem?_append_left hlt] at hx
    have := h r x i hx hi
    omega
  · rw [List.getElem?_append_right (Nat.le_refl _)] at hx
    simp at hx
    subst hx
    exact hy i hi
  · rw [List.getElem?_eq_none (by simp; omega)] at hx
    cases hx

theorem linked_step (w : KWorld) (c : KCall) (h : Linked w) : Linked (c.run w).1 := by
  have hm := keys_mono w c
  cases c with
  | newKey => exact linked_same h hm rfl
  | newSimpleKey s => exact linked_same h hm rfl
  | newEmptyKey => exact linked_same h hm rfl
  | newMappedKey buf => refine linked_same h hm ?_; rw [KCall.run]; split <;> rfl
  | add j s =>
    refine linked_same h hm ?_
    rw [KCall.run, KWorld.add]
    split
    · split <;> rfl
    · rfl
  | encodeKey j => refine linked_same h hm ?_; rw [KCall.run, KWorld.encodeKey]; split <;> rfl
  | newRecord => exact linked_append h (Nat.le_refl _) (by simp [KRec.new])
  | setKey r j =>
    rw [KCall.run, KWorld.setKey]
    split
    · exact h
    · split
      · exact linked_set h (Nat.le_refl _) (by simp)
      · rename_i hk
        refine linked_set h (Nat.le_refl _) ?_
        intro i hi
        simp only [Option.some.injEq] at hi
        subst hi
        exact (List.getElem?_eq_some_iff.mp hk).1
  | setK r s =>
    rw [KCall.run, KWorld.setK]
    split
    · exact h
    · split
      · refine linked_set h (by simp) ?_
        intro i hi
        simp only [Option.some.injEq] at hi
        simp only [List.length_append, List.length_singleton]
        omega
      · exact h
  | setValue r v e =>
    rw [KCall.run, KWorld.setValue]
    split
    · exact h
    · rename_i x hx
      exact linked_set h (Nat.le_refl _) (fun i hi => h r x i hx hi)
  | setScheme r v e =>
    rw [KCall.run, KWorld.setScheme]
    split
    · exact h
    · rename_i x hx
      exact linked_set h (Nat.le_refl _) (fun i hi => h r x i hx hi)
  | setTimestamp r t =>
    rw [KCall.run, KWorld.setTimestamp]
    split
    · exact h
    · rename_i x hx
      exact linked_set h (Nat.le_refl _) (fun i hi => h r x i hx hi)
  | setSignature r R S =>
    rw [KCall.run, KWorld.setSignature]
    split
    · exact h
    · rename_i x hx
      exact linked_set h (Nat.le_refl _) (fun i hi => h r x i hx hi)
  | encode r =>
    rw [KCall.run] at hm ⊢
    rcases hx : w.recs[r]? with - | x
    · simp only [KWorld.encode, hx]; exact h
    · rcases encode_step w r x hx with ⟨b, -, -, e⟩ | ⟨-, -, e⟩ | ⟨-, -, e⟩
      · have := linked_set h hm (r := r) (y := { x with buf := b, encoded := true })
          (fun i hi => Nat.lt_of_lt_of_le (h r x i hx hi) hm)
        rw [← e] at this
        exact this
      · exact linked_same h hm e
      · exact linked_same h hm e
  | copy r =>
    rw [KCall.run, KWorld.copy]
    split
    · exact h
    · split
      · split
        · split
          · refine linked_append h (by simp) ?_
            intro i hi
            simp only [Option.map_eq_some_iff] at hi
            obtain ⟨k0, hk0, rfl⟩ := hi
            rw [hk0]
            simp
          · exact h
        · exact h
      · exact h

theorem sharing_snoc (p : List KCall) (c : KCall) : sharing (p ++ [c]) = (c.run (sharing p)).1 := by simp [sharing]

theorem sharing_append (p q : List KCall) : sharing (p ++ q) = q.foldl (fun w c => (c.run w).1) (sharing p) := by simp [sharing]

theorem linked_sharing (p : List KCall) : Linked (sharing p) := by
  induction p using List.reverseRecOn with
  | nil => intro r x i hx; simp [sharing] at hx
  | append_singleton p c ih => rw [sharing_snoc]; exact linked_step _ _ ih

/-! ### Programs -/

/-- All sub keys that calls add to a key object. -/
def addedByAll (q : List KCall) (i : Nat) : List Slice := q.flatMap (addedBy · i)

theorem keys_steps (q : List KCall) : ∀ (w : KWorld) (i : Nat) (k : KeyObj), w.keys[i]? = some k →
    ∃ k', (q.foldl (fun w c => (c.run w).1) w).keys[i]? = some k' ∧ GrownTo k k' (addedByAll q i) := by
  induction q with
  | nil => intro w i k hk; exact ⟨k, hk, .refl k⟩
  | cons c q ih =>
    intro w i k hk
    obtain ⟨k1, h1, g1⟩ := keys_step w c i k hk
    obtain ⟨k2, h2, g2⟩ := ih _ i k1 h1
    refine ⟨k2, h2, ?_⟩
    have := g1.trans g2
    simpa [addedByAll] using this

theorem recs_steps (q : List KCall) : ∀ (w : KWorld) (r : Nat) (x : KRec), w.recs[r]? = some x → (∀ c ∈ q, c.sets r = false) →
    (∀ c ∈ q, c.encodes r = false) → (q.foldl (fun w c => (c.run w).1) w).recs[r]? = some x := by
  induction q with
  | nil => intro w r x hx _ _; exact hx
  | cons c q ih =>
    intro w r x hx hs he
    rcases recs_step w c r x hx (hs c (by simp)) with h1 | rfl
    · exact ih _ r x h1 (fun d hd => hs d (by simp [hd])) (fun d hd => he d (by simp [hd]))
    · have := he _ (List.mem_cons_self ..)
      simp [KCall.encodes] at this

theorem addedByAll_nil (q : List KCall) (i : Nat) : addedByAll q i = [] ↔ ∀ c ∈ q, c.adds i = false := by
  simp only [addedByAll, List.flatMap_eq_nil_iff]
  refine forall_congr' fun c => forall_congr' fun _ => ?_
  cases c <;> simp [addedBy, KCall.adds]

/-! ### C192 -/

/-- The full claim of C192: an encoded record has the bytes of what it contains. -/
def RecordBytesCurrent : Prop :=
  ∀ (p : List KCall) (r : Nat), (sharing p).isEncoded r = true →
    ∃ c b, recContent (sharing p) r = some c ∧ c.encode = .ok b ∧ (sharing p).getBuf r = .ok b

/-- C192: `Encode` of a record gives the bytes of what it contains at that moment, whatever its key was used for before.  It changes
neither the content of any record nor another record. -/
theorem C192_encode (p : List KCall) (r : Nat) (c : CRec) (hc : recContent (sharing p) r = some c) :
    ((KCall.encode r).run (sharing p)).2 = c.encode.bind (fun _ => .ok ()) ∧
      (∀ b, c.encode = .ok b → (sharing (p ++ [.encode r])).isEncoded r = true ∧ (sharing (p ++ [.encode r])).getBuf r = .ok b) ∧
      (∀ r', recContent (sharing (p ++ [.encode r])) r' = recContent (sharing p) r') ∧
      ∀ r', r' ≠ r → (sharing (p ++ [.encode r])).isEncoded r' = (sharing p).isEncoded r' ∧
        (sharing (p ++ [.encode r])).getBuf r' = (sharing p).getBuf r' ∧ (sharing (p ++ [.encode r])).est r' = (sharing p).est r' := by
  have hl := linked_sharing p
  rw [sharing_snoc]
  generalize sharing p = w at *
  rcases hx : w.recs[r]? with - | x
  · simp [recContent, hx] at hc
  have ec : c.encode = (CRec.record (w.keyOf x) x.value x.scheme x.timestamp x.sigR x.sigS).encode := by
    simp only [recContent, hx, Option.map_some, Option.some.injEq] at hc
    rw [← hc, content_encode]
    rfl
  have hr := (List.getElem?_eq_some_iff.mp hx).1
  -- the records
  have hrecs : ∀ (r' : Nat) (y : KRec), w.recs[r']? = some y → ∃ y', (w.encode r).1.recs[r']? = some y' ∧
      (r' ≠ r → y' = y) ∧ y'.key = y.key ∧ y'.value = y.value ∧ y'.scheme = y.scheme ∧ y'.timestamp = y.timestamp ∧
        y'.sigR = y.sigR ∧ y'.sigS = y.sigS := by
    intro r' y hy
    rcases encode_step w r x hx with ⟨b, -, -, e⟩ | ⟨-, -, e⟩ | ⟨-, -, e⟩
    · rw [e]
      by_cases hn : r' = r
      · subst hn
        rw [hx] at hy
        cases hy
        exact ⟨_, List.getElem?_set_self hr, fun h => absurd rfl h, rfl, rfl, rfl, rfl, rfl, rfl⟩
      · exact ⟨y, set_self_get hy (Ne.symm hn), fun _ => rfl, rfl, rfl, rfl, rfl, rfl, rfl⟩
    · rw [e]; exact ⟨y, hy, fun _ => rfl, rfl, rfl, rfl, rfl, rfl, rfl⟩
    · rw [e]; exact ⟨y, hy, fun _ => rfl, rfl, rfl, rfl, rfl, rfl, rfl⟩
  have hlen : (w.encode r).1.recs.length = w.recs.length := by
    rcases encode_step w r x hx with ⟨b, -, -, e⟩ | ⟨-, -, e⟩ | ⟨-, -, e⟩ <;> rw [e]
    rw [List.length_set]
  have hnone : ∀ r' : Nat, w.recs[r']? = none → (w.encode r).1.recs[r']? = none := by
    intro r' h
    rw [List.getElem?_eq_none_iff] at h ⊢
    omega
  refine ⟨?_, ?_, ?_, ?_⟩
  · rw [KCall.run, ec]
    rcases encode_step w r x hx with ⟨b, e1, e2, -⟩ | ⟨e1, e2, -⟩ | ⟨e1, e2, -⟩ <;> rw [e1, e2] <;> rfl
  · intro b hb
    rw [ec] at hb
    rcases encode_step w r x hx with ⟨b', e1, -, e⟩ | ⟨e1, -⟩ | ⟨e1, -⟩
    · rw [e1] at hb
      cases hb
      simp only [KCall.run, KWorld.isEncoded, KWorld.getBuf, e, List.getElem?_set_self hr, if_true, and_self]
    · rw [e1] at hb; cases hb
    · rw [e1] at hb; cases hb
  · intro r'
    rcases hy : w.recs[r']? with - | y
    · rw [recContent, recContent, hy, KCall.run, hnone r' hy]; rfl
    · obtain ⟨y', h1, -, e1, e2, e3, e4, e5, e6⟩ := hrecs r' y hy
      rw [recContent, recContent, hy, KCall.run, h1]
      simp only [Option.map_some, e1, e2, e3, e4, e5, e6]
      rcases hk : y.key with - | i
      · rfl
      · have hi := hl r' y i hy hk
        obtain ⟨k', h2, g⟩ := keys_step w (.encode r) i _ (List.getElem?_eq_getElem hi)
        rw [KCall.run] at h2
        simp only [Option.bind_some, h2, List.getElem?_eq_getElem hi, Option.map_some]
        rw [GrownTo.bare g]
  · intro r' hn
    rcases hy : w.recs[r']? with - | y
    · simp only [KWorld.isEncoded, KWorld.getBuf, KWorld.est, KCall.run, hy, hnone r' hy, and_self]
    · obtain ⟨y', h1, e, -⟩ := hrecs r' y hy
      cases e hn
      simp only [KWorld.isEncoded, KWorld.getBuf, KWorld.est, KCall.run, hy, h1, and_self]

/-- A setter makes its record not encoded. -/
theorem sets_step (w : KWorld) (c : KCall) (r : Nat) (hs : c.sets r = true) : (c.run w).1.isEncoded r = false := by
  have main : ∀ (r' : Nat) (keys : List KeyObj) (y : KRec), r' = r → y.encoded = false →
      KWorld.isEncoded ⟨keys, w.recs.set r' y⟩ r = false := by
    rintro r' keys y rfl hy
    by_cases h : r' < w.recs.length
    · simp only [KWorld.isEncoded, List.getElem?_set_self h, hy]
    · simp only [KWorld.isEncoded]
      rw [List.getElem?_eq_none (by simpa using h)]
  have gone : ∀ r' : Nat, r' = r → w.recs[r']? = none → w.isEncoded r = false := by
    rintro r' rfl h
    simp only [KWorld.isEncoded, h]
  cases c with
  | setKey r' k =>
    have hn : r' = r := by simpa [KCall.sets] using hs
    rw [KCall.run, KWorld.setKey]
    split
    · rename_i h; exact gone r' hn h
    · split <;> exact main _ _ _ hn rfl
  | setK r' s =>
    simp only [KCall.sets, Bool.and_eq_true, beq_iff_eq, Bool.not_eq_true', List.isEmpty_eq_false_iff] at hs
    rw [KCall.run, KWorld.setK]
    split
    · rename_i h; exact gone r' hs.1 h
    · have hs' : s.bytes.length ≠ 0 := by intro h; exact hs.2 (List.length_eq_zero_iff.mp h)
      simp only [Key.add, if_neg hs']
      exact main _ _ _ hs.1 rfl
  | setValue r' v e =>
    have hn : r' = r := by simpa [KCall.sets] using hs
    rw [KCall.run, KWorld.setValue]
    split
    · rename_i h; exact gone r' hn h
    · exact main _ _ _ hn rfl
  | setScheme r' v e =>
    have hn : r' = r := by simpa [KCall.sets] using hs
    rw [KCall.run, KWorld.setScheme]
    split
    · rename_i h; exact gone r' hn h
    · exact main _ _ _ hn rfl
  | setTimestamp r' t =>
    have hn : r' = r := by simpa [KCall.sets] using hs
    rw [KCall.run, KWorld.setTimestamp]
    split
    · rename_i h; exact gone r' hn h
    · exact main _ _ _ hn rfl
  | setSignature r' R S =>
    have hn : r' = r := by simpa [KCall.sets] using hs
    rw [KCall.run, KWorld.setSignature]
    split
    · rename_i h; exact gone r' hn h
    · exact main _ _ _ hn rfl
  | _ => simp [KCall.sets] at hs

/-- A new record is not encoded. -/
theorem fresh_step (w : KWorld) (c : KCall) (r : Nat) (hr : w.recs[r]? = none) : (c.run w).1.isEncoded r = false := by
  have hlen : w.recs.length ≤ r := by simpa using hr
  have same : ∀ keys : List KeyObj, KWorld.isEncoded ⟨keys, w.recs⟩ r = false := by
    intro keys; simp only [KWorld.isEncoded, hr]
  have one : ∀ (keys : List KeyObj) (y : KRec), y.encoded = false → KWorld.isEncoded ⟨keys, w.recs ++ [y]⟩ r = false := by
    intro keys y hy
    simp only [KWorld.isEncoded]
    rw [List.getElem?_append_right hlen]
    rcases Nat.eq_zero_or_pos (r - w.recs.length) with h | h
    · rw [h]; simpa using hy
    · rw [List.getElem?_eq_none (by simp only [List.length_singleton]; omega)]
  have put : ∀ (r' : Nat) (keys : List KeyObj) (y : KRec), KWorld.isEncoded ⟨keys, w.recs.set r' y⟩ r = false := by
    intro r' keys y
    simp only [KWorld.isEncoded]
    rw [List.getElem?_eq_none (by simpa using hlen)]
  have old : w.isEncoded r = false := same w.keys
  cases c with
  | newKey => exact same _
  | newSimpleKey s => exact same _
  | newEmptyKey => exact same _
  | newMappedKey buf =>
    rw [KCall.run]
    split
    · exact same _
    · exact old
    · exact old
  | add j s =>
    rw [KCall.run, KWorld.add]
    split
    · split
      · exact same _
      · exact old
    · exact old
  | encodeKey j =>
    rw [KCall.run, KWorld.encodeKey]
    split
    · exact same _
    · exact old
  | newRecord => exact one _ _ rfl
  | setKey r' j =>
    rw [KCall.run, KWorld.setKey]
    split
    · exact old
    · split <;> exact put _ _ _
  | setK r' s =>
    rw [KCall.run, KWorld.setK]
    split
    · exact old
    · split
      · exact put _ _ _
      · exact old
  | setValue r' v e =>
    rw [KCall.run, KWorld.setValue]
    split
    · exact old
    · exact put _ _ _
  | setScheme r' v e =>
    rw [KCall.run, KWorld.setScheme]
    split
    · exact old
    · exact put _ _ _
  | setTimestamp r' t =>
    rw [KCall.run, KWorld.setTimestamp]
    split
    · exact old
    · exact put _ _ _
  | setSignature r' R S =>
    rw [KCall.run, KWorld.setSignature]
    split
    · exact old
    · exact put _ _ _
  | encode r' =>
    rw [KCall.run, KWorld.encode]
    split
    · exact old
    · simp only
      split
      · exact put _ _ _
      · exact same _
      · exact same _
  | copy r' =>
    rw [KCall.run, KWorld.copy]
    split
    · exact old
    · split
      · split
        · split
          · exact one _ _ rfl
          · exact old
        · exact old
      · exact old

/-- What one call does to whether a record is encoded. -/
theorem isEncoded_step (w : KWorld) (c : KCall) (r : Nat) :
    (c.run w).1.isEncoded r = true ↔
      (c = .encode r ∧ (c.run w).2 = .ok ()) ∨ (w.isEncoded r = true ∧ c.sets r = false) := by
  rcases hx : w.recs[r]? with - | x
  · rw [fresh_step w c r hx]
    have e : w.isEncoded r = false := by simp only [KWorld.isEncoded, hx]
    simp only [e, Bool.false_eq_true, false_and, or_false, false_iff]
    rintro ⟨rfl, h⟩
    simp [KCall.run, KWorld.encode, hx] at h
  · by_cases hs : c.sets r = true
    · rw [sets_step w c r hs]
      simp only [Bool.false_eq_true, hs, Bool.true_eq_false, and_false, or_false, false_iff]
      rintro ⟨rfl, -⟩
      simp [KCall.sets] at hs
    · simp only [Bool.not_eq_true] at hs
      have hr := (List.getElem?_eq_some_iff.mp hx).1
      by_cases hc : c = .encode r
      · subst hc
        simp only [KCall.run, true_and, hs, and_true]
        rcases encode_step w r x hx with ⟨b, -, e2, e⟩ | ⟨-, e2, e⟩ | ⟨-, e2, e⟩
        · simp only [KWorld.isEncoded, e, e2, List.getElem?_set_self hr, true_or]
        · simp [KWorld.isEncoded, e, e2]
        · simp [KWorld.isEncoded, e, e2]
      · rcases recs_step w c r x hx hs with h1 | h1
        · simp only [KWorld.isEncoded, h1, hx, hs, hc, false_and, false_or, and_true]
        · exact absurd h1 hc

/-- The theorem applies to two records with one key, which was encoded and changed before. -/
example : recContent (sharing [.newKey, .add 0 (some [1]), .newRecord, .newRecord, .setKey 0 0, .setKey 1 0, .setValue 1 (.prim (some [7])) 2,
      .encode 0, .add 0 (some [2])]) 1 =
    some (.record (some (bareKey (.key ⟨false, [some [1], some [2]], none, 0⟩))) (some (.prim (some [7]))) none none none none) := rfl

/-- C192: a record is encoded exactly if some `Encode` of it succeeded and none of its setters was called since.  Calls on its key, also
`Add`, do not matter, nor does an `Encode` that fails. -/
theorem C192_encoded_iff_partial (p : List KCall) (r : Nat) :
    (sharing p).isEncoded r = true ↔ ∃ before after, p = before ++ KCall.encode r :: after ∧
      ((KCall.encode r).run (sharing before)).2 = .ok () ∧ ∀ c ∈ after, c.sets r = false := by
  induction p using List.reverseRecOn with
  | nil => simp [sharing, KWorld.isEncoded]
  | append_singleton p c ih =>
    rw [sharing_snoc, isEncoded_step, ih]
    constructor
    · rintro (⟨rfl, h⟩ | ⟨⟨before, after, rfl, h1, h2⟩, hs⟩)
      · exact ⟨p, [], rfl, h, by simp⟩
      · refine ⟨before, after ++ [c], by simp, h1, ?_⟩
        intro d hd
        rcases List.mem_append.mp hd with hd | hd
        · exact h2 d hd
        · rw [List.mem_singleton.mp hd]; exact hs
    · rintro ⟨before, after, e, h1, h2⟩
      rcases List.eq_nil_or_concat after with rfl | ⟨after, d, rfl⟩
      · left
        obtain ⟨rfl, e2⟩ := List.append_inj' e rfl
        cases e2
        exact ⟨rfl, h1⟩
      · right
        rw [List.concat_eq_append, ← List.cons_append, ← List.append_assoc] at e
        obtain ⟨rfl, e2⟩ := List.append_inj' e rfl
        cases e2
        exact ⟨⟨before, after, rfl, h1, fun d hd => h2 d (by simp [hd])⟩, h2 _ (by simp)⟩

/-- More sub keys give other bytes. -/
theorem recKeyPart_grown {x x' : Key} {extra : List Slice} (hk : x'.keys = x.keys ++ extra) (he : extra ≠ []) {m m' : UInt8} {b b' : Bytes}
    (h : recKeyPart (some (.key x)) = .ok (m, b)) (h' : recKeyPart (some (.key x')) = .ok (m', b')) : b ≠ b' := by
  rintro rfl
  have ne : x'.keys.isEmpty = false := by rw [hk]; simp [he]
  simp only [recKeyPart, KeyObj.isEmpty, ne, Bool.false_eq_true, if_false, keyPartBytes_key] at h h'
  split at h'
  swap
  · simp at h'
  rename_i hl'
  simp only [Res.bind_ok, Res.ok.injEq, Prod.mk.injEq] at h'
  obtain ⟨-, rfl⟩ := h'
  by_cases hx : x.keys.isEmpty = true
  · rw [if_pos hx] at h
    simp only [Res.ok.injEq, Prod.mk.injEq] at h
    have := congrArg List.length h.2
    have hpos : 0 < (encodeUvarint64 x'.keys.length).length := by
      rw [encodeUvarint64, putUvarint, putUvarintAux]
      split <;> simp
    simp [keyBytes] at this
    omega
  · rw [if_neg hx] at h
    split at h
    swap
    · simp at h
    rename_i hl
    simp only [Res.bind_ok, Res.ok.injEq, Prod.mk.injEq] at h
    have e := C09_key_encoding_prefix_free x _ x' _ (by rw [key_encode_eq, if_pos hl]) (by rw [key_encode_eq, if_pos hl'])
      (keyBytes x.keys) (keyBytes x'.keys) [] [] rfl rfl (by rw [h.2])
    have := congrArg List.length e.1
    simp [hk] at this
    exact he this

theorem CRec.encode_parts {k : Option KeyObj} {v s : Option CVal} {t R S : Option Int} {w : Bytes}
    (h : (CRec.record k v s t R S).encode = .ok w) : ∃ m1 b1 m2 b2 m3 b3, recKeyPart k = .ok (m1, b1) ∧
      recValuePart 5 v = .ok (m2, b2) ∧ recValuePart 4 s = .ok (m3, b3) ∧
      w = (0x00 ||| m1 ||| m2 ||| m3 ||| (timePart t R S).1) :: (b1 ++ b2 ++ b3 ++ (timePart t R S).2) := by
  rw [CRec.encode] at h
  rcases h1 : recKeyPart k with ⟨m1, b1⟩ | - | - <;> rw [h1] at h <;> simp only [Res.bind_ok, Res.bind_err, Res.bind_panic, reduceCtorEq] at h
  rcases h2 : recValuePart 5 v with ⟨m2, b2⟩ | - | - <;> rw [h2] at h <;>
    simp only [Res.bind_ok, Res.bind_err, Res.bind_panic, reduceCtorEq] at h
  rcases h3 : recValuePart 4 s with ⟨m3, b3⟩ | - | - <;> rw [h3] at h <;>
    simp only [Res.bind_ok, Res.bind_err, Res.bind_panic, reduceCtorEq] at h
  exact ⟨m1, b1, m2, b2, m3, b3, rfl, rfl, rfl, by simpa using h.symm⟩

/-- C192: after a successful `Encode` of a record and calls that are no setters of it and do not encode it again, `Buf` is the encoding of
what the record contained then.  It is the encoding of what the record contains now exactly if no sub key was added to its key, by
whoever refers to it. -/
theorem C192_partial (before after : List KCall) (r : Nat) (c : CRec) (b : Bytes) (hc : recContent (sharing before) r = some c)
    (hb : c.encode = .ok b) (hs : ∀ d ∈ after, d.sets r = false) (he : ∀ d ∈ after, d.encodes r = false) :
    let w := sharing (before ++ KCall.encode r :: after)
    w.isEncoded r = true ∧ w.getBuf r = .ok b ∧ recKey w r = recKey (sharing before) r ∧
      ∃ c', recContent w r = some c' ∧
        (c'.encode = .ok b ↔ ∀ k, recKey w r = some k → growing w k → ∀ d ∈ after, d.adds k = false) := by
  intro w
  obtain ⟨e1, e2, e3, -⟩ := C192_encode before r c hc
  obtain ⟨e4, e5⟩ := e2 b hb
  have hl := linked_sharing (before ++ [.encode r])
  have hw : w = after.foldl (fun w c => (c.run w).1) (sharing (before ++ [.encode r])) := by
    rw [← sharing_append]
    simp [w]
  have hc1 := e3 r
  rw [hc] at hc1
  have hkey : recKey (sharing (before ++ [.encode r])) r = recKey (sharing before) r := by
    rw [sharing_snoc]
    simp only [recKey, KCall.run]
    rcases hx : (sharing before).recs[r]? with - | x
    · simp [recContent, hx] at hc
    · have hr := (List.getElem?_eq_some_iff.mp hx).1
      rcases encode_step _ r x hx with ⟨b, -, -, e⟩ | ⟨-, -, e⟩ | ⟨-, -, e⟩
      · rw [e, List.getElem?_set_self hr]; rfl
      · rw [e, hx]
      · rw [e, hx]
  generalize sharing (before ++ [.encode r]) = w1 at *
  rcases hx : w1.recs[r]? with - | x
  · simp [recContent, hx] at hc1
  have hx' := recs_steps after w1 r x hx hs he
  rw [← hw] at hx'
  have hrk : recKey w r = x.key := by simp only [recKey, hx', Option.bind_some]
  refine ⟨?_, ?_, ?_, ?_⟩
  · simp only [KWorld.isEncoded, hx, hx'] at e4 ⊢; exact e4
  · simp only [KWorld.getBuf, hx, hx'] at e5 ⊢; exact e5
  · rw [← hkey, hrk]; simp only [recKey, hx, Option.bind_some]
  · refine ⟨_, by rw [recContent, hx', Option.map_some], ?_⟩
    simp only [recContent, hx, Option.map_some, Option.some.injEq] at hc1
    rw [hrk]
    rcases hk : x.key with - | i
    · rw [hk] at hc1
      simp only [Option.bind_none, Option.map_none] at hc1 ⊢
      rw [hc1]
      simp [hb]
    · have hi := hl r x i hx hk
      obtain ⟨k', h2, g⟩ := keys_steps after w1 i _ (List.getElem?_eq_getElem hi)
      rw [← hw] at h2
      rw [hk] at hc1
      simp only [Option.bind_some, List.getElem?_eq_getElem hi, Option.map_some] at hc1
      simp only [Option.bind_some, h2, Option.map_some, Option.some.injEq, forall_eq']
      have quiet : addedByAll after i = [] →
          (CRec.record (some (bareKey k')) x.value x.scheme x.timestamp x.sigR x.sigS).encode = .ok b := by
        intro hq
        rw [hq] at g
        rw [g.bare, hc1, hb]
      generalize w1.keys[i] = k at *
      constructor
      · intro hcur hgr
        rw [← addedByAll_nil]
        by_contra hne
        obtain ⟨z, hz⟩ := hgr
        rw [h2] at hz
        cases hz
        cases k with
        | empty => simp [GrownTo] at g
        | mapped m => simp [GrownTo] at g
        | key y =>
          obtain ⟨y', hy, hg⟩ := g
          cases hy
          rw [← hc1] at hb
          have q1 := content_encode (some (.key y)) x.value x.scheme x.timestamp x.sigR x.sigS
          have q2 := content_encode (some (.key z)) x.value x.scheme x.timestamp x.sigR x.sigS
          rw [Option.map_some] at q1 q2
          rw [q1] at hb
          rw [q2] at hcur
          obtain ⟨m1, b1, m2, b2, m3, b3, a1, a2, a3, a4⟩ := CRec.encode_parts hb
          obtain ⟨m1', b1', m2', b2', m3', b3', c1, c2, c3, c4⟩ := CRec.encode_parts hcur
          rw [a2] at c2
          rw [a3] at c3
          cases c2
          cases c3
          rw [a4] at c4
          simp only [List.cons.injEq, List.append_cancel_right_eq] at c4
          exact recKeyPart_grown hg hne a1 c1 c4.2
      · intro hq
        by_cases hgr : growing w i
        · exact quiet ((addedByAll_nil after i).mpr (hq hgr))
        · have : bareKey k' = bareKey k := by
            cases k with
            | empty => cases g; rfl
            | mapped m => cases g; rfl
            | key y =>
              obtain ⟨y', rfl, -⟩ := g
              exact absurd ⟨y', h2⟩ hgr
          rw [this, hc1, hb]

/-- The condition fails for a key that another record refers to as well, and holds for a key that is only encoded. -/
example :
    (sharing ([.newKey, .add 0 (some [1]), .newRecord, .newRecord, .setKey 0 0, .setKey 1 0] ++ KCall.encode 0 ::
      [.setTimestamp 1 (some 5), .add 0 (some [2]), .encode 1])).getBuf 0 = .ok [64, 1, 1, 1] ∧
    ((KCall.add 0 (some [2])).adds 0 = true) ∧ ((KCall.encodeKey 0).adds 0 = false) ∧
    (∀ d ∈ [KCall.setTimestamp 1 (some 5), .add 0 (some [2]), .encode 1], d.sets 0 = false ∧ d.encodes 0 = false) ∧
    growing (sharing [.newKey, .add 0 (some [1]), .newRecord]) 0 := by
  refine ⟨by decide +kernel, by decide, by decide, ?_, ⟨_, rfl⟩⟩
  intro d hd
  simp only [List.mem_cons, List.not_mem_nil, or_false] at hd
  rcases hd with rfl | rfl | rfl <;> decide

/-- C192 is false: `Add` on the key of an encoded record. -/
theorem C192_refuted : ¬ RecordBytesCurrent := by
  intro h
  obtain ⟨c, b, h1, h2, h3⟩ := h [.newSimpleKey (some [1]), .newRecord, .setKey 0 0, .encode 0, .add 0 (some [2])] 0 (by decide +kernel)
  have e1 : (sharing [.newSimpleKey (some [1]), .newRecord, .setKey 0 0, .encode 0, .add 0 (some [2])]).getBuf 0 = .ok [64, 1, 1, 1] := by
    decide +kernel
  rw [e1] at h3
  cases h3
  have e2 : (recContent (sharing [.newSimpleKey (some [1]), .newRecord, .setKey 0 0, .encode 0, .add 0 (some [2])]) 0).map CRec.encode =
      some (.ok [64, 2, 1, 1, 1, 2]) := by
    decide +kernel
  rw [h1, Option.map_some, h2] at e2
  revert e2
  decide

/-- Calls that are no setters of a record leave its parts. -/
theorem parts_steps (q : List KCall) : ∀ (w : KWorld) (r : Nat) (x : KRec), w.recs[r]? = some x → (∀ c ∈ q, c.sets r = false) →
    ∃ b e, (q.foldl (fun w c => (c.run w).1) w).recs[r]? = some { x with buf := b, encoded := e } := by
  induction q with
  | nil => intro w r x hx _; exact ⟨_, _, hx⟩
  | cons c q ih =>
    intro w r x hx hs
    have hq : ∀ d ∈ q, d.sets r = false := fun d hd => hs d (by simp [hd])
    have hr := (List.getElem?_eq_some_iff.mp hx).1
    rw [List.foldl_cons]
    rcases recs_step w c r x hx (hs c (by simp)) with h | rfl
    · exact ih _ r x h hq
    · rw [KCall.run]
      rcases encode_step w r x hx with ⟨b, -, -, e⟩ | ⟨-, -, e⟩ | ⟨-, -, e⟩
      · exact ih _ r { x with buf := b, encoded := true } (by rw [e, List.getElem?_set_self hr]) hq
      · exact ih _ r x (by rw [e, hx]) hq
      · exact ih _ r x (by rw [e, hx]) hq

/-- C192: calls that are no setters of a record and do not add to its key leave its content as it is. -/
theorem C192_content (p later : List KCall) (r : Nat) (hr : r < (sharing p).recs.length) (hs : ∀ d ∈ later, d.sets r = false)
    (ha : ∀ k, recKey (sharing p) r = some k → ∀ d ∈ later, d.adds k = false) :
    recContent (sharing (p ++ later)) r = recContent (sharing p) r := by
  have hl := linked_sharing p
  rw [sharing_append]
  generalize sharing p = w at *
  have hx := List.getElem?_eq_getElem hr
  generalize w.recs[r] = x at hx
  obtain ⟨b, e, hx'⟩ := parts_steps later w r x hx hs
  simp only [recContent, hx, hx', Option.map_some]
  rcases hk : x.key with - | i
  · rfl
  · have hi := hl r x i hx hk
    obtain ⟨k', h2, g⟩ := keys_steps later w i _ (List.getElem?_eq_getElem hi)
    rw [(addedByAll_nil later i).mpr (ha i (by simp only [recKey, hx, Option.bind_some, hk]))] at g
    simp only [Option.bind_some, h2, List.getElem?_eq_getElem hi, Option.map_some, g.bare]

/-- C192: neither calls on keys, nor on other records, nor `Encode` change the estimate of a record, which counts the key as it was when
it was handed in. -/
theorem C192_est (p later : List KCall) (r : Nat) (hr : r < (sharing p).recs.length) (hs : ∀ d ∈ later, d.sets r = false) :
    (sharing (p ++ later)).est r = (sharing p).est r := by
  rw [sharing_append]
  generalize sharing p = w at *
  induction later generalizing w with
  | nil => rfl
  | cons c q ih =>
    have hx := List.getElem?_eq_getElem hr
    generalize hxx : w.recs[r] = x at hx
    have main : ∃ x', (c.run w).1.recs[r]? = some x' ∧ (c.run w).1.est r = w.est r := by
      rcases recs_step w c r x hx (hs c (by simp)) with h | rfl
      · exact ⟨x, h, by simp only [KWorld.est, h, hx]⟩
      · rw [KCall.run]
        rcases encode_step w r x hx with ⟨b, -, -, e⟩ | ⟨-, -, e⟩ | ⟨-, -, e⟩
        · refine ⟨_, by rw [e, List.getElem?_set_self hr], ?_⟩
          simp only [KWorld.est, e, List.getElem?_set_self hr, hx]
        · exact ⟨x, by rw [e, hx], by simp only [KWorld.est, e]⟩
        · exact ⟨x, by rw [e, hx], by simp only [KWorld.est, e]⟩
    obtain ⟨x', h1, h2⟩ := main
    rw [List.foldl_cons, ih (fun d hd => hs d (by simp [hd])) _ (List.getElem?_eq_some_iff.mp h1).1, h2]

/-- C192: what the estimate counts for the key of a new record is the estimate of the key at that moment. -/
theorem C192_est_key (p : List KCall) (k : Nat) (o : KeyObj) (hk : (sharing p).keys[k]? = some o) :
    (sharing (p ++ [.newRecord, .setKey (sharing p).recs.length k])).est (sharing p).recs.length = 3 + max 1 (o.estBufSize : Int) := by
  rw [sharing_append]
  generalize sharing p = w at *
  simp [KCall.run, KWorld.setKey, KWorld.est, hk, KRec.new, atLeastOne]
  split <;> omega

/-- The estimate is too small after `Add`. -/
example : (sharing [.newKey, .newRecord, .setKey 0 0, .add 0 (some [1, 2, 3, 4]), .encode 0]).est 0 = 4 ∧
    (sharing [.newKey, .newRecord, .setKey 0 0, .add 0 (some [1, 2, 3, 4]), .encode 0]).getBuf 0 = .ok [64, 1, 4, 1, 2, 3, 4] := by
  decide +kernel

theorem copyKeyPart_bare (k : Option KeyObj) : copyKeyPart (k.map bareKey) = copyKeyPart k := by
  rcases k with - | (_ | m | x) <;> rfl

/-- C192: the copy of a record has a key of its own: it has the content of the record, and keeps it whatever happens to the record, its
key, and all keys and records that were there. -/
theorem C192_copy (p : List KCall) (r : Nat) (c : CRec) (hc : recContent (sharing p) r = some c) (hreal : realRec c)
    (hcp : copyableR c) :
    let w := sharing (p ++ [.copy r])
    ((KCall.copy r).run (sharing p)).2 = .ok () ∧ w.recs.length = (sharing p).recs.length + 1 ∧
      (∀ k, recKey w (sharing p).recs.length = some k → (sharing p).keys.length ≤ k) ∧
      w.isEncoded (sharing p).recs.length = false ∧
      ∃ c', recContent w (sharing p).recs.length = some c' ∧ sameRec c c' ∧ c'.encode = c.encode ∧
        ∀ later : List KCall, (∀ d ∈ later, d.sets (sharing p).recs.length = false) →
          (∀ d ∈ later, ∀ k, d.adds k = true → k < (sharing p).keys.length) →
          recContent (sharing (p ++ [.copy r] ++ later)) (sharing p).recs.length = some c' := by
  intro w
  have hw : w = ((KCall.copy r).run (sharing p)).1 := sharing_snoc p _
  obtain ⟨-, h2⟩ := C102_record_copy_partial c hreal
  obtain ⟨c', h3, h4, h5⟩ := h2 hcp
  have hrun : ∃ k v s x, (sharing p).recs[r]? = some x ∧ c' = .record k v s x.timestamp x.sigR x.sigS ∧
      (KCall.copy r).run (sharing p) = (⟨(sharing p).keys ++ k.toList, (sharing p).recs ++
        [⟨false, [], 0, 0, 0, k.map fun _ => (sharing p).keys.length, v, s, x.timestamp, x.sigR, x.sigS⟩]⟩, .ok ()) := by
    rcases hx : (sharing p).recs[r]? with - | x
    · simp [recContent, hx] at hc
    · simp only [recContent, hx, Option.map_some, Option.some.injEq] at hc
      rw [← hc, CRec.copy, copyKeyPart_bare] at h3
      simp only [KCall.run, KWorld.copy, hx, KWorld.keyOf]
      rcases h1 : copyKeyPart (x.key.bind fun i => (sharing p).keys[i]?) with k | - | - <;> rw [h1] at h3 <;>
        simp only [Res.bind_ok, Res.bind_err, Res.bind_panic, reduceCtorEq] at h3
      rcases g2 : copyValuePart x.value with v | - | - <;> rw [g2] at h3 <;>
        simp only [Res.bind_ok, Res.bind_err, Res.bind_panic, reduceCtorEq] at h3
      rcases g3 : copyValuePart x.scheme with s | - | - <;> rw [g3] at h3 <;>
        simp only [Res.bind_ok, Res.bind_err, Res.bind_panic, reduceCtorEq] at h3
      exact ⟨k, v, s, x, rfl, (Res.ok.inj h3).symm, rfl⟩
  obtain ⟨k, v, s, x, -, hc', hrun⟩ := hrun
  have hnew : w.recs[(sharing p).recs.length]? =
      some ⟨false, [], 0, 0, 0, k.map fun _ => (sharing p).keys.length, v, s, x.timestamp, x.sigR, x.sigS⟩ := by
    rw [hw, hrun]
    simp
  have hk : ∀ i, recKey w (sharing p).recs.length = some i → (sharing p).keys.length ≤ i := by
    intro i hi
    simp only [recKey, hnew, Option.bind_some, Option.map_eq_some_iff] at hi
    obtain ⟨-, -, rfl⟩ := hi
    exact Nat.le_refl _
  have hcon : recContent w (sharing p).recs.length = some (.record (k.map bareKey) v s x.timestamp x.sigR x.sigS) := by
    simp only [recContent, hnew, Option.map_some, Option.some.injEq, CRec.record.injEq, and_true]
    rw [hw, hrun]
    cases k <;> simp
  have hlen : w.recs.length = (sharing p).recs.length + 1 := by rw [hw, hrun]; simp
  refine ⟨by rw [hrun], hlen, hk, by simp only [KWorld.isEncoded, hnew], _, hcon, ?_, ?_, ?_⟩
  · rw [hc'] at h4
    cases c with
    | mapped _ =>
      rw [sameRec] at h4
      obtain ⟨r', h, -⟩ := h4
      cases h
    | record k0 v0 s0 t R S =>
      rw [sameRec] at h4 ⊢
      obtain ⟨k1, v1, s1, e, e1, e2, e3⟩ := h4
      cases e
      exact ⟨_, _, _, rfl, by rw [subKeys_bare, e1], e2, e3⟩
  · rw [content_encode, ← hc', h5]
  · intro later hs ha
    rw [← hcon]
    refine C192_content _ later _ (by change _ < w.recs.length; omega) hs ?_
    intro i hi d hd
    by_contra hne
    have := ha d hd i (by simpa using hne)
    have := hk i hi
    omega

/-- A record whose copy keeps its key while the key of the original grows. -/
example : realRec (.record (some (.key ⟨false, [some [1]], none, 0⟩)) (some (.prim (some [7]))) none none none none) ∧
    copyableR (.record (some (.key ⟨false, [some [1]], none, 0⟩)) (some (.prim (some [7]))) none none none none) ∧
    recContent (sharing [.newSimpleKey (some [1]), .newRecord, .setKey 0 0, .setValue 0 (.prim (some [7])) 2]) 0 =
      some (.record (some (.key ⟨false, [some [1]], none, 0⟩)) (some (.prim (some [7]))) none none none none) ∧
    (sharing [.newSimpleKey (some [1]), .newRecord, .setKey 0 0, .setValue 0 (.prim (some [7])) 2, .copy 0, .add 0 (some [2]),
      .encode 1]).getBuf 1 = .ok [0x60, 1, 1, 1, 1, 1, 7] := by
  refine ⟨by simp [realRec, realKey, realPart, realVal], by simp [copyableR, copyableKey, copyablePart, copyable, Slice.bytes], rfl,
    by decide +kernel⟩

/-- `Buf` of a record panics exactly if `IsEncoded` is false. -/
theorem C192_buf (p : List KCall) (r : Nat) : (sharing p).getBuf r = .panic ↔ (sharing p).isEncoded r = false := by
  rw [KWorld.getBuf, KWorld.isEncoded]
  split
  · simp
  · split <;> simp_all

example : (sharing [.newRecord, .setK 0 (some [1]), .encode 0]).getBuf 0 ≠ .panic ∧
    (sharing [.newRecord, .setK 0 (some [1]), .encode 0, .setTimestamp 0 none]).getBuf 0 = .panic := by decide +kernel

example := C192_content [.newKey, .add 0 (some [1]), .newRecord, .newRecord, .setKey 0 0, .setKey 1 0] [.setTimestamp 1 (some 5), .encode 1] 0
  (by decide) (by decide) (fun k _ d hd => by
    simp only [List.mem_cons, List.not_mem_nil, or_false] at hd
    rcases hd with rfl | rfl <;> rfl)

example := C192_est [.newKey, .newRecord, .newRecord, .setKey 0 0, .setKey 1 0] [.add 0 (some [1]), .encode 1] 0 (by decide) (by decide)

end Poodle.Props
