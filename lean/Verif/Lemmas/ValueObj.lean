import Verif.Spec.ValueObj
import Verif.Props.Record

/-
Auxiliary lemmas for C107-C109: objects that refer to each other.
-/

namespace Poodle
open Spec Props

/-! ### What encoding leaves alone -/

/-- An object without its encoding and size estimate. -/
def bare : VNode → VNode
  | .prim d _ _ => .prim d false []
  | .array l _ _ _ => .array l false [] 0
  | .list l _ _ _ => .list l false [] 0
  | .record r =>
    .record { r with key := r.key.map bareKey, encoded := false, buf := [], estKey := 0, estValue := 0, estScheme := 0 }
  | n => n

theorem bareKey_bareKey (k : KeyObj) : bareKey (bareKey k) = bareKey k := by cases k <;> rfl

theorem unfoldAll_congr {α : Type} {u u' : Nat → Option α} (h : ∀ i, u i = u' i) (l : List Nat) : unfoldAll u l = unfoldAll u' l := by
  have : u = u' := funext h
  rw [this]

theorem unfold_bare (f : Nat) (h : VHeap) (i : Nat) : unfold f (h.map bare) i = unfold f h i := by
  induction f generalizing i with
  | zero => rfl
  | succ f ih =>
    have e : unfold f (h.map bare) = unfold f h := funext ih
    rw [unfold, unfold, List.getElem?_map]
    cases hn : h[i]? with
    | none => rfl
    | some n =>
      cases n <;> simp only [Option.map_some, bare, e]
      rename_i r
      cases r.key <;> simp [bareKey_bareKey]

/-- The same objects but for encodings and size estimates. -/
def Same (h h' : VHeap) : Prop := h'.map bare = h.map bare

theorem Same.refl (h : VHeap) : Same h h := rfl

theorem Same.trans {a b c : VHeap} (h1 : Same a b) (h2 : Same b c) : Same a c := Eq.trans h2 h1

theorem Same.symm {a b : VHeap} (h : Same a b) : Same b a := Eq.symm h

theorem Same.unfold_eq {h h' : VHeap} (s : Same h h') (f i : Nat) : unfold f h' i = unfold f h i := by
  rw [← unfold_bare f h', s, unfold_bare]

theorem Same.contains {h h' : VHeap} (s : Same h h') {i : Nat} {c : Content} : Contains h' i c ↔ Contains h i c := by
  unfold Contains
  simp only [s.unfold_eq]

theorem Same.get {h h' : VHeap} (s : Same h h') (i : Nat) : (h'[i]?).map bare = (h[i]?).map bare := by
  rw [← List.getElem?_map, ← List.getElem?_map, s]

theorem Same.set {h : VHeap} {i : Nat} {n n' : VNode} (hn : h[i]? = some n) (hb : bare n' = bare n) : Same h (h.set i n') := by
  unfold Same
  rw [List.map_set, hb]
  apply List.ext_getElem?
  intro j
  rw [List.getElem?_set]
  split
  · rename_i e
    subst e
    rw [List.getElem?_map, hn]
    rw [List.length_map, if_pos (List.getElem?_eq_some_iff.mp hn).1]
    rfl
  · rfl

theorem bare_isNil (n : VNode) : (bare n).isNil = n.isNil := by cases n <;> rfl

theorem bare_isValue (n : VNode) : (bare n).isValue = n.isValue := by cases n <;> rfl

theorem bare_refs (n : VNode) : VNode.refs (bare n) = VNode.refs n := by cases n <;> rfl

theorem Same.isNil {h h' : VHeap} (s : Same h h') (i : Nat) : (h'[i]?).map VNode.isNil = (h[i]?).map VNode.isNil := by
  have := congrArg (Option.map VNode.isNil) (s.get i)
  rw [Option.map_map, Option.map_map] at this
  rwa [show VNode.isNil ∘ bare = VNode.isNil from funext bare_isNil] at this

theorem Same.isValue {h h' : VHeap} (s : Same h h') (i : Nat) : (h'[i]?).map VNode.isValue = (h[i]?).map VNode.isValue := by
  have := congrArg (Option.map VNode.isValue) (s.get i)
  rw [Option.map_map, Option.map_map] at this
  rwa [show VNode.isValue ∘ bare = VNode.isValue from funext bare_isValue] at this

theorem Same.refs {h h' : VHeap} (s : Same h h') (i : Nat) : (h'[i]?).map VNode.refs = (h[i]?).map VNode.refs := by
  have := congrArg (Option.map VNode.refs) (s.get i)
  rw [Option.map_map, Option.map_map] at this
  rwa [show VNode.refs ∘ bare = VNode.refs from funext bare_refs] at this

/-! ### Unfolding -/

theorem unfoldAll_mono {α : Type} {u u' : Nat → Option α} (h : ∀ i a, u i = some a → u' i = some a) {l : List Nat} {as : List α}
    (hl : unfoldAll u l = some as) : unfoldAll u' l = some as := by
  induction l generalizing as with
  | nil => exact hl
  | cons i l ih =>
    simp only [unfoldAll, Option.bind_eq_some_iff, Option.map_eq_some_iff] at hl ⊢
    obtain ⟨a, ha, as', has, rfl⟩ := hl
    exact ⟨a, h i a ha, as', ih has, rfl⟩

theorem unfoldAll_length {α : Type} {u : Nat → Option α} {l : List Nat} {as : List α} (h : unfoldAll u l = some as) :
    as.length = l.length := by
  induction l generalizing as with
  | nil => simp only [unfoldAll, Option.some.injEq] at h; rw [← h]; rfl
  | cons i l ih =>
    simp only [unfoldAll, Option.bind_eq_some_iff, Option.map_eq_some_iff] at h
    obtain ⟨a, -, as', has, rfl⟩ := h
    simp [ih has]

theorem unfoldAll_mem {α : Type} {u : Nat → Option α} {l : List Nat} {as : List α} (h : unfoldAll u l = some as) {i : Nat}
    (hi : i ∈ l) : ∃ a, u i = some a := by
  induction l generalizing as with
  | nil => simp at hi
  | cons j l ih =>
    simp only [unfoldAll, Option.bind_eq_some_iff, Option.map_eq_some_iff] at h
    obtain ⟨a, ha, as', has, rfl⟩ := h
    rcases List.mem_cons.mp hi with rfl | hi
    · exact ⟨a, ha⟩
    · exact ih has hi

theorem unfoldAll_total {α : Type} {u : Nat → Option α} {l : List Nat} (h : ∀ i ∈ l, ∃ a, u i = some a) :
    ∃ as, unfoldAll u l = some as := by
  induction l with
  | nil => exact ⟨[], rfl⟩
  | cons j l ih =>
    obtain ⟨a, ha⟩ := h j (by simp)
    obtain ⟨as, has⟩ := ih fun i hi => h i (by simp [hi])
    exact ⟨a :: as, by simp [unfoldAll, ha, has]⟩

theorem unfoldPart_mono {u u' : Nat → Option Content} (h : ∀ i a, u i = some a → u' i = some a) {v : Option Nat} {o : Option CVal}
    (hv : unfoldPart u v = some o) : unfoldPart u' v = some o := by
  cases v with
  | none => exact hv
  | some i =>
    simp only [unfoldPart, Option.map_eq_some_iff, Option.bind_eq_some_iff] at hv ⊢
    obtain ⟨a, ⟨c, hc, ha⟩, rfl⟩ := hv
    exact ⟨a, ⟨c, h i c hc, ha⟩, rfl⟩

theorem unfold_mono {f : Nat} {h : VHeap} {i : Nat} {c : Content} (hc : unfold f h i = some c) : unfold (f + 1) h i = some c := by
  induction f generalizing i c with
  | zero => simp [unfold] at hc
  | succ f ih =>
    rw [unfold] at hc ⊢
    cases hn : h[i]? with
    | none => simp [hn] at hc
    | some n =>
      cases n with
      | array l e b n =>
        simp only [hn, Option.map_eq_some_iff] at hc ⊢
        obtain ⟨a, ha, rfl⟩ := hc
        refine ⟨a, unfoldAll_mono (fun j a h => ?_) ha, rfl⟩
        rw [Option.bind_eq_some_iff] at h ⊢
        obtain ⟨c, h1, h2⟩ := h
        exact ⟨c, ih h1, h2⟩
      | list l e b n =>
        simp only [hn, Option.map_eq_some_iff] at hc ⊢
        obtain ⟨a, ha, rfl⟩ := hc
        refine ⟨a, unfoldAll_mono (fun j a h => ?_) ha, rfl⟩
        rw [Option.bind_eq_some_iff] at h ⊢
        obtain ⟨c, h1, h2⟩ := h
        exact ⟨c, ih h1, h2⟩
      | record r =>
        simp only [hn, Option.map_eq_some_iff, Option.bind_eq_some_iff] at hc ⊢
        obtain ⟨v, hv, s, hs, rfl⟩ := hc
        exact ⟨v, unfoldPart_mono (fun _ _ => ih) hv, s, unfoldPart_mono (fun _ _ => ih) hs, rfl⟩
      | prim => simpa [hn] using hc
      | mappedSimple => simpa [hn] using hc
      | mappedStd => simpa [hn] using hc
      | mappedRec => simpa [hn] using hc

theorem unfold_le {f g : Nat} (hfg : f ≤ g) {h : VHeap} {i : Nat} {c : Content} (hc : unfold f h i = some c) :
    unfold g h i = some c := by
  induction hfg with
  | refl => exact hc
  | step _ ih => exact unfold_mono ih

theorem contains_unique {h : VHeap} {i : Nat} {c d : Content} (hc : Contains h i c) (hd : Contains h i d) : c = d := by
  obtain ⟨f, hc⟩ := hc
  obtain ⟨g, hd⟩ := hd
  have h1 := unfold_le (Nat.le_max_left f g) hc
  rw [unfold_le (Nat.le_max_right f g) hd] at h1
  exact (Option.some.inj h1).symm

/-- A value contains a value, a record a record. -/
theorem unfold_kind {f : Nat} {h : VHeap} {i : Nat} {c : Content} (hc : unfold f h i = some c) :
    ∃ n, h[i]? = some n ∧ (n.isValue = true → ∃ v, c = .inl v ∧ v.isNil = n.isNil) ∧ (n.isValue = false → ∃ r, c = .inr r) := by
  cases f with
  | zero => simp [unfold] at hc
  | succ f =>
    rw [unfold] at hc
    cases hn : h[i]? with
    | none => simp [hn] at hc
    | some n =>
      refine ⟨n, rfl, ?_⟩
      cases n with
      | array l e b n =>
        simp only [hn, Option.map_eq_some_iff] at hc
        obtain ⟨a, ha, rfl⟩ := hc
        simp [VNode.isValue, CVal.isNil, VNode.isNil, unfoldAll_length ha]
      | list l e b n =>
        simp only [hn, Option.map_eq_some_iff] at hc
        obtain ⟨a, ha, rfl⟩ := hc
        simp [VNode.isValue, CVal.isNil, VNode.isNil, unfoldAll_length ha]
      | record r =>
        simp only [hn, Option.map_eq_some_iff, Option.bind_eq_some_iff] at hc
        obtain ⟨v, hv, s, hs, rfl⟩ := hc
        simp [VNode.isValue]
      | prim => simp only [hn, Option.some.injEq] at hc; subst hc; simp [VNode.isValue, CVal.isNil, VNode.isNil]
      | mappedSimple => simp only [hn, Option.some.injEq] at hc; subst hc; simp [VNode.isValue, CVal.isNil, VNode.isNil]
      | mappedStd => simp only [hn, Option.some.injEq] at hc; subst hc; simp [VNode.isValue, CVal.isNil, VNode.isNil]
      | mappedRec => simp only [hn, Option.some.injEq] at hc; subst hc; simp [VNode.isValue]

/-- A nil value refers to nothing. -/
theorem unfold_nil {f : Nat} {h : VHeap} {i : Nat} {n : VNode} (hn : h[i]? = some n) (hv : n.isValue = true) (h0 : n.isNil = true) :
    ∃ v, unfold (f + 1) h i = some (.inl v) := by
  rw [unfold, hn]
  cases n with
  | array l e b n =>
    simp only [VNode.isNil, beq_iff_eq, List.length_eq_zero_iff] at h0
    subst h0
    exact ⟨.array [], rfl⟩
  | list l e b n =>
    simp only [VNode.isNil, beq_iff_eq, List.length_eq_zero_iff] at h0
    subst h0
    exact ⟨.records [], rfl⟩
  | record r => simp [VNode.isValue] at hv
  | mappedRec r => simp [VNode.isValue] at hv
  | prim => exact ⟨_, rfl⟩
  | mappedSimple => exact ⟨_, rfl⟩
  | mappedStd => exact ⟨_, rfl⟩

/-! ### Static typing -/

/-- The references of an object have the types Go enforces. -/
def TypedNode (h : VHeap) : VNode → Prop
  | .array l _ _ _ => ∀ j ∈ l, h.isValue j = true
  | .list l _ _ _ => ∀ j ∈ l, h.isRecord j = true
  | .record r => (∀ j, r.value = some j → h.isValue j = true) ∧ ∀ j, r.scheme = some j → h.isValue j = true
  | _ => True

/-- All references have the types Go enforces. -/
def Typed (h : VHeap) : Prop := ∀ (i : Nat) n, h[i]? = some n → TypedNode h n

theorem isValue_iff {h : VHeap} {i : Nat} : h.isValue i = true ↔ (h[i]?).map VNode.isValue = some true := by
  unfold VHeap.isValue
  cases h[i]? <;> simp

theorem isRecord_iff {h : VHeap} {i : Nat} : h.isRecord i = true ↔ (h[i]?).map VNode.isValue = some false := by
  unfold VHeap.isRecord
  cases h[i]? <;> simp

theorem typedNode_bare (h : VHeap) (n : VNode) : TypedNode h (bare n) ↔ TypedNode h n := by cases n <;> rfl

theorem Same.typedNode {h h' : VHeap} (s : Same h h') (n : VNode) : TypedNode h' n ↔ TypedNode h n := by
  cases n <;> simp only [TypedNode, isValue_iff, isRecord_iff, s.isValue]

theorem Same.typed {h h' : VHeap} (s : Same h h') (ht : Typed h) : Typed h' := by
  intro i n hn
  have := s.get i
  rw [hn] at this
  cases hm : h[i]? with
  | none => simp [hm] at this
  | some m =>
    simp only [hm, Option.map_some, Option.some.injEq] at this
    rw [s.typedNode, ← typedNode_bare, this, typedNode_bare]
    exact ht i m hm

/-! ### Encoding -/

theorem recKeyPart_bare (k : Option KeyObj) : recKeyPart (k.map bareKey) = recKeyPart k := by
  cases k with
  | none => rfl
  | some k =>
    cases k with
    | empty => rfl
    | mapped m => rfl
    | key k =>
      simp only [Option.map_some, bareKey, recKeyPart, keyPartBytes_key]
      rfl

theorem bareKey_encode (k : KeyObj) : bareKey k.encode.1 = bareKey k := by
  cases k with
  | empty => rfl
  | mapped m => rfl
  | key k =>
    have e' : k.encode.1.keys = k.keys := by rw [key_encode_eq]; split <;> rfl
    simp only [KeyObj.encode, bareKey, e']

theorem bare_encodedKey (k : Option KeyObj) : (encodedKey k).map bareKey = k.map bareKey := by
  cases k with
  | none => rfl
  | some k =>
    simp only [encodedKey]
    split
    · rfl
    · simp [bareKey_encode]

/-- The bytes of an optional part of a record. -/
def recPartBytes : Option CVal → Res (Option Bytes)
  | none => .ok none
  | some v => if v.isNil then .ok none else v.encode >>= fun b => .ok (some b)

theorem recValuePart_eq (bit : UInt8) (o : Option CVal) :
    recValuePart bit o = recPartBytes o >>= fun b => .ok (if b.isSome then (0x01 : UInt8) <<< bit else 0, b.getD []) := by
  cases o with
  | none => rw [recValuePart]; rfl
  | some v =>
    rw [recValuePart, recPartBytes]
    split
    · rfl
    · cases v.encode <;> rfl

/-- What is observed of the encoding of an object. -/
def observed (n : VNode) : Bool × Res Bytes := (n.isEncoded, n.getBuf)

/-- The object has just been encoded. -/
def Fresh (h h' : VHeap) (y : Nat) : Prop :=
  ∃ c w n, h'[y]? = some n ∧ Contains h y c ∧ contentEncode c = .ok w ∧ n.isEncoded = true ∧ n.getBuf = .ok w

/-- The encoding of the object is as before or has just been made. -/
def Kept (h h' : VHeap) (y : Nat) : Prop := (h'[y]?).map observed = (h[y]?).map observed ∨ Fresh h h' y

theorem Kept.refl (h : VHeap) (y : Nat) : Kept h h y := .inl rfl

theorem Kept.trans {a b c : VHeap} {y : Nat} (s : Same a b) (h1 : Kept a b y) (h2 : Kept b c y) : Kept a c y := by
  rcases h2 with h2 | ⟨d, w, n, e1, e2, e3⟩
  · rcases h1 with h1 | ⟨d, w, n, e1, e2, e3, e4, e5⟩
    · exact .inl (h2.trans h1)
    · rw [e1] at h2
      cases hc : c[y]? with
      | none => simp [hc] at h2
      | some m =>
        simp only [hc, Option.map_some, Option.some.injEq, observed, Prod.mk.injEq] at h2
        exact .inr ⟨d, w, m, hc, e2, e3, h2.1.trans e4, h2.2.trans e5⟩
  · exact .inr ⟨d, w, n, e1, s.contains.mp e2, e3⟩

theorem Kept.set {h h' : VHeap} {i : Nat} {n n' : VNode} (hn : h[i]? = some n) (ho : observed n' = observed n) (y : Nat)
    (e : h' = h.set i n') : Kept h h' y := by
  left
  rw [e, List.getElem?_set]
  split
  · rename_i e
    subst e
    rw [hn, if_pos (List.getElem?_eq_some_iff.mp hn).1]
    simp [ho]
  · rfl

theorem Kept.set_fresh {h : VHeap} {i : Nat} {n n' : VNode} (hn : h[i]? = some n) {c : Content} {w : Bytes} (hc : Contains h i c)
    (hw : contentEncode c = .ok w) (h1 : n'.isEncoded = true) (h2 : n'.getBuf = .ok w) (y : Nat) : Kept h (h.set i n') y := by
  by_cases e : i = y
  · subst e
    refine .inr ⟨c, w, n', ?_, hc, hw, h1, h2⟩
    rw [List.getElem?_set_self (List.getElem?_eq_some_iff.mp hn).1]
  · left
    rw [List.getElem?_set_ne e]

/-- The outcome of encoding object `i` with recursion bounded by `f`. -/
structure Outcome (f : Nat) (h : VHeap) (i : Nat) (r : VHeap × Option (Res Bytes)) : Prop where
  same : Same h r.1
  kept : Typed h → ∀ y, Kept h r.1 y
  exact : ∀ c, unfold f h i = some c → r.2 = some (contentEncode c)
  success : Typed h → ∀ w, r.2 = some (.ok w) → (∃ c, unfold (f + 1) h i = some c ∧ contentEncode c = .ok w) ∧
    ∃ n, r.1[i]? = some n ∧ n.isEncoded = true ∧ n.getBuf = .ok w

/-- The outcome of encoding all elements. -/
theorem elems_outcome {α : Type} {f : Nat} {E : VHeap → Nat → VHeap × Option (Res Bytes)} (hE : ∀ h i, Outcome f h i (E h i))
    (p : Content → Option α) (enc : α → Res Bytes) (encAll : List α → Res Bytes) (hp : ∀ c a, p c = some a → contentEncode c = enc a)
    (h0 : encAll [] = .ok []) (h1 : ∀ a l, encAll (a :: l) = enc a >>= fun b => encAll l >>= fun bs => .ok (b ++ bs))
    (l : List Nat) (h : VHeap) :
    Same h (encodeElems E h l).1 ∧ (Typed h → ∀ y, Kept h (encodeElems E h l).1 y) ∧
      (∀ as, unfoldAll (fun j => (unfold f h j).bind p) l = some as → (encodeElems E h l).2 = some (encAll as)) ∧
      (Typed h → (∀ j ∈ l, ∀ g c, unfold g h j = some c → ∃ a, p c = some a) → ∀ w, (encodeElems E h l).2 = some (.ok w) →
        ∃ as, unfoldAll (fun j => (unfold (f + 1) h j).bind p) l = some as ∧ encAll as = .ok w) := by
  induction l generalizing h with
  | nil =>
    refine ⟨Same.refl h, fun _ => Kept.refl h, ?_, ?_⟩
    · intro as has
      simp only [unfoldAll, Option.some.injEq] at has
      rw [← has, h0]
      rfl
    · intro _ _ w hw
      simp only [encodeElems, Option.some.injEq, Res.ok.injEq] at hw
      exact ⟨[], rfl, by rw [h0, hw]⟩
  | cons i l ih =>
    have o := hE h i
    rw [encodeElems]
    rcases hr : E h i with ⟨h', r⟩
    rw [hr] at o
    obtain ⟨o1, o2, o3, o4⟩ := o
    dsimp only at o1 o2 o3 o4
    obtain ⟨i1, i2, i3, i4⟩ := ih h'
    have stop : ∀ r' : Option (Res Bytes), r' = r → (∀ b, r' ≠ some (.ok b)) →
        Same h h' ∧ (Typed h → ∀ y, Kept h h' y) ∧
      (∀ as, unfoldAll (fun j => (unfold f h j).bind p) (i :: l) = some as → r' = some (encAll as)) ∧
      (Typed h → (∀ j ∈ i :: l, ∀ g c, unfold g h j = some c → ∃ a, p c = some a) → ∀ w, r' = some (.ok w) →
        ∃ as, unfoldAll (fun j => (unfold (f + 1) h j).bind p) (i :: l) = some as ∧ encAll as = .ok w) := by
      rintro r' rfl hb
      refine ⟨o1, o2, ?_, fun _ _ w hw => absurd hw (hb w)⟩
      intro as has
      simp only [unfoldAll, Option.bind_eq_some_iff, Option.map_eq_some_iff] at has
      obtain ⟨a, ⟨c, hc, ha⟩, as', has, rfl⟩ := has
      have := o3 c hc
      rw [this, h1, ← hp c a ha]
      rw [this] at hb
      cases e : contentEncode c with
      | ok b => exact absurd (by rw [e]) (hb b)
      | err => rfl
      | panic => rfl
    rcases r with - | r
    · exact stop _ rfl (by simp)
    · cases r with
      | err => exact stop _ rfl (by simp)
      | panic => exact stop _ rfl (by simp)
      | ok b =>
        simp only
        have tail : ∀ as, unfoldAll (fun j => (unfold f h j).bind p) (i :: l) = some as →
            ∃ a as', as = a :: as' ∧ enc a = .ok b ∧ unfoldAll (fun j => (unfold f h' j).bind p) l = some as' := by
          intro as has
          simp only [unfoldAll, Option.bind_eq_some_iff, Option.map_eq_some_iff] at has
          obtain ⟨a, ⟨c, hc, ha⟩, as', has, rfl⟩ := has
          refine ⟨a, as', rfl, ?_, ?_⟩
          · have := o3 c hc
            rw [← hp c a ha]
            exact (Option.some.inj this).symm
          · rw [← has]
            exact unfoldAll_congr (fun j => by rw [o1.unfold_eq]) l
        rcases hr2 : encodeElems E h' l with ⟨h'', r2⟩
        rw [hr2] at i1 i2 i3 i4
        dsimp only at i1 i2 i3 i4
        have s : Same h h'' := o1.trans i1
        have k : Typed h → ∀ y, Kept h h'' y := fun ht y => (o2 ht y).trans o1 (i2 (o1.typed ht) y)
        rcases r2 with - | r2
        · refine ⟨s, k, ?_, fun _ _ w hw => by simp at hw⟩
          intro as has
          obtain ⟨a, as', rfl, e1, e2⟩ := tail as has
          exact absurd (i3 as' e2) (by simp)
        · cases r2 with
          | err =>
            refine ⟨s, k, ?_, fun _ _ w hw => by simp at hw⟩
            intro as has
            obtain ⟨a, as', rfl, e1, e2⟩ := tail as has
            rw [h1, e1, Res.bind_ok, ← Option.some.inj (i3 as' e2)]
            rfl
          | panic =>
            refine ⟨s, k, ?_, fun _ _ w hw => by simp at hw⟩
            intro as has
            obtain ⟨a, as', rfl, e1, e2⟩ := tail as has
            rw [h1, e1, Res.bind_ok, ← Option.some.inj (i3 as' e2)]
            rfl
          | ok bs =>
            refine ⟨s, k, ?_, ?_⟩
            · intro as has
              obtain ⟨a, as', rfl, e1, e2⟩ := tail as has
              rw [h1, e1, Res.bind_ok, ← Option.some.inj (i3 as' e2)]
              rfl
            · intro ht hk w hw
              simp only [Option.some.injEq, Res.ok.injEq] at hw
              subst hw
              obtain ⟨⟨c, hc, hcw⟩, -⟩ := o4 ht b rfl
              obtain ⟨a, ha⟩ := hk i (by simp) _ c hc
              obtain ⟨as, has, hw⟩ := i4 (o1.typed ht)
                (fun j hj g c hc => hk j (by simp [hj]) g c (by rw [← o1.unfold_eq]; exact hc)) bs rfl
              refine ⟨a :: as, ?_, ?_⟩
              · simp only [unfoldAll, hc, Option.bind_some, ha]
                rw [unfoldAll_congr (u' := fun j => (unfold (f + 1) h' j).bind p) (fun j => by rw [o1.unfold_eq]) l, has]
                rfl
              · rw [h1, ← hp c a ha, hcw, Res.bind_ok, hw]
                rfl

/-- The outcome of encoding an optional part of a record. -/
theorem part_outcome {f : Nat} {E : VHeap → Nat → VHeap × Option (Res Bytes)} (hE : ∀ h i, Outcome f h i (E h i))
    (v : Option Nat) (h : VHeap) :
    Same h (encodePart E h v).1 ∧ (Typed h → ∀ y, Kept h (encodePart E h v).1 y) ∧
      (∀ o, unfoldPart (unfold f h) v = some o → (encodePart E h v).2 = some (recPartBytes o)) ∧
      (Typed h → (∀ j, v = some j → h.isValue j = true) → ∀ b, (encodePart E h v).2 = some (.ok b) →
        ∃ o, unfoldPart (unfold (f + 1) h) v = some o ∧ recPartBytes o = .ok b) := by
  cases v with
  | none =>
    refine ⟨Same.refl h, fun _ => Kept.refl h, ?_, ?_⟩
    · intro o ho
      simp only [unfoldPart, Option.some.injEq] at ho
      rw [← ho]
      rfl
    · intro _ _ b hb
      simp only [encodePart, Option.some.injEq, Res.ok.injEq] at hb
      exact ⟨none, rfl, by rw [← hb]; rfl⟩
  | some i =>
    have o := hE h i
    rw [encodePart]
    cases hn : h[i]? with
    | none =>
      refine ⟨Same.refl h, fun _ => Kept.refl h, ?_, fun _ _ b hb => by simp at hb⟩
      intro o ho
      simp only [unfoldPart, Option.map_eq_some_iff, Option.bind_eq_some_iff] at ho
      obtain ⟨a, ⟨c, hc, -⟩, -⟩ := ho
      obtain ⟨n, hn', -⟩ := unfold_kind hc
      simp [hn] at hn'
    | some n =>
      have known : ∀ g o, unfoldPart (unfold g h) (some i) = some o →
          ∃ a, o = some a ∧ unfold g h i = some (.inl a) ∧ a.isNil = n.isNil := by
        intro g o ho
        simp only [unfoldPart, Option.map_eq_some_iff, Option.bind_eq_some_iff] at ho
        obtain ⟨a, ⟨c, hc, ha⟩, rfl⟩ := ho
        obtain ⟨m, hm, k1, k2⟩ := unfold_kind hc
        rw [hn] at hm
        obtain rfl := Option.some.inj hm
        cases c with
        | inr r => simp at ha
        | inl v =>
          simp only [Sum.getLeft?_inl, Option.some.injEq] at ha
          subst ha
          cases hv : n.isValue with
          | true =>
            obtain ⟨v', e, e'⟩ := k1 hv
            obtain rfl := Sum.inl.inj e
            exact ⟨v, rfl, hc, e'⟩
          | false =>
            obtain ⟨r, e⟩ := k2 hv
            simp at e
      simp only
      by_cases h0 : n.isNil = true
      · rw [if_pos h0]
        refine ⟨Same.refl h, fun _ => Kept.refl h, ?_, ?_⟩
        · intro o ho
          obtain ⟨a, rfl, -, e⟩ := known f o ho
          simp [recPartBytes, e, h0]
        · intro ht hj b hb
          simp only [Option.some.injEq, Res.ok.injEq] at hb
          have hv := hj i rfl
          simp only [VHeap.isValue, hn] at hv
          obtain ⟨v, hv⟩ := unfold_nil (f := f) hn hv h0
          have hp : unfoldPart (unfold (f + 1) h) (some i) = some (some v) := by simp [unfoldPart, hv]
          obtain ⟨a, e, -, e'⟩ := known _ _ hp
          obtain rfl := Option.some.inj e
          exact ⟨some v, hp, by simp [recPartBytes, e', h0, hb]⟩
      · rw [if_neg h0]
        obtain ⟨o1, o2, o3, o4⟩ := o
        rcases hr : E h i with ⟨h', r⟩
        rw [hr] at o1 o2 o3 o4
        dsimp only at o1 o2 o3 o4
        have ex : ∀ o, unfoldPart (unfold f h) (some i) = some o → ∃ a, o = some a ∧ r = some a.encode ∧
            recPartBytes o = a.encode >>= fun b => .ok (some b) := by
          intro o ho
          obtain ⟨a, rfl, e1, e2⟩ := known f o ho
          refine ⟨a, rfl, o3 _ e1, ?_⟩
          simp only [recPartBytes, e2]
          rw [if_neg h0]
        rcases r with - | r
        · refine ⟨o1, o2, ?_, fun _ _ b hb => by simp at hb⟩
          intro o ho
          obtain ⟨a, -, e, -⟩ := ex o ho
          simp at e
        · cases r with
          | err =>
            refine ⟨o1, o2, ?_, fun _ _ b hb => by simp at hb⟩
            intro o ho
            obtain ⟨a, -, e, e'⟩ := ex o ho
            rw [e', ← Option.some.inj e]
            rfl
          | panic =>
            refine ⟨o1, o2, ?_, fun _ _ b hb => by simp at hb⟩
            intro o ho
            obtain ⟨a, -, e, e'⟩ := ex o ho
            rw [e', ← Option.some.inj e]
            rfl
          | ok b =>
            refine ⟨o1, o2, ?_, ?_⟩
            · intro o ho
              obtain ⟨a, -, e, e'⟩ := ex o ho
              rw [e', ← Option.some.inj e]
              rfl
            · intro ht hj b' hb
              simp only [Option.some.injEq, Res.ok.injEq] at hb
              subst hb
              obtain ⟨⟨c, hc, hw⟩, -⟩ := o4 ht b rfl
              have hv := hj i rfl
              simp only [VHeap.isValue, hn] at hv
              obtain ⟨m, hm, k1, -⟩ := unfold_kind hc
              rw [hn] at hm
              obtain rfl := Option.some.inj hm
              obtain ⟨v, rfl, e⟩ := k1 hv
              refine ⟨some v, by simp [unfoldPart, hc], ?_⟩
              have hw : v.encode = .ok b := hw
              simp only [recPartBytes, e]
              rw [if_neg h0, hw]
              rfl

theorem CVal.encode_array (l : List CVal) :
    (CVal.array l).encode = countHeader 6 l.length >>= fun x => encodeVals l >>= fun content => withContent x.1 x.2 content := by
  rw [CVal.encode]

theorem CVal.encode_records (l : List CRec) :
    (CVal.records l).encode = countHeader 4 l.length >>= fun x => encodeRecs l >>= fun content => withContent x.1 x.2 content := by
  rw [CVal.encode]

theorem CRec.encode_record (k : Option KeyObj) (v s : Option CVal) (t r q : Option Int) :
    (CRec.record k v s t r q).encode = recKeyPart k >>= fun a => recPartBytes v >>= fun b => recPartBytes s >>= fun c =>
      .ok (((0x00 : UInt8) ||| a.1 ||| (if b.isSome then (0x01 : UInt8) <<< 5 else 0) ||| (if c.isSome then (0x01 : UInt8) <<< 4 else 0) |||
        (timePart t r q).1) :: (a.2 ++ b.getD [] ++ c.getD [] ++ (timePart t r q).2)) := by
  rw [CRec.encode, recValuePart_eq, recValuePart_eq]
  cases recKeyPart k <;> cases recPartBytes v <;> cases recPartBytes s <;> rfl

theorem get_set_self {h : VHeap} {i : Nat} {n : VNode} (hn : h[i]? = some n) (n' : VNode) : (h.set i n')[i]? = some n' :=
  List.getElem?_set_self (List.getElem?_eq_some_iff.mp hn).1

/-- `Encode` of one object that refers to others, once these have been dealt with. -/
theorem outcome_stop {f : Nat} {h h' : VHeap} {i : Nat} {r : Option (Res Bytes)} (s : Same h h') (k : Typed h → ∀ y, Kept h h' y)
    (hr : ∀ w, r ≠ some (.ok w)) (e : ∀ c, unfold f h i = some c → r = some (contentEncode c)) : Outcome f h i (h', r) :=
  ⟨s, k, e, fun _ w hw => absurd hw (hr w)⟩

theorem encode_outcome (f : Nat) : ∀ (h : VHeap) (i : Nat), Outcome f h i (h.encode f i) := by
  induction f with
  | zero => exact fun h i => outcome_stop (Same.refl h) (fun _ => Kept.refl h) (by simp) (by simp [unfold])
  | succ f ih =>
    intro h i
    rw [VHeap.encode]
    cases hn : h[i]? with
    | none =>
      exact outcome_stop (Same.refl h) (fun _ => Kept.refl h) (by simp) (fun c hc => by simp [unfold, hn] at hc)
    | some n =>
      cases n with
      | prim d e b =>
        have hc : ∀ g c, unfold (g + 1) h i = some c ↔ c = .inl (.prim d) := by
          intro g c; rw [unfold, hn]; simp [eq_comm]
        have he : contentEncode (.inl (.prim d)) = encodePrimitive d := by rw [contentEncode, CVal.encode]
        simp only
        cases hp : encodePrimitive d with
        | ok w =>
          refine ⟨Same.set hn rfl, fun _ y => Kept.set_fresh hn (c := .inl (.prim d)) ⟨1, (hc 0 _).mpr rfl⟩ (he.trans hp) rfl rfl y, ?_, ?_⟩
          · intro c h1
            rw [(hc f c).mp h1, he, hp]
          · intro _ w' hw
            simp only [Option.some.injEq, Res.ok.injEq] at hw
            subst hw
            exact ⟨⟨_, (hc _ _).mpr rfl, he.trans hp⟩, _, get_set_self hn _, rfl, rfl⟩
        | err =>
          exact outcome_stop (Same.refl h) (fun _ => Kept.refl h) (by simp) (fun c h1 => by rw [(hc f c).mp h1, he, hp])
        | panic =>
          exact outcome_stop (Same.refl h) (fun _ => Kept.refl h) (by simp) (fun c h1 => by rw [(hc f c).mp h1, he, hp])
      | array l e b n =>
        obtain ⟨i1, i2, i3, i4⟩ := elems_outcome ih Sum.getLeft? CVal.encode encodeVals
          (fun c a h => by cases c <;> simp_all [contentEncode]) (by rw [encodeVals]) (fun a l => by rw [encodeVals]) l h
        have hc : ∀ g c, unfold (g + 1) h i = some c ↔ ∃ as, unfoldAll (fun j => (unfold g h j).bind Sum.getLeft?) l = some as ∧
            c = .inl (.array as) := by
          intro g c; rw [unfold, hn]; simp [eq_comm]
        have he : ∀ as, contentEncode (.inl (.array as)) = (CVal.array as).encode := fun _ => rfl
        simp only
        have head : ∀ g as, unfoldAll (fun j => (unfold g h j).bind Sum.getLeft?) l = some as →
            (CVal.array as).encode = countHeader 6 l.length >>= fun x => encodeVals as >>= fun content => withContent x.1 x.2 content := by
          intro g as has
          rw [CVal.encode_array, unfoldAll_length has]
        cases hh : countHeader 6 l.length with
        | err =>
          refine outcome_stop (Same.refl h) (fun _ => Kept.refl h) (by simp) ?_
          intro c h1
          obtain ⟨as, has, rfl⟩ := (hc f c).mp h1
          rw [he, head f as has, hh]; rfl
        | panic =>
          refine outcome_stop (Same.refl h) (fun _ => Kept.refl h) (by simp) ?_
          intro c h1
          obtain ⟨as, has, rfl⟩ := (hc f c).mp h1
          rw [he, head f as has, hh]; rfl
        | ok mc =>
          obtain ⟨m, c⟩ := mc
          simp only
          rcases hr : encodeElems (VHeap.encode f) h l with ⟨h', r⟩
          rw [hr] at i1 i2 i3 i4
          dsimp only at i1 i2 i3 i4
          rcases r with - | r
          · refine outcome_stop i1 i2 (by simp) ?_
            intro c h1
            obtain ⟨as, has, rfl⟩ := (hc f c).mp h1
            exact absurd (i3 as has) (by simp)
          · cases r with
            | err =>
              refine outcome_stop i1 i2 (by simp) ?_
              intro c h1
              obtain ⟨as, has, rfl⟩ := (hc f c).mp h1
              rw [he, head f as has, hh, Res.bind_ok, ← Option.some.inj (i3 as has)]; rfl
            | panic =>
              refine outcome_stop i1 i2 (by simp) ?_
              intro c h1
              obtain ⟨as, has, rfl⟩ := (hc f c).mp h1
              rw [he, head f as has, hh, Res.bind_ok, ← Option.some.inj (i3 as has)]; rfl
            | ok content =>
              simp only
              have ex : ∀ c', unfold (f + 1) h i = some c' → contentEncode c' = withContent m c content := by
                intro c' h1
                obtain ⟨as, has, rfl⟩ := (hc f c').mp h1
                rw [he, head f as has, hh, Res.bind_ok, ← Option.some.inj (i3 as has), Res.bind_ok]
              have su : Typed h → ∃ c', unfold (f + 1 + 1) h i = some c' ∧ contentEncode c' = withContent m c content := by
                intro ht
                have htn : ∀ j ∈ l, h.isValue j = true := ht i _ hn
                obtain ⟨as, has, hw⟩ := i4 ht (fun j hj g c' hc' => by
                  obtain ⟨n, hn', k1, -⟩ := unfold_kind hc'
                  have := htn j hj
                  simp only [VHeap.isValue, hn'] at this
                  obtain ⟨v, rfl, -⟩ := k1 this
                  exact ⟨v, rfl⟩) content rfl
                exact ⟨_, (hc _ _).mpr ⟨as, has, rfl⟩, by rw [he, head _ as has, hh, Res.bind_ok, hw, Res.bind_ok]⟩
              obtain ⟨n', hn', hb'⟩ : ∃ n', h'[i]? = some n' ∧ bare n' = bare (.array l e b n) := by
                have := i1.get i
                rw [hn] at this
                simpa [Option.map_eq_some_iff] using this
              cases hw : withContent m c content with
              | err => exact outcome_stop i1 i2 (by simp) (fun c' h1 => by rw [ex c' h1, hw])
              | panic => exact outcome_stop i1 i2 (by simp) (fun c' h1 => by rw [ex c' h1, hw])
              | ok w =>
                refine ⟨i1.trans (Same.set hn' hb'.symm), ?_, ?_, ?_⟩
                · intro ht y
                  obtain ⟨c', h1, h2⟩ := su ht
                  exact (i2 ht y).trans i1 (Kept.set_fresh hn' (i1.contains.mpr ⟨_, h1⟩) (h2.trans hw) rfl rfl y)
                · exact fun c' h1 => by rw [ex c' h1, hw]
                · intro ht w' hw'
                  simp only [Option.some.injEq, Res.ok.injEq] at hw'
                  subst hw'
                  obtain ⟨c', h1, h2⟩ := su ht
                  exact ⟨⟨c', h1, h2.trans hw⟩, _, get_set_self hn' _, rfl, rfl⟩
      | list l e b n =>
        obtain ⟨i1, i2, i3, i4⟩ := elems_outcome ih Sum.getRight? CRec.encode encodeRecs
          (fun c a h => by cases c <;> simp_all [contentEncode]) (by rw [encodeRecs]) (fun a l => by rw [encodeRecs]) l h
        have hc : ∀ g c, unfold (g + 1) h i = some c ↔ ∃ as, unfoldAll (fun j => (unfold g h j).bind Sum.getRight?) l = some as ∧
            c = .inl (.records as) := by
          intro g c; rw [unfold, hn]; simp [eq_comm]
        have he : ∀ as, contentEncode (.inl (.records as)) = (CVal.records as).encode := fun _ => rfl
        simp only
        have head : ∀ g as, unfoldAll (fun j => (unfold g h j).bind Sum.getRight?) l = some as →
            (CVal.records as).encode = countHeader 4 l.length >>= fun x => encodeRecs as >>= fun content => withContent x.1 x.2 content := by
          intro g as has
          rw [CVal.encode_records, unfoldAll_length has]
        cases hh : countHeader 4 l.length with
        | err =>
          refine outcome_stop (Same.refl h) (fun _ => Kept.refl h) (by simp) ?_
          intro c h1
          obtain ⟨as, has, rfl⟩ := (hc f c).mp h1
          rw [he, head f as has, hh]; rfl
        | panic =>
          refine outcome_stop (Same.refl h) (fun _ => Kept.refl h) (by simp) ?_
          intro c h1
          obtain ⟨as, has, rfl⟩ := (hc f c).mp h1
          rw [he, head f as has, hh]; rfl
        | ok mc =>
          obtain ⟨m, c⟩ := mc
          simp only
          rcases hr : encodeElems (VHeap.encode f) h l with ⟨h', r⟩
          rw [hr] at i1 i2 i3 i4
          dsimp only at i1 i2 i3 i4
          rcases r with - | r
          · refine outcome_stop i1 i2 (by simp) ?_
            intro c h1
            obtain ⟨as, has, rfl⟩ := (hc f c).mp h1
            exact absurd (i3 as has) (by simp)
          · cases r with
            | err =>
              refine outcome_stop i1 i2 (by simp) ?_
              intro c h1
              obtain ⟨as, has, rfl⟩ := (hc f c).mp h1
              rw [he, head f as has, hh, Res.bind_ok, ← Option.some.inj (i3 as has)]; rfl
            | panic =>
              refine outcome_stop i1 i2 (by simp) ?_
              intro c h1
              obtain ⟨as, has, rfl⟩ := (hc f c).mp h1
              rw [he, head f as has, hh, Res.bind_ok, ← Option.some.inj (i3 as has)]; rfl
            | ok content =>
              simp only
              have ex : ∀ c', unfold (f + 1) h i = some c' → contentEncode c' = withContent m c content := by
                intro c' h1
                obtain ⟨as, has, rfl⟩ := (hc f c').mp h1
                rw [he, head f as has, hh, Res.bind_ok, ← Option.some.inj (i3 as has), Res.bind_ok]
              have su : Typed h → ∃ c', unfold (f + 1 + 1) h i = some c' ∧ contentEncode c' = withContent m c content := by
                intro ht
                have htn : ∀ j ∈ l, h.isRecord j = true := ht i _ hn
                obtain ⟨as, has, hw⟩ := i4 ht (fun j hj g c' hc' => by
                  obtain ⟨n, hn', -, k2⟩ := unfold_kind hc'
                  have := htn j hj
                  simp only [VHeap.isRecord, hn', Bool.not_eq_true'] at this
                  obtain ⟨v, rfl⟩ := k2 this
                  exact ⟨v, rfl⟩) content rfl
                exact ⟨_, (hc _ _).mpr ⟨as, has, rfl⟩, by rw [he, head _ as has, hh, Res.bind_ok, hw, Res.bind_ok]⟩
              obtain ⟨n', hn', hb'⟩ : ∃ n', h'[i]? = some n' ∧ bare n' = bare (.list l e b n) := by
                have := i1.get i
                rw [hn] at this
                simpa [Option.map_eq_some_iff] using this
              cases hw : withContent m c content with
              | err => exact outcome_stop i1 i2 (by simp) (fun c' h1 => by rw [ex c' h1, hw])
              | panic => exact outcome_stop i1 i2 (by simp) (fun c' h1 => by rw [ex c' h1, hw])
              | ok w =>
                refine ⟨i1.trans (Same.set hn' hb'.symm), ?_, ?_, ?_⟩
                · intro ht y
                  obtain ⟨c', h1, h2⟩ := su ht
                  exact (i2 ht y).trans i1 (Kept.set_fresh hn' (i1.contains.mpr ⟨_, h1⟩) (h2.trans hw) rfl rfl y)
                · exact fun c' h1 => by rw [ex c' h1, hw]
                · intro ht w' hw'
                  simp only [Option.some.injEq, Res.ok.injEq] at hw'
                  subst hw'
                  obtain ⟨c', h1, h2⟩ := su ht
                  exact ⟨⟨c', h1, h2.trans hw⟩, _, get_set_self hn' _, rfl, rfl⟩
      | record r =>
        have hc : ∀ g c, unfold (g + 1) h i = some c ↔ ∃ v s, unfoldPart (unfold g h) r.value = some v ∧
            unfoldPart (unfold g h) r.scheme = some s ∧
            c = .inr (.record (r.key.map bareKey) v s r.timestamp r.sigR r.sigS) := by
          intro g c; rw [unfold, hn]
          simp only [Option.bind_eq_some_iff, Option.map_eq_some_iff]
          constructor
          · rintro ⟨v, hv, s, hs, rfl⟩; exact ⟨v, s, hv, hs, rfl⟩
          · rintro ⟨v, s, hv, hs, rfl⟩; exact ⟨v, hv, s, hs, rfl⟩
        have he : ∀ v s, contentEncode (.inr (.record (r.key.map bareKey) v s r.timestamp r.sigR r.sigS)) = _ :=
          fun v s => (CRec.encode_record _ _ _ _ _ _).trans (by rw [recKeyPart_bare])
        simp only
        have s0 : Same h (h.set i (.record { r with key := encodedKey r.key })) := Same.set hn (by simp [bare, bare_encodedKey])
        have k0 : ∀ y, Kept h (h.set i (.record { r with key := encodedKey r.key })) y := fun y => Kept.set (n' := .record { r with key := encodedKey r.key }) hn rfl y rfl
        generalize h.set i (.record { r with key := encodedKey r.key }) = h0 at s0 k0
        cases hk : recKeyPart r.key with
        | err =>
          refine outcome_stop s0 (fun _ => k0) (by simp) ?_
          intro c h1
          obtain ⟨v, s, -, -, rfl⟩ := (hc f c).mp h1
          rw [he, hk]; rfl
        | panic =>
          refine outcome_stop s0 (fun _ => k0) (by simp) ?_
          intro c h1
          obtain ⟨v, s, -, -, rfl⟩ := (hc f c).mp h1
          rw [he, hk]; rfl
        | ok mb =>
          obtain ⟨m1, b1⟩ := mb
          simp only
          obtain ⟨v1, v2, v3, v4⟩ := part_outcome ih r.value h0
          have u0 : ∀ g, unfold g h0 = unfold g h := fun g => funext (s0.unfold_eq g)
          rcases hr1 : encodePart (VHeap.encode f) h0 r.value with ⟨h1, r1⟩
          rw [hr1] at v1 v2 v3 v4
          dsimp only at v1 v2 v3 v4
          rw [u0] at v3 v4
          have s1 : Same h h1 := s0.trans v1
          have k1 : Typed h → ∀ y, Kept h h1 y := fun ht y => (k0 y).trans s0 (v2 (s0.typed ht) y)
          rcases r1 with - | r1
          · refine outcome_stop s1 k1 (by simp) ?_
            intro c e1
            obtain ⟨v, s, hv, hs, rfl⟩ := (hc f c).mp e1
            exact absurd (v3 v hv) (by simp)
          · cases r1 with
            | err =>
              refine outcome_stop s1 k1 (by simp) ?_
              intro c e1
              obtain ⟨v, s, hv, hs, rfl⟩ := (hc f c).mp e1
              rw [he, hk, Res.bind_ok, ← Option.some.inj (v3 v hv)]; rfl
            | panic =>
              refine outcome_stop s1 k1 (by simp) ?_
              intro c e1
              obtain ⟨v, s, hv, hs, rfl⟩ := (hc f c).mp e1
              rw [he, hk, Res.bind_ok, ← Option.some.inj (v3 v hv)]; rfl
            | ok o1 =>
              simp only
              obtain ⟨w1, w2, w3, w4⟩ := part_outcome ih r.scheme h1
              have u1 : ∀ g, unfold g h1 = unfold g h := fun g => funext (s1.unfold_eq g)
              rcases hr2 : encodePart (VHeap.encode f) h1 r.scheme with ⟨h2, r2⟩
              rw [hr2] at w1 w2 w3 w4
              dsimp only at w1 w2 w3 w4
              rw [u1] at w3 w4
              have s2 : Same h h2 := s1.trans w1
              have k2 : Typed h → ∀ y, Kept h h2 y := fun ht y => (k1 ht y).trans s1 (w2 (s1.typed ht) y)
              rcases r2 with - | r2
              · refine outcome_stop s2 k2 (by simp) ?_
                intro c e1
                obtain ⟨v, s, hv, hs, rfl⟩ := (hc f c).mp e1
                exact absurd (w3 s hs) (by simp)
              · cases r2 with
                | err =>
                  refine outcome_stop s2 k2 (by simp) ?_
                  intro c e1
                  obtain ⟨v, s, hv, hs, rfl⟩ := (hc f c).mp e1
                  rw [he, hk, Res.bind_ok, ← Option.some.inj (v3 v hv), Res.bind_ok, ← Option.some.inj (w3 s hs)]; rfl
                | panic =>
                  refine outcome_stop s2 k2 (by simp) ?_
                  intro c e1
                  obtain ⟨v, s, hv, hs, rfl⟩ := (hc f c).mp e1
                  rw [he, hk, Res.bind_ok, ← Option.some.inj (v3 v hv), Res.bind_ok, ← Option.some.inj (w3 s hs)]; rfl
                | ok o2 =>
                  simp only
                  set w := ((0x00 : UInt8) ||| m1 ||| (if o1.isSome then (0x01 : UInt8) <<< 5 else 0) |||
                    (if o2.isSome then (0x01 : UInt8) <<< 4 else 0) ||| (timePart r.timestamp r.sigR r.sigS).1) ::
                      (b1 ++ o1.getD [] ++ o2.getD [] ++ (timePart r.timestamp r.sigR r.sigS).2) with hw
                  have ex : ∀ c, unfold (f + 1) h i = some c → contentEncode c = .ok w := by
                    intro c e1
                    obtain ⟨v, s, hv, hs, rfl⟩ := (hc f c).mp e1
                    rw [he, hk, Res.bind_ok, ← Option.some.inj (v3 v hv), Res.bind_ok, ← Option.some.inj (w3 s hs), Res.bind_ok, hw]
                  have su : Typed h → ∃ c, unfold (f + 1 + 1) h i = some c ∧ contentEncode c = .ok w := by
                    intro ht
                    have htn : (∀ j, r.value = some j → h.isValue j = true) ∧ ∀ j, r.scheme = some j → h.isValue j = true := ht i _ hn
                    obtain ⟨v, hv, hvb⟩ := v4 (s0.typed ht) (fun j hj => by
                      rw [isValue_iff, s0.isValue, ← isValue_iff]; exact htn.1 j hj) o1 rfl
                    obtain ⟨s, hs, hsb⟩ := w4 (s1.typed ht) (fun j hj => by
                      rw [isValue_iff, s1.isValue, ← isValue_iff]; exact htn.2 j hj) o2 rfl
                    exact ⟨_, (hc _ _).mpr ⟨v, s, hv, hs, rfl⟩, by rw [he, hk, Res.bind_ok, hvb, Res.bind_ok, hsb, Res.bind_ok, hw]⟩
                  obtain ⟨n', hn', hb'⟩ : ∃ n', h2[i]? = some n' ∧ bare n' = bare (.record r) := by
                    have := s2.get i
                    rw [hn] at this
                    simpa [Option.map_eq_some_iff] using this
                  have hs3 : Same h2 (h2.set i (.record { r with key := encodedKey r.key, encoded := true, buf := w })) :=
                    Same.set hn' (by rw [hb']; simp [bare, bare_encodedKey])
                  refine ⟨s2.trans hs3, ?_, ?_, ?_⟩
                  · intro ht y
                    obtain ⟨c', e1, e2⟩ := su ht
                    exact (k2 ht y).trans s2 (Kept.set_fresh hn' (s2.contains.mpr ⟨_, e1⟩) e2 rfl rfl y)
                  · exact fun c' e1 => by rw [ex c' e1]
                  · intro ht w' hw'
                    simp only [Option.some.injEq, Res.ok.injEq] at hw'
                    subst hw'
                    obtain ⟨c', e1, e2⟩ := su ht
                    exact ⟨⟨c', e1, e2⟩, _, get_set_self hn' _, rfl, rfl⟩
      | mappedSimple c b =>
        refine outcome_stop (Same.refl h) (fun _ => Kept.refl h) (by simp) (fun c' h1 => ?_)
        rw [unfold, hn] at h1
        simp only [Option.some.injEq] at h1
        rw [← h1, contentEncode, CVal.encode]
      | mappedStd d =>
        refine outcome_stop (Same.refl h) (fun _ => Kept.refl h) (by simp) (fun c' h1 => ?_)
        rw [unfold, hn] at h1
        simp only [Option.some.injEq] at h1
        rw [← h1, contentEncode, CVal.encode]
      | mappedRec r =>
        refine outcome_stop (Same.refl h) (fun _ => Kept.refl h) (by simp) (fun c' h1 => ?_)
        rw [unfold, hn] at h1
        simp only [Option.some.injEq] at h1
        rw [← h1, contentEncode, CRec.encode]

end Poodle
