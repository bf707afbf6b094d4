import Verif.Spec.ValueAccess
import Verif.Lemmas.Value

namespace Poodle
open Spec

/-! ### Records are decoded from a prefix -/

theorem decodeRecPart_ok {buf : Bytes} {bit : UInt8} {limit pos : Nat} {d : StdValue} {pos' : Nat}
    (h : decodeRecPart buf bit limit pos = .ok (d, pos')) :
    pos ≤ pos' ∧ pos' ≤ buf.length ∧ IsStdWire d.buf d.kind d.size d.content ∧ bit ≠ 0 ∧ d.buf.length ≤ limit ∧
      pos' = pos + d.buf.length ∧ ∃ rest, buf.drop pos = d.buf ++ rest := by
  unfold decodeRecPart at h
  by_cases h1 : buf.length < pos
  · rw [if_pos h1] at h; exact absurd h (by simp)
  rw [if_neg h1] at h
  by_cases h2 : bit ≠ 0
  swap
  · rw [if_neg h2] at h; exact absurd h (by simp)
  rw [if_pos h2] at h
  obtain ⟨⟨e, n⟩, h3, h⟩ := Res.bind_eq_ok.mp h
  simp only at h
  split at h
  · exact absurd h (by simp)
  rename_i hlim
  cases h
  obtain ⟨rest, e1, e2, hw⟩ := (decodeStd_ok_iff _ _ _).mp h3
  have := congrArg List.length e1
  simp only [List.length_drop, List.length_append] at this
  exact ⟨by omega, by omega, hw, h2, by omega, rfl, rest, e1⟩

theorem goSlice_zero_ok {buf b : Bytes} {pos : Nat} (h : goSlice buf 0 pos = .ok b) : pos ≤ buf.length ∧ b = buf.take pos := by
  unfold goSlice at h
  split at h
  · rename_i hc
    cases h
    exact ⟨by omega, by simp⟩
  · exact absurd h (by simp)

theorem decodeRecTime_ok {buf : Bytes} {bit : UInt8} {pos pos' : Nat} {t : Option Int}
    (h : decodeRecTime buf bit pos = .ok (t, pos')) : pos ≤ pos' := by
  unfold decodeRecTime at h
  split at h
  · split at h
    · exact absurd h (by simp)
    · obtain ⟨t, -, h⟩ := Res.bind_eq_ok.mp h
      cases h; omega
  · cases h; omega

theorem decodeRecSig_ok {buf : Bytes} {bit : UInt8} {pos pos' : Nat} {t : Option (Int × Int)}
    (h : decodeRecSig buf bit pos = .ok (t, pos')) : pos ≤ pos' := by
  unfold decodeRecSig at h
  split at h
  · split at h
    · exact absurd h (by simp)
    · split at h
      · cases h; omega
      · obtain ⟨t, -, h⟩ := Res.bind_eq_ok.mp h
        obtain ⟨t, -, h⟩ := Res.bind_eq_ok.mp h
        cases h; omega
  · cases h; omega

/-- What is known about a decoded record. -/
theorem decodeRecord_ok {buf : Bytes} {r : RecInfo} {n : Nat} (h : decodeRecord buf = .ok (r, n)) :
    1 ≤ n ∧ n ≤ buf.length ∧ r.buf = buf.take n ∧
      IsStdWire r.value.buf r.value.kind r.value.size r.value.content ∧
      IsStdWire r.scheme.buf r.scheme.kind r.scheme.size r.scheme.content := by
  unfold decodeRecord at h
  by_cases h0 : buf.length < 1
  · rw [if_pos h0] at h; exact absurd h (by simp)
  rw [if_neg h0] at h
  obtain ⟨m, -, h⟩ := Res.bind_eq_ok.mp h
  by_cases hb : (m >>> 6) &&& 0x01 = 0
  · rw [if_pos hb] at h; exact absurd h (by simp)
  rw [if_neg hb] at h
  obtain ⟨k, -, h⟩ := Res.bind_eq_ok.mp h
  by_cases hk : k.1.getBuf.length > maxKeyLength
  · rw [if_pos hk] at h; exact absurd h (by simp)
  rw [if_neg hk] at h
  obtain ⟨⟨v, p1⟩, h1, h⟩ := Res.bind_eq_ok.mp h
  obtain ⟨⟨s, p2⟩, h2, h⟩ := Res.bind_eq_ok.mp h
  obtain ⟨⟨ts, p3⟩, h3, h⟩ := Res.bind_eq_ok.mp h
  obtain ⟨⟨sg, p4⟩, h4, h⟩ := Res.bind_eq_ok.mp h
  obtain ⟨b, h5, h⟩ := Res.bind_eq_ok.mp h
  cases h
  obtain ⟨q1, -, w1, -⟩ := decodeRecPart_ok h1
  obtain ⟨q2, -, w2, -⟩ := decodeRecPart_ok h2
  have q3 := decodeRecTime_ok h3
  have q4 := decodeRecSig_ok h4
  obtain ⟨q5, rfl⟩ := goSlice_zero_ok h5
  simp only at q1 q2 q3 q4 q5
  exact ⟨by omega, q5, rfl, w1, w2⟩

/-! ### Elements of a content -/

theorem elemOf_ok_lt {α : Type} {dec : Bytes → Res (α × Nat)} : ∀ {i : Nat} {c : Bytes} {x : α}, elemOf dec c i = .ok x →
    ∀ j, j < i → ∃ y, elemOf dec c j = .ok y
  | 0, _, _, _, j, hj => by omega
  | i + 1, c, x, h, j, hj => by
    rw [elemOf] at h
    obtain ⟨⟨y, n⟩, h1, h2⟩ := Res.bind_eq_ok.mp h
    rcases j with - | j
    · exact ⟨y, by rw [elemOf, h1]; rfl⟩
    · obtain ⟨z, hz⟩ := elemOf_ok_lt h2 j (by omega)
      exact ⟨z, by rw [elemOf, h1]; exact hz⟩

/-- If an element cannot be read, neither can the following ones, and for the same reason. -/
theorem elemOf_fail {α : Type} {dec : Bytes → Res (α × Nat)} : ∀ {i : Nat} {c : Bytes}, (∀ x, elemOf dec c i ≠ .ok x) →
    ∀ j, i ≤ j → elemOf dec c j = elemOf dec c i
  | 0, c, h, j, hj => by
    rcases e : dec c with ⟨x, n⟩ | - | -
    · exact absurd (by rw [elemOf, e]; rfl) (h x)
    · cases j <;> simp [elemOf, e]
    · cases j <;> simp [elemOf, e]
  | i + 1, c, h, j, hj => by
    rcases j with - | j
    · omega
    rcases e : dec c with ⟨x, n⟩ | - | -
    · rw [elemOf, elemOf, e]
      simp only [Res.bind_ok]
      refine elemOf_fail (fun x hx => h x ?_) j (by omega)
      rw [elemOf, e]; exact hx
    · simp [elemOf, e]
    · simp [elemOf, e]

theorem elemOf_std_ne_panic : ∀ (i : Nat) (c : Bytes), elemOf decodeStd c i ≠ .panic
  | 0, c => by
    rcases hd : decodeStd c with ⟨y, m⟩ | - | -
    · simp [elemOf, hd]
    · simp [elemOf, hd]
    · exact absurd hd (decodeStd_ne_panic c)
  | i + 1, c => by
    rcases hd : decodeStd c with ⟨y, m⟩ | - | -
    · simp only [elemOf, hd, Res.bind_ok]; exact elemOf_std_ne_panic i _
    · simp [elemOf, hd]
    · exact absurd hd (decodeStd_ne_panic c)

/-! ### Coherent heaps -/

/-- `p` points to the value `d`. -/
def RepV (h : Heap) (p : Nat) (d : StdValue) : Prop := ∃ sl, h[p]? = some (.val d sl)

/-- `p` points to the record `r`. -/
def RepR (h : Heap) (p : Nat) (r : RecInfo) : Prop := ∃ v s, h[p]? = some (.record r v s)

/-- The first `k` slots hold the first `k` elements; the next may be the mark of a failure; the others are empty. -/
structure SlotsK {α : Type} (dec : Bytes → Res (α × Nat)) (rep : Nat → α → Prop) (content : Bytes) (sl : List Slot) (k : Nat) :
    Prop where
  le : k ≤ sl.length
  filled : ∀ i, i < k → ∃ p x, sl[i]? = some (.obj p) ∧ elemOf dec content i = .ok x ∧ rep p x
  empty : ∀ i, k < i → i < sl.length → sl[i]? = some .empty
  next : k < sl.length → sl[k]? = some .empty ∨ (sl[k]? = some .typedNil ∧ elemOf dec content k = .err)

theorem SlotsK.mono {α : Type} {dec : Bytes → Res (α × Nat)} {rep rep' : Nat → α → Prop} {content : Bytes} {sl : List Slot} {k : Nat}
    (h : SlotsK dec rep content sl k) (hr : ∀ p x, rep p x → rep' p x) : SlotsK dec rep' content sl k :=
  ⟨h.le, fun i hi => by
    obtain ⟨p, x, h1, h2, h3⟩ := h.filled i hi
    exact ⟨p, x, h1, h2, hr p x h3⟩, h.empty, h.next⟩

/-- What holds of each object. -/
def ObjOk (h : Heap) : Obj → Prop
  | .val d sl =>
    IsStdWire d.buf d.kind d.size d.content ∧
    match d.kind with
    | .prim => sl = []
    | .array => sl.length = d.size ∧ ∃ k, SlotsK decodeStd (RepV h) d.content sl k
    | .records => sl.length = d.size ∧ ∃ k, SlotsK decodeRecord (RepR h) d.content sl k
  | .record r v s => RepV h v r.value ∧ RepV h s r.scheme

/-- All objects are as they should be. -/
def Coherent (h : Heap) : Prop := ∀ (id : Nat) (o : Obj), h[id]? = some o → ObjOk h o

/-- `h'` is a later state than `h`: objects keep their content, filled slots stay filled. -/
def Extends (h h' : Heap) : Prop :=
  (∀ (id : Nat) d sl, h[id]? = some (.val d sl) → ∃ sl', h'[id]? = some (.val d sl') ∧ sl'.length = sl.length ∧
    ∀ (i : Nat) s, sl[i]? = some s → s ≠ Slot.empty → sl'[i]? = some s) ∧
  (∀ (id : Nat) r v s, h[id]? = some (.record r v s) → h'[id]? = some (.record r v s))

theorem Extends.refl (h : Heap) : Extends h h := ⟨fun _ _ sl e => ⟨sl, e, rfl, fun _ _ e _ => e⟩, fun _ _ _ _ e => e⟩

theorem Extends.trans {h h' h'' : Heap} (a : Extends h h') (b : Extends h' h'') : Extends h h'' := by
  constructor
  · intro id d sl e
    obtain ⟨sl', e', l', s'⟩ := a.1 id d sl e
    obtain ⟨sl'', e'', l'', s''⟩ := b.1 id d sl' e'
    exact ⟨sl'', e'', by omega, fun i s hs hne => s'' i s (s' i s hs hne) hne⟩
  · intro id r v s e
    exact b.2 id r v s (a.2 id r v s e)

theorem RepV.mono {h h' : Heap} (a : Extends h h') {p : Nat} {d : StdValue} : RepV h p d → RepV h' p d := by
  rintro ⟨sl, e⟩
  obtain ⟨sl', e', -⟩ := a.1 p d sl e
  exact ⟨sl', e'⟩

theorem RepR.mono {h h' : Heap} (a : Extends h h') {p : Nat} {r : RecInfo} : RepR h p r → RepR h' p r := by
  rintro ⟨v, s, e⟩
  exact ⟨v, s, a.2 p r v s e⟩

theorem ObjOk.mono {h h' : Heap} (a : Extends h h') {o : Obj} (ho : ObjOk h o) : ObjOk h' o := by
  cases o with
  | val d sl =>
    obtain ⟨hw, ho⟩ := ho
    refine ⟨hw, ?_⟩
    rcases e : d.kind <;> rw [e] at ho
    · exact ho
    · exact ⟨ho.1, ho.2.imp fun k hk => hk.mono fun p x => RepV.mono a⟩
    · exact ⟨ho.1, ho.2.imp fun k hk => hk.mono fun p x => RepR.mono a⟩
  | record r v s => exact ⟨RepV.mono a ho.1, RepV.mono a ho.2⟩

theorem extends_append (h ext : Heap) : Extends h (h ++ ext) := by
  constructor
  · intro id d sl e
    exact ⟨sl, by rw [List.getElem?_append_left (List.getElem?_eq_some_iff.mp e).1]; exact e, rfl, fun _ _ e _ => e⟩
  · intro id r v s e
    rw [List.getElem?_append_left (List.getElem?_eq_some_iff.mp e).1]; exact e

theorem extends_set {h : Heap} {id : Nat} {d : StdValue} {sl sl' : List Slot} (e : h[id]? = some (.val d sl))
    (hl : sl'.length = sl.length) (hs : ∀ (i : Nat) s, sl[i]? = some s → s ≠ Slot.empty → sl'[i]? = some s) :
    Extends h (h.set id (.val d sl')) := by
  have hid := (List.getElem?_eq_some_iff.mp e).1
  constructor
  · intro id' d' sl'' e'
    by_cases hh : id = id'
    · subst hh
      rw [e] at e'
      cases e'
      exact ⟨sl', by rw [List.getElem?_set_self hid], hl, hs⟩
    · exact ⟨sl'', by rw [List.getElem?_set_ne hh]; exact e', rfl, fun _ _ e _ => e⟩
  · intro id' r v s e'
    by_cases hh : id = id'
    · subst hh; rw [e] at e'; exact absurd e' (by simp)
    · rw [List.getElem?_set_ne hh]; exact e'

/-- Replacing the slots of one object by other correct ones. -/
theorem coherent_set {h : Heap} (hc : Coherent h) {id : Nat} {d : StdValue} {sl sl' : List Slot}
    (e : h[id]? = some (.val d sl)) (hl : sl'.length = sl.length) (hs : ∀ (i : Nat) s, sl[i]? = some s → s ≠ Slot.empty → sl'[i]? = some s)
    (ho : ObjOk h (.val d sl')) : Coherent (h.set id (.val d sl')) := by
  have hid := (List.getElem?_eq_some_iff.mp e).1
  have ex := extends_set e hl hs
  intro id' o e'
  by_cases hh : id = id'
  · subst hh
    rw [List.getElem?_set_self hid] at e'
    cases e'
    exact ho.mono ex
  · rw [List.getElem?_set_ne hh] at e'
    exact (hc id' o e').mono ex

theorem freshVal_ok (h : Heap) {d : StdValue} (hw : IsStdWire d.buf d.kind d.size d.content) : ObjOk h (freshVal d) := by
  unfold freshVal
  refine ⟨hw, ?_⟩
  rcases e : d.kind
  · simp
  · refine ⟨by simp, 0, ⟨Nat.zero_le _, by omega, ?_, ?_⟩⟩
    · intro i _ hi
      simp only [reduceCtorEq, if_false, List.length_replicate] at hi ⊢
      simp [hi]
    · intro hi
      left
      simp only [reduceCtorEq, if_false, List.length_replicate] at hi ⊢
      simp [hi]
  · refine ⟨by simp, 0, ⟨Nat.zero_le _, by omega, ?_, ?_⟩⟩
    · intro i _ hi
      simp only [reduceCtorEq, if_false, List.length_replicate] at hi ⊢
      simp [hi]
    · intro hi
      left
      simp only [reduceCtorEq, if_false, List.length_replicate] at hi ⊢
      simp [hi]

theorem coherent_nil : Coherent [] := by
  intro id o e; simp at e

theorem coherent_append {h ext : Heap} (hc : Coherent h) (he : ∀ o ∈ ext, ObjOk (h ++ ext) o) : Coherent (h ++ ext) := by
  intro id o e
  rcases Nat.lt_or_ge id h.length with hl | hl
  · rw [List.getElem?_append_left hl] at e
    exact (hc id o e).mono (extends_append h ext)
  · rw [List.getElem?_append_right hl] at e
    exact he o (List.mem_of_getElem? e)

/-! ### Allocation -/

/-- What an allocating decoder does. -/
structure AllocSpec {α : Type} (alloc : Heap → Bytes → Heap × Res Nat) (dec : Bytes → Res (α × Nat))
    (rep : Heap → Nat → α → Prop) (kind : VKind) : Prop where
  onOk : ∀ h buf x n, Coherent h → dec buf = .ok (x, n) →
    ∃ ext p, alloc h buf = (h ++ ext, .ok p) ∧ Coherent (h ++ ext) ∧ rep (h ++ ext) p x
  onErr : ∀ h buf, dec buf = .err → alloc h buf = (h, .err)
  onPanic : ∀ h buf, dec buf = .panic → alloc h buf = (h, .panic)
  size : ∀ h buf x n p, dec buf = .ok (x, n) → rep h p x → n ≤ buf.length ∧ ∃ o, h[p]? = some o ∧ o.bufLen = n
  mono : ∀ h h' p x, Extends h h' → rep h p x → rep h' p x
  slotsOf : ∀ h d sl, d.kind = kind → ObjOk h (.val d sl) →
    IsStdWire d.buf d.kind d.size d.content ∧ sl.length = d.size ∧ ∃ k, SlotsK dec (rep h) d.content sl k
  objOk : ∀ h d sl k, d.kind = kind → IsStdWire d.buf d.kind d.size d.content → sl.length = d.size →
    SlotsK dec (rep h) d.content sl k → ObjOk h (.val d sl)

theorem allocStd_spec : AllocSpec allocStd decodeStd RepV .array where
  onOk := by
    intro h buf d n hc hd
    obtain ⟨-, -, -, hw⟩ := (decodeStd_ok_iff _ _ _).mp hd
    refine ⟨[freshVal d], h.length, by simp [allocStd, hd], coherent_append hc ?_, ?_⟩
    · intro o ho
      rw [List.mem_singleton] at ho
      subst ho
      exact freshVal_ok _ hw
    · exact ⟨_, by rw [List.getElem?_append_right (Nat.le_refl _)]; simp [freshVal]; rfl⟩
  onErr := by intro h buf hd; simp [allocStd, hd]
  onPanic := by intro h buf hd; simp [allocStd, hd]
  size := by
    rintro h buf d n p hd ⟨sl, e⟩
    obtain ⟨rest, e1, e2, hw⟩ := (decodeStd_ok_iff _ _ _).mp hd
    have := congrArg List.length e1
    simp only [List.length_append] at this
    exact ⟨by omega, _, e, e2.symm⟩
  mono := fun h h' p x a => RepV.mono a
  slotsOf := by
    intro h d sl hk ho
    obtain ⟨hw, ho⟩ := ho
    rw [hk] at ho
    exact ⟨hw, ho⟩
  objOk := by
    intro h d sl k hk hw hl hs
    refine ⟨hw, ?_⟩
    rw [hk]
    exact ⟨hl, k, hs⟩

theorem allocRec_spec : AllocSpec allocRec decodeRecord RepR .records where
  onOk := by
    intro h buf r n hc hd
    obtain ⟨-, -, -, w1, w2⟩ := decodeRecord_ok hd
    have e0 : (h ++ [freshVal r.value, freshVal r.scheme, .record r h.length (h.length + 1)])[h.length]? = some (freshVal r.value) := by
      rw [List.getElem?_append_right (Nat.le_refl _)]; simp
    have e1 : (h ++ [freshVal r.value, freshVal r.scheme, .record r h.length (h.length + 1)])[h.length + 1]? = some (freshVal r.scheme) := by
      rw [List.getElem?_append_right (by omega)]; simp
    have e2 : (h ++ [freshVal r.value, freshVal r.scheme, .record r h.length (h.length + 1)])[h.length + 2]? =
        some (.record r h.length (h.length + 1)) := by
      rw [List.getElem?_append_right (by omega)]; simp
    refine ⟨_, h.length + 2, by simp only [allocRec, hd], coherent_append hc ?_, ⟨_, _, e2⟩⟩
    intro o ho
    simp only [List.mem_cons, List.not_mem_nil, or_false] at ho
    rcases ho with rfl | rfl | rfl
    · exact freshVal_ok _ w1
    · exact freshVal_ok _ w2
    · exact ⟨⟨_, e0⟩, ⟨_, e1⟩⟩
  onErr := by intro h buf hd; simp [allocRec, hd]
  onPanic := by intro h buf hd; simp [allocRec, hd]
  size := by
    rintro h buf r n p hd ⟨v, s, e⟩
    obtain ⟨-, h1, h2, -⟩ := decodeRecord_ok hd
    exact ⟨h1, _, e, by simp [Obj.bufLen, h2, h1]⟩
  mono := fun h h' p x a => RepR.mono a
  slotsOf := by
    intro h d sl hk ho
    obtain ⟨hw, ho⟩ := ho
    rw [hk] at ho
    exact ⟨hw, ho⟩
  objOk := by
    intro h d sl k hk hw hl hs
    refine ⟨hw, ?_⟩
    rw [hk]
    exact ⟨hl, k, hs⟩

/-! ### The loop -/

theorem slot_eq {h : Heap} {id : Nat} {d : StdValue} {sl : List Slot} (e : h[id]? = some (.val d sl)) (i : Nat) :
    h.slot id i = sl[i]? := by
  simp [Heap.slot, e]

theorem setSlot_eq {h : Heap} {id : Nat} {d : StdValue} {sl : List Slot} (e : h[id]? = some (.val d sl)) (i : Nat) (s : Slot) :
    h.setSlot id i s = h.set id (.val d (sl.set i s)) := by
  simp [Heap.setSlot, e]

/-- The result of a failed read of element `f`. -/
def failed {α β : Type} : Res α → Res β
  | .ok _ => .panic
  | .err => .err
  | .panic => .panic

/-- What a failed read leaves in the slot. -/
def markOf {α : Type} : Res α → Slot
  | .err => .typedNil
  | _ => .empty

/-- The state after the loop. -/
structure LoopPost {α : Type} (dec : Bytes → Res (α × Nat)) (rep : Heap → Nat → α → Prop) (id : Nat) (d : StdValue)
    (h h' : Heap) (sl' : List Slot) (k' : Nat) : Prop where
  coh : Coherent h'
  ext : Extends h h'
  obj : h'[id]? = some (.val d sl')
  slots : SlotsK dec (rep h') d.content sl' k'

section
variable {α : Type} {alloc : Heap → Bytes → Heap × Res Nat} {dec : Bytes → Res (α × Nat)} {rep : Heap → Nat → α → Prop} {kind : VKind}

/-- The loop over elements that are already there. -/
theorem lazyLoop_filled (A : AllocSpec alloc dec rep kind) {id : Nat} {d : StdValue} {h : Heap} {sl : List Slot} {k : Nat}
    (e : h[id]? = some (.val d sl)) (hs : SlotsK dec (rep h) d.content sl k) :
    ∀ (m i pos n : Nat), i + m = k → pos ≤ d.content.length →
      (∀ j, elemOf dec d.content (i + j) = elemOf dec (d.content.drop pos) j) →
      ∃ pos', pos' ≤ d.content.length ∧ (∀ j, elemOf dec d.content (k + j) = elemOf dec (d.content.drop pos') j) ∧
        lazyLoop alloc d.content id (m + n) i pos h = lazyLoop alloc d.content id n k pos' h := by
  intro m
  induction m with
  | zero =>
    intro i pos n hi hp hj
    obtain rfl : i = k := by omega
    exact ⟨pos, hp, hj, by rw [Nat.zero_add]⟩
  | succ m ih =>
    intro i pos n hi hp hj
    obtain ⟨p, x, h1, h2, h3⟩ := hs.filled i (by omega)
    have h4 : elemOf dec (d.content.drop pos) 0 = .ok x := by rw [← hj 0]; exact h2
    rw [elemOf] at h4
    obtain ⟨⟨y, c⟩, h5, h6⟩ := Res.bind_eq_ok.mp h4
    simp only [Res.ok.injEq] at h6
    subst h6
    obtain ⟨hc, o, ho, hb⟩ := A.size h _ y c p h5 h3
    rw [List.length_drop] at hc
    obtain ⟨pos', q1, q2, q3⟩ := ih (i + 1) (pos + c) n (by omega) (by omega) (by
      intro j
      have := hj (1 + j)
      rw [← Nat.add_assoc] at this
      rw [this, Nat.add_comm 1 j, elemOf, h5]
      simp [List.drop_drop])
    refine ⟨pos', q1, q2, ?_⟩
    rw [← q3, show m + 1 + n = (m + n) + 1 by omega, lazyLoop, slot_eq e, h1]
    simp only
    rw [ho]
    simp only
    rw [hb]

/-- The loop over elements that are not there yet: they are read, up to the first that fails. -/
theorem lazyLoop_new (A : AllocSpec alloc dec rep kind) {id : Nat} {d : StdValue} (hkind : d.kind = kind) :
    ∀ (n k pos : Nat) (h : Heap) (sl : List Slot), Coherent h → h[id]? = some (.val d sl) → SlotsK dec (rep h) d.content sl k →
      k + n ≤ sl.length → (0 < n → sl[k]? = some .empty) → pos ≤ d.content.length →
      (∀ j, elemOf dec d.content (k + j) = elemOf dec (d.content.drop pos) j) →
      (∃ h' sl', lazyLoop alloc d.content id n k pos h = (h', .ok ()) ∧ LoopPost dec rep id d h h' sl' (k + n) ∧
          (k + n < sl.length → sl'[k + n]? = sl[k + n]?)) ∨
      (∃ f h' sl', k ≤ f ∧ f < k + n ∧ (∀ x, elemOf dec d.content f ≠ .ok x) ∧
        lazyLoop alloc d.content id n k pos h = (h', failed (elemOf dec d.content f)) ∧
        LoopPost dec rep id d h h' sl' f ∧
        sl'[f]? = some (markOf (elemOf dec d.content f))) := by
  intro n
  induction n with
  | zero =>
    intro k pos h sl hc e hs hk he hp hj
    left
    exact ⟨h, sl, rfl, ⟨hc, Extends.refl h, e, by simpa using hs⟩, fun _ => rfl⟩
  | succ n ih =>
    intro k pos h sl hc e hs hk he hp hj
    have hek := he (by omega)
    obtain ⟨hw, hl, -⟩ := A.slotsOf h d sl hkind (hc id _ e)
    rw [lazyLoop, slot_eq e, hek]
    simp only
    rw [if_neg (by omega)]
    have h0 : elemOf dec d.content k = elemOf dec (d.content.drop pos) 0 := by simpa using hj 0
    rw [elemOf] at h0
    rcases hd : dec (d.content.drop pos) with ⟨x, c⟩ | - | -
    · -- the element is read
      rw [hd] at h0
      simp only [Res.bind_ok] at h0
      obtain ⟨ext, p, ha, hc1, hr⟩ := A.onOk h _ x c hc hd
      rw [ha]
      simp only
      obtain ⟨hcl, o, ho, hb⟩ := A.size _ _ x c p hd hr
      rw [List.length_drop] at hcl
      rw [ho]
      simp only
      rw [hb]
      have e1 : (h ++ ext)[id]? = some (.val d sl) := by
        rw [List.getElem?_append_left (List.getElem?_eq_some_iff.mp e).1]; exact e
      rw [setSlot_eq e1]
      have hset : ∀ (i : Nat) s, sl[i]? = some s → s ≠ Slot.empty → (sl.set k (.obj p))[i]? = some s := by
        intro i s h1 h2
        by_cases hik : k = i
        · subst hik; rw [hek] at h1; cases h1; exact absurd rfl h2
        · rw [List.getElem?_set_ne hik]; exact h1
      have hlen : (sl.set k (.obj p)).length = sl.length := List.length_set
      have hmono := fun q y => A.mono h (h ++ ext) q y (extends_append h ext)
      have hs1 : SlotsK dec (rep (h ++ ext)) d.content (sl.set k (.obj p)) (k + 1) := by
        refine ⟨by omega, ?_, ?_, ?_⟩
        · intro i hi
          by_cases hik : k = i
          · subst hik
            exact ⟨p, x, by rw [List.getElem?_set_self (by omega)], h0, hr⟩
          · obtain ⟨q, y, h1, h2, h3⟩ := hs.filled i (by omega)
            exact ⟨q, y, by rw [List.getElem?_set_ne hik]; exact h1, h2, hmono q y h3⟩
        · intro i h1 h2
          rw [List.getElem?_set_ne (by omega)]
          exact hs.empty i (by omega) (by omega)
        · intro h1
          left
          rw [List.getElem?_set_ne (by omega)]
          exact hs.empty (k + 1) (by omega) (by omega)
      have hc2 := coherent_set hc1 e1 hlen hset (A.objOk _ d _ _ hkind hw (by omega) hs1)
      have ex2 : Extends (h ++ ext) ((h ++ ext).set id (.val d (sl.set k (.obj p)))) := extends_set e1 hlen hset
      have e2 : ((h ++ ext).set id (.val d (sl.set k (.obj p))))[id]? = some (.val d (sl.set k (.obj p))) :=
        List.getElem?_set_self (List.getElem?_eq_some_iff.mp e1).1
      have hs2 := hs1.mono fun q y => A.mono _ _ q y ex2
      have ex3 := (extends_append h ext).trans ex2
      have hnext : ∀ i, k < i → (sl.set k (.obj p))[i]? = sl[i]? := fun i hi => List.getElem?_set_ne (by omega)
      rcases ih (k + 1) (pos + c) _ _ hc2 e2 hs2 (by omega) (fun _ => by
          rw [hnext _ (by omega)]; exact hs.empty (k + 1) (by omega) (by omega)) (by omega) (by
          intro j
          have := hj (1 + j)
          rw [← Nat.add_assoc] at this
          rw [this, Nat.add_comm 1 j, elemOf, hd]
          simp [List.drop_drop]) with ⟨h', sl', r1, r2, r3⟩ | ⟨f, h', sl', q1, q2, q3, q4, q5, q6⟩
      · left
        refine ⟨h', sl', r1, ⟨r2.coh, ex3.trans r2.ext, r2.obj, by rw [show k + (n + 1) = k + 1 + n by omega]; exact r2.slots⟩, ?_⟩
        intro hlt
        rw [show k + (n + 1) = k + 1 + n by omega, r3 (by omega)]
        exact hnext _ (by omega)
      · right
        exact ⟨f, h', sl', by omega, by omega, q3, q4, ⟨q5.coh, ex3.trans q5.ext, q5.obj, q5.slots⟩, q6⟩
    · -- the element is malformed
      rw [hd] at h0
      simp only [Res.bind_err] at h0
      right
      rw [A.onErr h _ hd]
      simp only
      rw [setSlot_eq e]
      have hset : ∀ (i : Nat) s, sl[i]? = some s → s ≠ Slot.empty → (sl.set k .typedNil)[i]? = some s := by
        intro i s h1 h2
        by_cases hik : k = i
        · subst hik; rw [hek] at h1; cases h1; exact absurd rfl h2
        · rw [List.getElem?_set_ne hik]; exact h1
      have hlen : (sl.set k .typedNil).length = sl.length := List.length_set
      have hs1 : SlotsK dec (rep h) d.content (sl.set k .typedNil) k := by
        refine ⟨by omega, ?_, ?_, ?_⟩
        · intro i hi
          obtain ⟨q, y, h1, h2, h3⟩ := hs.filled i (by omega)
          exact ⟨q, y, by rw [List.getElem?_set_ne (by omega)]; exact h1, h2, h3⟩
        · intro i h1 h2
          rw [List.getElem?_set_ne (by omega)]
          exact hs.empty i (by omega) (by omega)
        · intro h1
          right
          exact ⟨by rw [List.getElem?_set_self (by omega)], h0⟩
      have ex := extends_set e hlen hset
      refine ⟨k, _, sl.set k .typedNil, Nat.le_refl _, by omega, by simp [h0], by rw [h0]; rfl,
        ⟨coherent_set hc e hlen hset (A.objOk _ d _ _ hkind hw (by omega) hs1), ex,
          List.getElem?_set_self (List.getElem?_eq_some_iff.mp e).1, hs1.mono fun q y => A.mono _ _ q y ex⟩, ?_⟩
      rw [h0, List.getElem?_set_self (by omega)]; rfl
    · -- decoding panics
      rw [hd] at h0
      simp only [Res.bind_panic] at h0
      right
      rw [A.onPanic h _ hd]
      exact ⟨k, h, sl, Nat.le_refl _, by omega, by simp [h0], by rw [h0]; rfl, ⟨hc, Extends.refl h, e, hs⟩,
        by rw [h0, hek]; rfl⟩

/-- The loop when a failure mark is met. -/
theorem lazyLoop_mark {id : Nat} {d : StdValue} {h : Heap} {sl : List Slot} {k : Nat} (e : h[id]? = some (.val d sl))
    (hm : sl[k]? = some .typedNil) (n pos : Nat) : lazyLoop alloc d.content id (n + 1) k pos h = (h, .panic) := by
  rw [lazyLoop, slot_eq e, hm]

/-- Access to an element that can be read, in any state. -/
theorem lazyAt_ok (A : AllocSpec alloc dec rep kind) {id : Nat} {d : StdValue} (hkind : d.kind = kind) {h : Heap} {sl : List Slot}
    (hc : Coherent h) (e : h[id]? = some (.val d sl)) {idx : Nat} (hidx : idx < d.size) {x : α}
    (hx : elemOf dec d.content idx = .ok x) :
    ∃ h' p, lazyAt alloc h id d idx = (h', .ok (some p)) ∧ Coherent h' ∧ Extends h h' ∧ rep h' p x ∧ h'.slot id idx = some (.obj p) ∧
      ∀ f, idx < f → sl[f]? = some .empty → h'.slot id f = some .empty := by
  obtain ⟨hw, hl, k, hs⟩ := A.slotsOf h d sl hkind (hc id _ e)
  unfold lazyAt
  rw [if_neg (by omega), slot_eq e]
  by_cases hik : idx < k
  · obtain ⟨p, y, h1, h2, h3⟩ := hs.filled idx hik
    rw [h2] at hx
    cases hx
    rw [h1]
    exact ⟨h, p, rfl, hc, Extends.refl h, h3, by rw [slot_eq e, h1], fun f _ hf => by rw [slot_eq e, hf]⟩
  · have hkl : k < sl.length := by omega
    have hke : sl[k]? = some .empty := by
      rcases hs.next hkl with h1 | ⟨-, h2⟩
      · exact h1
      · by_cases hh : k = idx
        · subst hh; rw [h2] at hx; exact absurd hx (by simp)
        · obtain ⟨y, hy⟩ := elemOf_ok_lt hx k (by omega)
          rw [h2] at hy; exact absurd hy (by simp)
    have hie : sl[idx]? = some .empty := by
      by_cases hh : k = idx
      · subst hh; exact hke
      · exact hs.empty idx (by omega) (by omega)
    rw [hie]
    simp only
    obtain ⟨pos, q1, q2, q3⟩ := lazyLoop_filled (alloc := alloc) A e hs k 0 0 (idx + 1 - k) (by omega) (Nat.zero_le _) (by simp)
    rw [show idx + 1 = k + (idx + 1 - k) by omega, q3]
    rcases lazyLoop_new A hkind (idx + 1 - k) k pos h sl hc e hs (by omega) (fun _ => hke) q1 q2 with
      ⟨h', sl', r1, r2, r3⟩ | ⟨f, h', sl', p1, p2, p3, -⟩
    · rw [r1]
      simp only
      obtain ⟨p, y, h1, h2, h3⟩ := r2.slots.filled idx (by omega)
      rw [h2] at hx
      cases hx
      rw [slot_eq r2.obj, h1]
      refine ⟨h', p, rfl, r2.coh, r2.ext, h3, by rw [slot_eq r2.obj, h1], ?_⟩
      intro f hf hfe
      rw [slot_eq r2.obj]
      have hfl := (List.getElem?_eq_some_iff.mp hfe).1
      by_cases hh : f = k + (idx + 1 - k)
      · rw [hh, r3 (by omega), ← hh]; exact hfe
      · obtain ⟨sl'', e', hl', -⟩ := r2.ext.1 id d sl e
        rw [r2.obj] at e'
        cases e'
        exact r2.slots.empty f (by omega) (by omega)
    · exfalso
      by_cases hh : f = idx
      · subst hh; exact p3 x hx
      · obtain ⟨y, hy⟩ := elemOf_ok_lt hx f (by omega)
        exact p3 y hy

/-- Access to an element that cannot be read; `f` is the first such element. -/
theorem lazyAt_fail (A : AllocSpec alloc dec rep kind) {id : Nat} {d : StdValue} (hkind : d.kind = kind) {h : Heap} {sl : List Slot}
    (hc : Coherent h) (e : h[id]? = some (.val d sl)) {idx f : Nat} (hidx : idx < d.size) (hf : f ≤ idx)
    (hfail : ∀ x, elemOf dec d.content f ≠ .ok x) (hmin : ∀ j, j < f → ∃ x, elemOf dec d.content j = .ok x) :
    (sl[f]? = some .empty → ∃ h', lazyAt alloc h id d idx = (h', failed (elemOf dec d.content f)) ∧ Coherent h' ∧ Extends h h' ∧
        h'.slot id f = some (markOf (elemOf dec d.content f))) ∧
    (sl[f]? = some .typedNil → lazyAt alloc h id d idx = (h, if idx = f then .ok none else .panic)) ∧
    (sl[f]? = some .empty ∨ sl[f]? = some .typedNil) := by
  obtain ⟨hw, hl, k, hs⟩ := A.slotsOf h d sl hkind (hc id _ e)
  have hkf : k ≤ f := by
    by_contra hlt
    obtain ⟨p, y, h1, h2, h3⟩ := hs.filled f (by omega)
    exact hfail y h2
  have hfe : sl[f]? = some .empty ∨ sl[f]? = some .typedNil := by
    by_cases hh : k = f
    · subst hh
      rcases hs.next (by omega) with h1 | ⟨h1, -⟩
      · exact Or.inl h1
      · exact Or.inr h1
    · exact Or.inl (hs.empty f (by omega) (by omega))
  have hmark : sl[f]? = some .typedNil → k = f := by
    intro h1
    by_contra hh
    rw [hs.empty f (by omega) (by omega)] at h1
    exact absurd h1 (by simp)
  refine ⟨?_, ?_, hfe⟩
  · intro h1
    have hke : sl[k]? = some .empty := by
      by_cases hh : k = f
      · subst hh; exact h1
      · rcases hs.next (by omega) with h2 | ⟨-, h2⟩
        · exact h2
        · obtain ⟨y, hy⟩ := hmin k (by omega)
          rw [h2] at hy; exact absurd hy (by simp)
    have hie : sl[idx]? = some .empty := by
      by_cases hh : k = idx
      · subst hh; exact hke
      · exact hs.empty idx (by omega) (by omega)
    unfold lazyAt
    rw [if_neg (by omega), slot_eq e, hie]
    simp only
    obtain ⟨pos, q1, q2, q3⟩ := lazyLoop_filled (alloc := alloc) A e hs k 0 0 (idx + 1 - k) (by omega) (Nat.zero_le _) (by simp)
    rw [show idx + 1 = k + (idx + 1 - k) by omega, q3]
    rcases lazyLoop_new A hkind (idx + 1 - k) k pos h sl hc e hs (by omega) (fun _ => hke) q1 q2 with
      ⟨h', sl', r1, r2, -⟩ | ⟨g, h', sl', p1, p2, p3, p4, p5, p6⟩
    · exfalso
      obtain ⟨p, y, h1, h2, h3⟩ := r2.slots.filled f (by omega)
      exact hfail y h2
    · have hgf : g = f := by
        rcases Nat.lt_trichotomy g f with hlt | heq | hgt
        · obtain ⟨y, hy⟩ := hmin g hlt
          exact absurd hy (p3 y)
        · exact heq
        · obtain ⟨p, y, h1, h2, h3⟩ := p5.slots.filled f hgt
          exact absurd h2 (hfail y)
      subst hgf
      rw [p4]
      refine ⟨h', ?_, p5.coh, p5.ext, by rw [slot_eq p5.obj]; exact p6⟩
      rcases he : elemOf dec d.content g with y | - | -
      · exact absurd he (p3 y)
      · rfl
      · rfl
  · intro h1
    obtain rfl := hmark h1
    unfold lazyAt
    rw [if_neg (by omega), slot_eq e]
    by_cases hh : idx = k
    · subst hh
      rw [h1, if_pos rfl]
    · rw [hs.empty idx (by omega) (by omega), if_neg hh]
      simp only
      obtain ⟨pos, q1, q2, q3⟩ := lazyLoop_filled (alloc := alloc) A e hs k 0 0 (idx + 1 - k) (by omega) (Nat.zero_le _) (by simp)
      rw [show idx + 1 = k + (idx + 1 - k) by omega, q3, show idx + 1 - k = (idx - k) + 1 by omega, lazyLoop_mark e h1]

/-- The first element that cannot be read. -/
theorem exists_first_fail {content : Bytes} {idx : Nat} (h : ∀ x, elemOf dec content idx ≠ .ok x) :
    ∃ f, f ≤ idx ∧ (∀ x, elemOf dec content f ≠ .ok x) ∧ ∀ j, j < f → ∃ x, elemOf dec content j = .ok x := by
  classical
  have hex : ∃ f, ∀ x, elemOf dec content f ≠ .ok x := ⟨idx, h⟩
  refine ⟨Nat.find hex, Nat.find_min' hex h, Nat.find_spec hex, ?_⟩
  intro j hj
  have := Nat.find_min hex hj
  push Not at this
  exact this

/-- Whatever the state and the index, access keeps the heap coherent. -/
theorem lazyAt_coherent (A : AllocSpec alloc dec rep kind) {id : Nat} {d : StdValue} (hkind : d.kind = kind) {h : Heap} {sl : List Slot}
    (hc : Coherent h) (e : h[id]? = some (.val d sl)) (idx : Nat) :
    Coherent (lazyAt alloc h id d idx).1 ∧ Extends h (lazyAt alloc h id d idx).1 := by
  rcases Nat.lt_or_ge idx d.size with hi | hi
  · by_cases hx : ∃ x, elemOf dec d.content idx = .ok x
    · obtain ⟨x, hx⟩ := hx
      obtain ⟨h', p, h1, h2, h3, -⟩ := lazyAt_ok A hkind hc e hi hx
      rw [h1]; exact ⟨h2, h3⟩
    · push Not at hx
      obtain ⟨f, hf, h1, h2⟩ := exists_first_fail hx
      obtain ⟨q1, q2, q3⟩ := lazyAt_fail A hkind hc e hi hf h1 h2
      rcases q3 with q3 | q3
      · obtain ⟨h', r1, r2, r3, -⟩ := q1 q3
        rw [r1]; exact ⟨r2, r3⟩
      · rw [q2 q3]; exact ⟨hc, Extends.refl h⟩
  · unfold lazyAt
    rw [if_pos hi]; exact ⟨hc, Extends.refl h⟩
end

/-- Allocation only adds objects. -/
theorem allocStd_append (h : Heap) (buf : Bytes) : ∃ ext, (allocStd h buf).1 = h ++ ext := by
  unfold allocStd
  split
  · exact ⟨_, rfl⟩
  · exact ⟨[], by simp⟩
  · exact ⟨[], by simp⟩

theorem allocRec_append (h : Heap) (buf : Bytes) : ∃ ext, (allocRec h buf).1 = h ++ ext := by
  unfold allocRec
  split
  · exact ⟨_, rfl⟩
  · exact ⟨[], by simp⟩
  · exact ⟨[], by simp⟩

theorem setSlot_other {h : Heap} {id id' : Nat} (hne : id' ≠ id) (i : Nat) (s : Slot) : (h.setSlot id' i s)[id]? = h[id]? := by
  unfold Heap.setSlot
  split
  · rw [List.getElem?_set_ne hne]
  · rfl

theorem setSlot_length {h : Heap} (id' i : Nat) (s : Slot) : (h.setSlot id' i s).length = h.length := by
  unfold Heap.setSlot
  split
  · simp
  · rfl

/-- Accesses to one object leave the others as they are. -/
theorem lazyLoop_other {alloc : Heap → Bytes → Heap × Res Nat} (ha : ∀ h buf, ∃ ext, (alloc h buf).1 = h ++ ext) (content : Bytes)
    {id id' : Nat} (hne : id' ≠ id) :
    ∀ (n i pos : Nat) (h : Heap), id < h.length → (lazyLoop alloc content id' n i pos h).1[id]? = h[id]? := by
  intro n
  induction n with
  | zero => intro i pos h _; rfl
  | succ n ih =>
    intro i pos h hid
    rw [lazyLoop]
    split
    · rfl
    · rfl
    · split
      · rfl
      · exact ih _ _ _ hid
    · split
      · rfl
      · have hal := ha h (content.drop pos)
        have happ : ∀ ext : Heap, (h ++ ext)[id]? = h[id]? := fun ext => List.getElem?_append_left hid
        split
        · rename_i h1 p heq
          rw [heq] at hal
          obtain ⟨ext, rfl⟩ := hal
          split
          · exact happ ext
          · rw [ih _ _ _ (by rw [setSlot_length]; simp; omega), setSlot_other hne]
            exact happ ext
        · rename_i h1 heq
          rw [heq] at hal
          obtain ⟨ext, rfl⟩ := hal
          simp only
          rw [setSlot_other hne]
          exact happ ext
        · rename_i h1 heq
          rw [heq] at hal
          obtain ⟨ext, rfl⟩ := hal
          exact happ ext

theorem lazyAt_other {alloc : Heap → Bytes → Heap × Res Nat} (ha : ∀ h buf, ∃ ext, (alloc h buf).1 = h ++ ext) (d : StdValue)
    {id id' : Nat} (hne : id' ≠ id) (idx : Nat) {h : Heap} (hid : id < h.length) : (lazyAt alloc h id' d idx).1[id]? = h[id]? := by
  have := lazyLoop_other ha d.content hne (idx + 1) 0 0 h hid
  unfold lazyAt
  split
  · rfl
  · split
    · rfl
    · rfl
    · rfl
    · split
      · rename_i h1 heq
        rw [heq] at this
        split <;> exact this
      · rename_i h1 heq
        rw [heq] at this
        exact this
      · rename_i h1 heq
        rw [heq] at this
        exact this

theorem valueAt_other {id id' : Nat} (hne : id' ≠ id) (idx : Nat) {h : Heap} (hid : id < h.length) :
    (h.valueAt id' idx).1[id]? = h[id]? := by
  unfold Heap.valueAt
  split
  · split
    · rfl
    · exact lazyAt_other allocStd_append _ hne idx hid
  · rfl

theorem recordAt_other {id id' : Nat} (hne : id' ≠ id) (idx : Nat) {h : Heap} (hid : id < h.length) :
    (h.recordAt id' idx).1[id]? = h[id]? := by
  unfold Heap.recordAt
  split
  · split
    · rfl
    · exact lazyAt_other allocRec_append _ hne idx hid
  · rfl

theorem valueAt_coherent {h : Heap} (hc : Coherent h) (id idx : Nat) :
    Coherent (h.valueAt id idx).1 ∧ Extends h (h.valueAt id idx).1 := by
  unfold Heap.valueAt
  rcases e : h[id]? with - | o
  · exact ⟨hc, Extends.refl h⟩
  · rcases o with ⟨d, sl⟩ | ⟨r, v, s⟩
    · simp only
      by_cases hk : d.kind = .array
      · rw [if_neg (by simpa using hk)]
        exact lazyAt_coherent allocStd_spec hk hc e idx
      · rw [if_pos hk]; exact ⟨hc, Extends.refl h⟩
    · exact ⟨hc, Extends.refl h⟩

theorem recordAt_coherent {h : Heap} (hc : Coherent h) (id idx : Nat) :
    Coherent (h.recordAt id idx).1 ∧ Extends h (h.recordAt id idx).1 := by
  unfold Heap.recordAt
  rcases e : h[id]? with - | o
  · exact ⟨hc, Extends.refl h⟩
  · rcases o with ⟨d, sl⟩ | ⟨r, v, s⟩
    · simp only
      by_cases hk : d.kind = .records
      · rw [if_neg (by simpa using hk)]
        exact lazyAt_coherent allocRec_spec hk hc e idx
      · rw [if_pos hk]; exact ⟨hc, Extends.refl h⟩
    · exact ⟨hc, Extends.refl h⟩

end Poodle
