import Verif.Spec.ParEncode
import Mathlib.Data.List.Forall2

/-
`Encode`, `Buf` and `IsEncoded` called by several goroutines (C205).
-/

namespace Poodle.Props
open Poodle Poodle.Spec

/-! ### What objects are -/

theorem thingAll_mono {α : Type} {u v : Nat → Option α} (h : ∀ j a, u j = some a → v j = some a) :
    ∀ (l : List Nat) (cs : List α), unfoldAll u l = some cs → unfoldAll v l = some cs
  | [], cs, e => e
  | i :: l, cs, e => by
    simp only [unfoldAll, Option.bind_eq_some_iff, Option.map_eq_some_iff] at e ⊢
    obtain ⟨a, h1, bs, h2, h3⟩ := e
    exact ⟨a, h i a h1, bs, thingAll_mono h l bs h2, h3⟩

theorem unfoldThing_succ (S : List Shape) : ∀ (f i : Nat) (c : Thing), unfoldThing S f i = some c → unfoldThing S (f + 1) i = some c
  | 0, i, c, h => by simp [unfoldThing] at h
  | f + 1, i, c, h => by
    have ih := unfoldThing_succ S f
    rw [unfoldThing] at h ⊢
    cases e : S[i]? with
    | none => simp [e] at h
    | some n =>
      rw [e] at h
      cases n with
      | array l =>
        simp only [Option.map_eq_some_iff] at h ⊢
        obtain ⟨a, h1, h2⟩ := h
        refine ⟨a, thingAll_mono (fun j a ha => ?_) l a h1, h2⟩
        simp only [Option.bind_eq_some_iff] at ha ⊢
        obtain ⟨x, ⟨y, hy, hx⟩, ha⟩ := ha
        exact ⟨x, ⟨y, ih j y hy, hx⟩, ha⟩
      | list l =>
        simp only [Option.map_eq_some_iff] at h ⊢
        obtain ⟨a, h1, h2⟩ := h
        refine ⟨a, thingAll_mono (fun j a ha => ?_) l a h1, h2⟩
        simp only [Option.bind_eq_some_iff] at ha ⊢
        obtain ⟨x, ⟨y, hy, hx⟩, ha⟩ := ha
        exact ⟨x, ⟨y, ih j y hy, hx⟩, ha⟩
      | record k v s t r r' =>
        have hp : ∀ (o : Option Nat) x, unfoldPart (fun j => (unfoldThing S f j).bind Sum.getRight?) o = some x →
            unfoldPart (fun j => (unfoldThing S (f + 1) j).bind Sum.getRight?) o = some x := by
          intro o x hx
          cases o with
          | none => exact hx
          | some j =>
            simp only [unfoldPart, Option.map_eq_some_iff, Option.bind_eq_some_iff] at hx ⊢
            obtain ⟨a, ⟨b, ⟨d, h1, h2⟩, h3⟩, h4⟩ := hx
            exact ⟨a, ⟨b, ⟨d, ih j d h1, h2⟩, h3⟩, h4⟩
        have hk : ∀ (o : Option Nat) x, thingKey (unfoldThing S f) o = some x → thingKey (unfoldThing S (f + 1)) o = some x := by
          intro o x hx
          cases o with
          | none => exact hx
          | some j =>
            simp only [thingKey, Option.map_eq_some_iff, Option.bind_eq_some_iff] at hx ⊢
            obtain ⟨a, ⟨b, h1, h2⟩, h4⟩ := hx
            exact ⟨a, ⟨b, ih j b h1, h2⟩, h4⟩
        simp only [Option.map_eq_some_iff, Option.bind_eq_some_iff] at h ⊢
        obtain ⟨a, h1, b, h2, d, h3, h4⟩ := h
        exact ⟨a, hk k a h1, b, hp v b h2, d, hp s d h3, h4⟩
      | _ => exact h

theorem unfoldThing_le {S : List Shape} {f g i : Nat} {c : Thing} (hle : f ≤ g) (h : unfoldThing S f i = some c) :
    unfoldThing S g i = some c := by
  induction hle with
  | refl => exact h
  | step _ ih => exact unfoldThing_succ S _ i c ih

theorem holds_unique {S : List Shape} {i : Nat} {c c' : Thing} (h : Holds S i c) (h' : Holds S i c') : c = c' := by
  obtain ⟨f, hf⟩ := h
  obtain ⟨g, hg⟩ := h'
  have h1 := unfoldThing_le (Nat.le_max_left f g) hf
  rw [unfoldThing_le (Nat.le_max_right f g) hg] at h1
  exact (Option.some.inj h1).symm

/-- These bytes are the encoding of the object. -/
def Right (S : List Shape) (i : Nat) (w : Bytes) : Prop := ∃ c, Holds S i c ∧ thingEncode c = .ok w

theorem right_unique {S : List Shape} {i : Nat} {w w' : Bytes} (h : Right S i w) (h' : Right S i w') : w = w' := by
  obtain ⟨c, h1, h2⟩ := h
  obtain ⟨c', h3, h4⟩ := h'
  rw [holds_unique h3 h1, h2] at h4
  exact Res.ok.inj h4

theorem right_le {S : List Shape} {f i : Nat} {c : Thing} {w : Bytes} (h : unfoldThing S f i = some c) (hw : thingEncode c = .ok w) :
    Right S i w := ⟨c, ⟨f, h⟩, hw⟩

/-! ### What calls may do to the fields -/

/-- What any calls may have done meanwhile: nothing but store the encoding of an object. -/
structure ELater (S : List Shape) (M M' : Cells) : Prop where
  len : M'.length = M.length
  buf : ∀ i, (M'.at i).buf = (M.at i).buf ∨ Right S i (M'.at i).buf
  keep : ∀ i, (M.at i).encoded = true → (M'.at i).encoded = true
  fresh : ∀ i, (M'.at i).encoded = true → (M.at i).encoded = true ∨ Right S i (M'.at i).buf

theorem ELater.refl (S : List Shape) (M : Cells) : ELater S M M := ⟨rfl, fun _ => Or.inl rfl, fun _ h => h, fun _ h => Or.inl h⟩

theorem ELater.trans {S : List Shape} {M M' M'' : Cells} (a : ELater S M M') (b : ELater S M' M'') : ELater S M M'' := by
  refine ⟨b.len.trans a.len, fun i => ?_, fun i h => b.keep i (a.keep i h), fun i h => ?_⟩
  · rcases b.buf i with h | h
    · rw [h]; exact a.buf i
    · exact Or.inr h
  · rcases b.fresh i h with h' | h'
    · rcases a.fresh i h' with h2 | h2
      · exact Or.inl h2
      · rcases b.buf i with h3 | h3
        · rw [h3]; exact Or.inr h2
        · exact Or.inr h3
    · exact Or.inr h'

theorem at_set (M : Cells) (i j : Nat) (x : Cell) : Cells.at (M.set i x) j = if i = j ∧ i < M.length then x else M.at j := by
  simp only [Cells.at, List.getElem?_set]
  by_cases h : i = j
  · subst h
    by_cases hl : i < M.length <;> simp [hl]
  · simp [h]

theorem later_buf {S : List Shape} {M : Cells} {i : Nat} {w : Bytes} (h : Right S i w) : ELater S M (M.set i { M.at i with buf := w }) := by
  refine ⟨List.length_set, fun j => ?_, fun j hj => ?_, fun j hj => ?_⟩
  all_goals rw [at_set] at *
  · split
    · rename_i e; rw [← e.1]; exact Or.inr h
    · exact Or.inl rfl
  · split
    · rename_i e; rw [← e.1] at hj; exact hj
    · exact hj
  · split at hj
    · rename_i e; rw [e.1] at hj; exact Or.inl hj
    · exact Or.inl hj

theorem later_flag {S : List Shape} {M : Cells} {i : Nat} (h : Right S i (M.at i).buf) :
    ELater S M (M.set i { M.at i with encoded := true }) := by
  refine ⟨List.length_set, fun j => ?_, fun j hj => ?_, fun j hj => ?_⟩
  all_goals rw [at_set] at *
  · split
    · rename_i e; rw [← e.1]; exact Or.inl rfl
    · exact Or.inl rfl
  · split
    · rfl
    · exact hj
  · split
    · rename_i e; rw [← e.1]; exact Or.inr h
    · rename_i e; rw [if_neg e] at hj; exact Or.inl hj

theorem later_right {S : List Shape} {M M' : Cells} (a : ELater S M M') {i : Nat} {w : Bytes} (h : (M.at i).buf = w) (hr : Right S i w) :
    (M'.at i).buf = w := by
  rcases a.buf i with e | e
  · rw [e, h]
  · exact right_unique e hr

theorem later_bufNow {S : List Shape} {M M' : Cells} (a : ELater S M M') {i : Nat} {w : Bytes} (h : bufNow S M i = .ok w)
    (hr : Right S i w) : bufNow S M' i = .ok w := by
  unfold bufNow at h ⊢
  cases e : S[i]? with
  | none => simp [e] at h
  | some n =>
    rw [e] at h
    cases n with
    | key _ | prim _ | array _ | list _ | record =>
      simp only at h ⊢
      split at h
      · rename_i h1
        rw [if_pos (a.keep i h1), later_right a (Res.ok.inj h) hr]
      · simp at h
    | _ => exact h

/-! ### Calls among others -/

/-- Whatever other calls do meanwhile, the call stores nothing but encodings, and what it returns satisfies the condition. -/
def ESafe {α : Type} (S : List Shape) (Q : Cells → α → Prop) : Prog α → Cells → Prop
  | .ret a, M => ∀ M', ELater S M M' → Q M' a
  | .readFlag id n, M => ∀ M', ELater S M M' → ESafe S Q (n (M'.at id).encoded) M'
  | .readBuf id n, M => ∀ M', ELater S M M' → ESafe S Q (n (M'.at id).buf) M'
  | .writeBuf id w n, M => ∀ M', ELater S M M' → ELater S M' (M'.set id { M'.at id with buf := w }) ∧
      ESafe S Q n (M'.set id { M'.at id with buf := w })
  | .writeFlag id n, M => ∀ M', ELater S M M' → ELater S M' (M'.set id { M'.at id with encoded := true }) ∧
      ESafe S Q n (M'.set id { M'.at id with encoded := true })

theorem safe_later {α : Type} {S : List Shape} {Q : Cells → α → Prop} {p : Prog α} {M M' : Cells} (h : ESafe S Q p M) (a : ELater S M M') :
    ESafe S Q p M' := by
  cases p <;> exact fun M'' b => h M'' (a.trans b)

theorem safe_weaken {α : Type} {S : List Shape} {Q Q' : Cells → α → Prop} (hq : ∀ M a, Q M a → Q' M a) :
    ∀ (p : Prog α) (M : Cells), ESafe S Q p M → ESafe S Q' p M
  | .ret _, _, h => fun M' a => hq _ _ (h M' a)
  | .readFlag _ _, _, h => fun M' a => safe_weaken hq _ _ (h M' a)
  | .readBuf _ _, _, h => fun M' a => safe_weaken hq _ _ (h M' a)
  | .writeBuf _ _ _, _, h => fun M' a => ⟨(h M' a).1, safe_weaken hq _ _ (h M' a).2⟩
  | .writeFlag _ _, _, h => fun M' a => ⟨(h M' a).1, safe_weaken hq _ _ (h M' a).2⟩

theorem safe_bind {α β : Type} {S : List Shape} {Q : Cells → β → Prop} {k : α → Prog β} :
    ∀ (p : Prog α) (M : Cells), ESafe S (fun M a => ESafe S Q (k a) M) p M → ESafe S Q (p.bind k) M
  | .ret _, M, h => h M (ELater.refl S M)
  | .readFlag _ _, _, h => fun M' a => safe_bind _ _ (h M' a)
  | .readBuf _ _, _, h => fun M' a => safe_bind _ _ (h M' a)
  | .writeBuf _ _ _, _, h => fun M' a => ⟨(h M' a).1, safe_bind _ _ (h M' a).2⟩
  | .writeFlag _ _, _, h => fun M' a => ⟨(h M' a).1, safe_bind _ _ (h M' a).2⟩

/-- The same failure, for whatever was to come. -/
def seqFailed {α β : Type} : Option (Res α) → Option (Option (Res β))
  | some (.ok _) => none
  | some .err => some (some .err)
  | some .panic => some (some .panic)
  | none => some none

theorem safe_seq {α β : Type} {S : List Shape} {P : Cells → Option (Res α) → Prop} {Q : Cells → Option (Res β) → Prop}
    {p : Prog (Option (Res α))} {k : α → Prog (Option (Res β))} {M : Cells} (hp : ESafe S P p M)
    (hok : ∀ M' a, ELater S M M' → P M' (some (.ok a)) → ESafe S Q (k a) M')
    (hfail : ∀ M' r r', P M' r → seqFailed r = some r' → ESafe S Q (.ret r') M') : ESafe S Q (p.seq k) M := by
  apply safe_bind
  -- keep the memory before
  have key : ∀ (p : Prog (Option (Res α))) (M0 : Cells), ELater S M M0 → ESafe S P p M0 →
      ESafe S (fun M' r => ELater S M M' ∧ P M' r) p M0 := by
    intro p
    induction p with
    | ret a => exact fun M0 h0 h M' a => ⟨h0.trans a, h M' a⟩
    | readFlag id n ih => exact fun M0 h0 h M' a => ih _ M' (h0.trans a) (h M' a)
    | readBuf id n ih => exact fun M0 h0 h M' a => ih _ M' (h0.trans a) (h M' a)
    | writeBuf id w n ih => exact fun M0 h0 h M' a => ⟨(h M' a).1, ih _ ((h0.trans a).trans (h M' a).1) (h M' a).2⟩
    | writeFlag id n ih => exact fun M0 h0 h M' a => ⟨(h M' a).1, ih _ ((h0.trans a).trans (h M' a).1) (h M' a).2⟩
  refine safe_weaken (fun M' r h => ?_) p M (key p M (ELater.refl S M) hp)
  rcases r with - | r
  · exact hfail M' none none h.2 rfl
  · rcases r with a | - | -
    · exact hok M' a h.1 h.2
    · exact hfail M' _ _ h.2 rfl
    · exact hfail M' _ _ h.2 rfl

/-- What a call gives, without the bytes. -/
def asUnit : Res Bytes → Option (Res Unit)
  | .ok _ => some (.ok ())
  | .err => some .err
  | .panic => some .panic

/-- What `Encode` of an object has to give: if the object unfolds to `a`, the result for `a`, and if it succeeds, afterwards `Buf` gives the
encoding of what the object is. -/
def EncPost {α : Type} (S : List Shape) (o : Option α) (H : α → Prop) (e : α → Res Bytes) (j : Nat) (M : Cells) (r : Option (Res Unit)) :
    Prop :=
  (∀ a, o = some a → r = asUnit (e a)) ∧ (r = some (.ok ()) → ∃ a w, H a ∧ e a = .ok w ∧ bufNow S M j = .ok w ∧ Right S j w)

theorem safe_buf {S : List Shape} {M : Cells} {j : Nat} {w : Bytes} (h : bufNow S M j = .ok w) (hr : Right S j w) :
    ESafe S (fun _ r => r = some (.ok w)) (bufProg S j) M := by
  have hl : ∀ M', ELater S M M' → bufNow S M' j = .ok w := fun M' a => later_bufNow a h hr
  unfold bufNow at hl
  unfold bufProg
  cases e : S[j]? with
  | none => have := hl M (ELater.refl S M); simp [e] at this
  | some n =>
    rw [e] at hl
    cases n with
    | key _ | prim _ | array _ | list _ | record =>
      simp only at hl ⊢
      intro M' a
      have h1 := hl M' a
      by_cases he : (M'.at j).encoded = true
      · rw [if_pos he, Res.ok.injEq] at h1
        rw [he]
        intro M'' b M3 b'
        rw [later_right b h1 hr]
      · rw [if_neg he] at h1; simp at h1
    | _ => exact fun M' a => by have := hl M' a; simp only [Res.ok.injEq] at this; rw [this]

/-- The encodings of all elements, one after the other. -/
def encodeAllWith {α : Type} (e : α → Res Bytes) : List α → Res Bytes
  | [] => .ok []
  | a :: l => do
    let b ← e a
    let bs ← encodeAllWith e l
    .ok (b ++ bs)

theorem encodeVals_eq (l : List CVal) : encodeVals l = encodeAllWith CVal.encode l := by
  induction l with
  | nil => rfl
  | cons a l ih => rw [encodeVals, encodeAllWith, ih]

theorem encodeRecs_eq (l : List CRec) : encodeRecs l = encodeAllWith CRec.encode l := by
  induction l with
  | nil => rfl
  | cons a l ih => rw [encodeRecs, encodeAllWith, ih]

/-- What encoding parts has to give: the bytes of what the parts are. -/
def BytesPost {α β : Type} (o : Option α) (H : α → Prop) (e : α → Res β) (r : Option (Res β)) : Prop :=
  (∀ a, o = some a → r = some (e a)) ∧ ∀ b, r = some (.ok b) → ∃ a, H a ∧ e a = .ok b

/-- Two ways to say what objects are: the first one, if it says something, agrees with the second. -/
structure EAgree {α : Type} (u : Nat → Option α) (H : Nat → α → Prop) : Prop where
  sub : ∀ j a, u j = some a → H j a
  uniq : ∀ j a a', H j a → H j a' → a = a'

theorem failed_ok {α β : Type} {r : Option (Res α)} {b : β} (h : seqFailed r = some (some (.ok b))) : False := by
  rcases r with - | r
  · simp [seqFailed] at h
  · rcases r with x | - | - <;> simp [seqFailed] at h

theorem safe_elems {α : Type} {S : List Shape} {enc : Nat → Prog (Option (Res Unit))} {u : Nat → Option α} {H : Nat → α → Prop}
    {e : α → Res Bytes} (hu : EAgree u H) :
    ∀ (l : List Nat) (M : Cells), (∀ j ∈ l, ∀ M', ELater S M M' → ESafe S (EncPost S (u j) (H j) e j) (enc j) M') →
      ESafe S (fun _ r => BytesPost (unfoldAll u l) (List.Forall₂ H l) (encodeAllWith e) r) (elemsProg S enc l) M
  | [], M, _ => fun M' _ => ⟨fun a ha => by cases ha; rfl, fun b hb => ⟨[], .nil, by cases hb; rfl⟩⟩
  | i :: l, M, h => by
    rw [elemsProg]
    refine safe_seq (h i (List.mem_cons_self ..) M (ELater.refl S M)) (fun M1 _ a1 h1 => ?_) (fun M1 r r' h1 hf => ?_)
    · obtain ⟨a, w, g1, g2, g3, g4⟩ := h1.2 rfl
      refine safe_seq (safe_buf g3 g4) (fun M2 b a2 h2 => ?_) (fun M2 r r' h2 hf => ?_)
      · obtain rfl : b = w := by simpa using h2
        refine safe_seq (safe_elems hu l M2 fun j hj M' a3 => h j (List.mem_cons_of_mem _ hj) M' ((a1.trans a2).trans a3))
          (fun M3 bs _ h3 => ?_) (fun M3 r r' h3 hf => ?_)
        · intro M4 _
          refine ⟨fun cs hcs => ?_, fun b' hb' => ?_⟩
          · simp only [unfoldAll, Option.bind_eq_some_iff, Option.map_eq_some_iff] at hcs
            obtain ⟨a', e0, ds, e1, rfl⟩ := hcs
            obtain rfl := hu.uniq i a' a (hu.sub i a' e0) g1
            have := h3.1 ds e1
            simp only [Option.some.injEq] at this
            simp [encodeAllWith, g2, ← this]
          · obtain ⟨ds, e1, e2⟩ := h3.2 bs rfl
            refine ⟨a :: ds, .cons g1 e1, ?_⟩
            simp only [Option.some.injEq, Res.ok.injEq] at hb'
            simp [encodeAllWith, g2, e2, hb']
        · intro M4 _
          refine ⟨fun cs hcs => ?_, fun b' hb' => ?_⟩
          · simp only [unfoldAll, Option.bind_eq_some_iff, Option.map_eq_some_iff] at hcs
            obtain ⟨a', e0, ds, e1, rfl⟩ := hcs
            obtain rfl := hu.uniq i a' a (hu.sub i a' e0) g1
            have := h3.1 ds e1
            subst this
            rcases he : encodeAllWith e ds with x | - | - <;> rw [he] at hf <;> simp [seqFailed] at hf <;> subst hf <;>
              simp [encodeAllWith, g2, he]
          · subst hb'; exact (failed_ok hf).elim
      · subst h2; simp [seqFailed] at hf
    · intro M2 _
      refine ⟨fun cs hcs => ?_, fun b' hb' => ?_⟩
      · simp only [unfoldAll, Option.bind_eq_some_iff, Option.map_eq_some_iff] at hcs
        obtain ⟨a, e0, ds, e1, rfl⟩ := hcs
        have := h1.1 a e0
        subst this
        rcases he : e a with x | - | - <;> rw [he] at hf <;> simp [seqFailed, asUnit] at hf <;> subst hf <;> simp [encodeAllWith, he]
      · subst hb'; exact (failed_ok hf).elim

/-- The bytes of a key, value or scheme in a record, if it is there and not empty. -/
def partBytesOf {α : Type} (nil : α → Bool) (e : α → Res Bytes) : Option α → Res (Option Bytes)
  | none => .ok none
  | some a => if nil a then .ok none else (e a).bind fun b => .ok (some b)

/-- What an optional part is. -/
def PartIs {α : Type} (H : Nat → α → Prop) : Option Nat → Option α → Prop
  | none, x => x = none
  | some j, x => ∃ a, H j a ∧ x = some a

theorem safe_part {α : Type} {S : List Shape} {enc : Nat → Prog (Option (Res Unit))} {u : Nat → Option α} {H : Nat → α → Prop}
    {e : α → Res Bytes} {nil : α → Bool} (hu : EAgree u H) (o : Option Nat) (M : Cells)
    (h : ∀ j ∈ o, ∀ M', ELater S M M' → ESafe S (EncPost S (u j) (H j) e j) (enc j) M')
    (hn : ∀ j ∈ o, ∃ n, S[j]? = some n ∧ (∀ a, H j a → n.absent = nil a) ∧ (n.absent = true → ∃ a, H j a)) {q : Option (Option α)}
    (hq : ∀ x, q = some x → PartIs (fun j a => u j = some a) o x) :
    ESafe S (fun _ r => BytesPost q (PartIs H o) (partBytesOf nil e) r) (partProg S enc o) M := by
  cases o with
  | none => exact fun M' _ => ⟨fun a ha => by rw [hq a ha]; rfl, fun b hb => ⟨none, rfl, by cases hb; rfl⟩⟩
  | some i =>
    obtain ⟨n, e0, hn, hs⟩ := hn i rfl
    simp only [partProg, e0]
    split
    · rename_i habs
      obtain ⟨a, ha⟩ := hs habs
      have hnil := hn a ha
      rw [habs] at hnil
      intro M' _
      refine ⟨fun x hx => ?_, fun b hb => ⟨some a, ⟨a, ha, rfl⟩, ?_⟩⟩
      · obtain ⟨a', e1, rfl⟩ := hq x hx
        obtain rfl := hu.uniq i a' a (hu.sub i a' e1) ha
        simp [partBytesOf, ← hnil]
      · cases hb; simp [partBytesOf, ← hnil]
    · rename_i habs
      rw [Bool.not_eq_true] at habs
      refine safe_seq (h i rfl M (ELater.refl S M)) (fun M1 _ a1 h1 => ?_) (fun M1 r r' h1 hf => ?_)
      · obtain ⟨a, w, g1, g2, g3, g4⟩ := h1.2 rfl
        have hnil := hn a g1
        rw [habs] at hnil
        refine safe_seq (safe_buf g3 g4) (fun M2 b a2 h2 => ?_) (fun M2 r r' h2 hf => ?_)
        · obtain rfl : b = w := by simpa using h2
          intro M3 _
          refine ⟨fun x hx => ?_, fun b' hb' => ⟨some a, ⟨a, g1, rfl⟩, ?_⟩⟩
          · obtain ⟨a', e1, rfl⟩ := hq x hx
            obtain rfl := hu.uniq i a' a (hu.sub i a' e1) g1
            simp [partBytesOf, ← hnil, g2, Res.bind]
          · cases hb'; simp [partBytesOf, ← hnil, g2, Res.bind]
        · subst h2; simp [seqFailed] at hf
      · intro M2 _
        refine ⟨fun x hx => ?_, fun b' hb' => ?_⟩
        · obtain ⟨a, e1, rfl⟩ := hq x hx
          have hnil := hn a (hu.sub i a e1)
          rw [habs] at hnil
          have := h1.1 a e1
          subst this
          rcases he : e a with x | - | - <;> rw [he] at hf <;> simp [seqFailed, asUnit] at hf <;> subst hf <;>
            simp [partBytesOf, ← hnil, he, Res.bind]
        · subst hb'; exact (failed_ok hf).elim

theorem safe_store {S : List Shape} {i : Nat} {n : Shape} (hi : S[i]? = some n) (hm : Shape.made n = true) {M : Cells}
    (hl : S.length ≤ M.length) {r : Res Bytes} {α : Type} {o : Option α} {H : α → Prop} {e : α → Res Bytes} (h1 : ∀ a, o = some a → r = e a)
    (h2 : ∀ w, r = .ok w → ∃ a, H a ∧ e a = .ok w ∧ Right S i w) : ESafe S (EncPost S o H e i) (storeProg i r) M := by
  rcases r with w | - | -
  · obtain ⟨a, g1, g2, g3⟩ := h2 w rfl
    intro M1 a1
    refine ⟨later_buf g3, fun M2 a2 => ?_⟩
    have hlt : i < S.length := (List.getElem?_eq_some_iff.mp hi).1
    have hlen := a1.len
    have hbuf : (M2.at i).buf = w := later_right a2 (by rw [at_set, if_pos ⟨rfl, by omega⟩]) g3
    refine ⟨later_flag (by rw [hbuf]; exact g3), fun M3 a3 => ?_⟩
    have hlen2 := a2.len
    rw [List.length_set] at hlen2
    have hat : Cells.at (M2.set i { M2.at i with encoded := true }) i = { M2.at i with encoded := true } := by
      rw [at_set, if_pos ⟨rfl, by omega⟩]
    refine ⟨fun x hx => by rw [← h1 x hx]; rfl, fun _ => ⟨a, w, g1, g2, later_bufNow a3 ?_ g3, g3⟩⟩
    unfold bufNow
    rw [hi]
    cases n <;> simp [Shape.made] at hm <;> simp only [hat] <;> simp [hbuf]
  · exact fun M' _ => ⟨fun a ha => by rw [← h1 a ha]; rfl, fun h => by simp at h⟩
  · exact fun M' _ => ⟨fun a ha => by rw [← h1 a ha]; rfl, fun h => by simp at h⟩

/-! ### `Encode` -/

theorem unfold_key {S : List Shape} {j : Nat} (h : ShapeIs S Shape.isKey j) {f : Nat} {c : Thing} (hc : unfoldThing S f j = some c) :
    ∃ k, c = .inl k := by
  obtain ⟨n, e, hn⟩ := h
  cases f with
  | zero => simp [unfoldThing] at hc
  | succ f => cases n <;> simp [Shape.isKey] at hn <;> simp only [unfoldThing, e, Option.some.injEq] at hc <;> exact ⟨_, hc.symm⟩

theorem unfold_val {S : List Shape} {j : Nat} (h : ShapeIs S Shape.isVal j) {f : Nat} {c : Thing} (hc : unfoldThing S f j = some c) :
    ∃ v, c = .inr (.inl v) := by
  obtain ⟨n, e, hn⟩ := h
  cases f with
  | zero => simp [unfoldThing] at hc
  | succ f =>
    cases n <;> simp [Shape.isVal, Shape.isKey, Shape.isRecord] at hn <;>
      simp only [unfoldThing, e, Option.some.injEq, Option.map_eq_some_iff] at hc
    case array => obtain ⟨l, -, rfl⟩ := hc; exact ⟨_, rfl⟩
    case list => obtain ⟨l, -, rfl⟩ := hc; exact ⟨_, rfl⟩
    all_goals exact ⟨_, hc.symm⟩

theorem unfold_rec {S : List Shape} {j : Nat} (h : ShapeIs S Shape.isRecord j) {f : Nat} {c : Thing} (hc : unfoldThing S f j = some c) :
    ∃ r, c = .inr (.inr r) := by
  obtain ⟨n, e, hn⟩ := h
  cases f with
  | zero => simp [unfoldThing] at hc
  | succ f =>
    cases n <;> simp [Shape.isRecord] at hn <;>
      simp only [unfoldThing, e, Option.some.injEq, Option.map_eq_some_iff, Option.bind_eq_some_iff] at hc
    case record => obtain ⟨k, -, v, -, s, -, rfl⟩ := hc; exact ⟨_, rfl⟩
    all_goals exact ⟨_, hc.symm⟩

theorem agree_of {α : Type} {S : List Shape} {f : Nat} {inj : α → Thing} {g : Thing → Option α} (hi : ∀ a b, inj a = inj b → a = b)
    (hg : ∀ c a, g c = some a → c = inj a) :
    EAgree (fun j => (unfoldThing S f j).bind g) (fun j a => Holds S j (inj a)) := by
  refine ⟨fun j a h => ?_, fun j a a' h h' => hi _ _ (holds_unique h h')⟩
  simp only [Option.bind_eq_some_iff] at h
  obtain ⟨c, h1, h2⟩ := h
  exact ⟨f, by rw [h1, hg c a h2]⟩

/-- The value that a thing is. -/
def thingVal (c : Thing) : Option CVal := (Sum.getRight? c).bind Sum.getLeft?

/-- The record that a thing is. -/
def thingRec (c : Thing) : Option CRec := (Sum.getRight? c).bind Sum.getRight?

theorem thingVal_eq {c : Thing} {v : CVal} (h : thingVal c = some v) : c = .inr (.inl v) := by
  rcases c with k | v' | r <;> simp [thingVal] at h
  rw [h]

theorem thingRec_eq {c : Thing} {v : CRec} (h : thingRec c = some v) : c = .inr (.inr v) := by
  rcases c with k | v' | r <;> simp [thingRec] at h
  rw [h]

theorem thingKey_eq {c : Thing} {v : KeyObj} (h : Sum.getLeft? c = some v) : c = .inl v := by
  rcases c with k | v' | r <;> simp at h
  rw [h]

/-- What `Encode` gives, for an object of which the static type is known. -/
theorem encPost_typed {α : Type} {S : List Shape} {o : Option Thing} {j : Nat} {inj : α → Thing} {g : Thing → Option α}
    {e : α → Res Bytes} (hg : ∀ c a, g c = some a → c = inj a) (he : ∀ a, thingEncode (inj a) = e a)
    (ht : ∀ c, Holds S j c → ∃ a, c = inj a) {M : Cells} {r : Option (Res Unit)} (h : EncPost S o (Holds S j) thingEncode j M r) :
    EncPost S (o.bind g) (fun a => Holds S j (inj a)) e j M r := by
  refine ⟨fun a ha => ?_, fun hr => ?_⟩
  · simp only [Option.bind_eq_some_iff] at ha
    obtain ⟨c, h1, h2⟩ := ha
    rw [h.1 c h1, hg c a h2, he]
  · obtain ⟨c, w, h1, h2, h3, h4⟩ := h.2 hr
    obtain ⟨a, rfl⟩ := ht c h1
    exact ⟨a, w, h1, by rw [← he, h2], h3, h4⟩

theorem forall_unfold {α : Type} {S : List Shape} {inj : α → Thing} {g : Thing → Option α} (hg : ∀ a, g (inj a) = some a) :
    ∀ {l : List Nat} {cs : List α}, List.Forall₂ (fun j a => Holds S j (inj a)) l cs →
      ∃ f, unfoldAll (fun j => (unfoldThing S f j).bind g) l = some cs
  | _, _, .nil => ⟨0, rfl⟩
  | _, _, .cons (a := j) (b := a) (l₁ := l) (l₂ := cs) h t => by
    obtain ⟨f, hf⟩ := h
    obtain ⟨f', hf'⟩ := forall_unfold hg t
    refine ⟨max f f', ?_⟩
    have h1 := unfoldThing_le (Nat.le_max_left f f') hf
    have h2 := thingAll_mono (v := fun j => (unfoldThing S (max f f') j).bind g) (fun j a ha => by
      simp only [Option.bind_eq_some_iff] at ha ⊢
      obtain ⟨c, e1, e2⟩ := ha
      exact ⟨c, unfoldThing_le (Nat.le_max_right f f') e1, e2⟩) l cs hf'
    simp [unfoldAll, h1, h2, hg]

theorem thingAll_length {α : Type} {u : Nat → Option α} : ∀ {l : List Nat} {cs : List α}, unfoldAll u l = some cs → cs.length = l.length
  | [], cs, h => by cases h; rfl
  | i :: l, cs, h => by
    simp only [unfoldAll, Option.bind_eq_some_iff, Option.map_eq_some_iff] at h
    obtain ⟨a, -, ds, h2, rfl⟩ := h
    simp [thingAll_length h2]

theorem safe_container {α : Type} {S : List Shape} {enc : Nat → Prog (Option (Res Unit))} {u : Nat → Option α} {H : Nat → α → Prop}
    {e : α → Res Bytes} (hu : EAgree u H) {i : Nat} {n : Shape} (hi : S[i]? = some n) (hm : Shape.made n = true) {M : Cells}
    (hl : S.length ≤ M.length) {elems : List Nat} {build : List α → Thing} {shift : UInt8}
    (he : ∀ j ∈ elems, ∀ M', ELater S M M' → ESafe S (EncPost S (u j) (H j) e j) (enc j) M')
    (hb : ∀ cs, thingEncode (build cs) = (countHeader shift cs.length).bind fun x => (encodeAllWith e cs).bind fun content =>
      withContent x.1 x.2 content) (hH : ∀ cs, List.Forall₂ H elems cs → Holds S i (build cs)) :
    ESafe S (EncPost S ((unfoldAll u elems).map build) (Holds S i) thingEncode i) (match countHeader shift elems.length with
      | .ok (m, c) => (elemsProg S enc elems).seq fun content => storeProg i (withContent m c content)
      | .err => .ret (some .err)
      | .panic => .ret (some .panic)) M := by
  have hlen : ∀ a, (unfoldAll u elems).map build = some a → ∃ cs, unfoldAll u elems = some cs ∧ cs.length = elems.length ∧ a = build cs := by
    intro a ha
    simp only [Option.map_eq_some_iff] at ha
    obtain ⟨cs, h1, h2⟩ := ha
    exact ⟨cs, h1, thingAll_length h1, h2.symm⟩
  rcases hc : countHeader shift elems.length with ⟨m, c⟩ | - | -
  · refine safe_seq (safe_elems hu elems M he) (fun M1 content a1 h1 => ?_) (fun M1 r r' h1 hf => ?_)
    · refine safe_store hi hm (by rw [a1.len]; exact hl) (fun a ha => ?_) (fun w hw => ?_)
      · obtain ⟨cs, e1, e2, rfl⟩ := hlen a ha
        have := h1.1 cs e1
        simp only [Option.some.injEq] at this
        rw [hb, e2, hc, ← this]; rfl
      · obtain ⟨cs, e1, e2⟩ := h1.2 content rfl
        have h3 : thingEncode (build cs) = .ok w := by rw [hb, ← e1.length_eq, hc, e2, ← hw]; rfl
        exact ⟨build cs, hH cs e1, h3, build cs, hH cs e1, h3⟩
    · intro M2 _
      refine ⟨fun a ha => ?_, fun hr => ?_⟩
      · obtain ⟨cs, e1, e2, rfl⟩ := hlen a ha
        have := h1.1 cs e1
        subst this
        rw [hb, e2, hc]
        rcases he : encodeAllWith e cs with x | - | - <;> rw [he] at hf <;> simp [seqFailed] at hf <;> subst hf <;> simp [he, Res.bind, asUnit]
      · subst hr; exact (failed_ok hf).elim
  · refine fun M' _ => ⟨fun a ha => ?_, fun h => by simp at h⟩
    obtain ⟨cs, e1, e2, rfl⟩ := hlen a ha
    rw [hb, e2, hc]; rfl
  · refine fun M' _ => ⟨fun a ha => ?_, fun h => by simp at h⟩
    obtain ⟨cs, e1, e2, rfl⟩ := hlen a ha
    rw [hb, e2, hc]; rfl

/-- A part that is absent has nothing in it. -/
theorem absent_key {S : List Shape} {j : Nat} (h : ShapeIs S Shape.isKey j) :
    ∃ n, S[j]? = some n ∧ (∀ k, Holds S j (.inl k) → n.absent = k.isEmpty) ∧ (n.absent = true → ∃ k, Holds S j (.inl k)) := by
  obtain ⟨n, e, hn⟩ := h
  refine ⟨n, e, fun k hk => ?_, fun _ => ?_⟩
  · obtain ⟨f, hf⟩ := hk
    cases f with
    | zero => simp [unfoldThing] at hf
    | succ f =>
      cases n <;> simp [Shape.isKey] at hn <;> simp only [unfoldThing, e, Option.some.injEq, Sum.inl.injEq] at hf <;> subst hf <;> rfl
  · cases n <;> simp [Shape.isKey] at hn <;> exact ⟨_, 1, by simp only [unfoldThing, e]; rfl⟩

theorem absent_val {S : List Shape} {j : Nat} (h : ShapeIs S Shape.isVal j) :
    ∃ n, S[j]? = some n ∧ (∀ v, Holds S j (.inr (.inl v)) → n.absent = v.isNil) ∧ (n.absent = true → ∃ v, Holds S j (.inr (.inl v))) := by
  obtain ⟨n, e, hn⟩ := h
  refine ⟨n, e, fun k hk => ?_, fun ha => ?_⟩
  · obtain ⟨f, hf⟩ := hk
    cases f with
    | zero => simp [unfoldThing] at hf
    | succ f =>
      cases n <;> simp [Shape.isVal, Shape.isKey, Shape.isRecord] at hn <;>
        simp only [unfoldThing, e, Option.some.injEq, Sum.inl.injEq, Sum.inr.injEq, Option.map_eq_some_iff] at hf
      case array => obtain ⟨l, h1, rfl⟩ := hf; simp [Shape.absent, CVal.isNil, thingAll_length h1]
      case list => obtain ⟨l, h1, rfl⟩ := hf; simp [Shape.absent, CVal.isNil, thingAll_length h1]
      all_goals subst hf; rfl
  · cases n <;> simp [Shape.isVal, Shape.isKey, Shape.isRecord] at hn
    case array l =>
      obtain rfl : l = [] := by simpa [Shape.absent] using ha
      exact ⟨.array [], 1, by simp [unfoldThing, e, unfoldAll]⟩
    case list l =>
      obtain rfl : l = [] := by simpa [Shape.absent] using ha
      exact ⟨.records [], 1, by simp [unfoldThing, e, unfoldAll]⟩
    all_goals exact ⟨_, 1, by simp only [unfoldThing, e]; rfl⟩

theorem keyPart_eq (k : Option KeyObj) : recKeyPart k = (partBytesOf KeyObj.isEmpty keyPartBytes k).bind fun o =>
    .ok (if o.isSome then (0x01 : UInt8) <<< 6 else 0, o.getD []) := by
  cases k with
  | none => rfl
  | some k =>
    simp only [recKeyPart, partBytesOf]
    split
    · rfl
    · rcases keyPartBytes k with b | - | - <;> rfl

theorem valPart_eq (bit : UInt8) (v : Option CVal) : recValuePart bit v = (partBytesOf CVal.isNil CVal.encode v).bind fun o =>
    .ok (if o.isSome then (0x01 : UInt8) <<< bit else 0, o.getD []) := by
  cases v with
  | none => simp [recValuePart, partBytesOf, Res.bind]
  | some v =>
    rw [recValuePart]
    simp only [partBytesOf]
    split
    · rfl
    · rcases v.encode with b | - | - <;> rfl

/-- The bytes of a record with these parts. -/
def recordBytes (t sr ss : Option Int) (o1 o2 o3 : Option Bytes) : Bytes :=
  ((0x00 : UInt8) ||| (if o1.isSome then (0x01 : UInt8) <<< 6 else 0) ||| (if o2.isSome then (0x01 : UInt8) <<< 5 else 0) |||
    (if o3.isSome then (0x01 : UInt8) <<< 4 else 0) ||| (timePart t sr ss).1) :: (o1.getD [] ++ o2.getD [] ++ o3.getD [] ++ (timePart t sr ss).2)

theorem record_eq (k : Option KeyObj) (v s : Option CVal) (t sr ss : Option Int) :
    thingEncode (.inr (.inr (.record k v s t sr ss))) = (partBytesOf KeyObj.isEmpty keyPartBytes k).bind fun o1 =>
      (partBytesOf CVal.isNil CVal.encode v).bind fun o2 => (partBytesOf CVal.isNil CVal.encode s).bind fun o3 =>
        .ok (recordBytes t sr ss o1 o2 o3) := by
  simp only [thingEncode, contentEncode, CRec.encode, keyPart_eq, valPart_eq]
  rcases partBytesOf KeyObj.isEmpty keyPartBytes k with o1 | - | -
  · rcases partBytesOf CVal.isNil CVal.encode v with o2 | - | -
    · rcases partBytesOf CVal.isNil CVal.encode s with o3 | - | - <;> rfl
    · rfl
    · rfl
  · rfl
  · rfl

theorem key_later {S : List Shape} {k : Option Nat} {x : Option KeyObj} (h : PartIs (fun j v => Holds S j (.inl v)) k x) :
    ∃ g, ∀ g' ≥ g, thingKey (unfoldThing S g') k = some x := by
  cases k with
  | none => exact ⟨0, fun g' _ => by simp only [PartIs] at h; rw [h]; rfl⟩
  | some j =>
    obtain ⟨a, ⟨g, hg⟩, rfl⟩ := h
    exact ⟨g, fun g' hle => by simp [thingKey, unfoldThing_le hle hg]⟩

theorem part_later {S : List Shape} {k : Option Nat} {x : Option CVal} (h : PartIs (fun j v => Holds S j (.inr (.inl v))) k x) :
    ∃ g, ∀ g' ≥ g, unfoldPart (fun j => (unfoldThing S g' j).bind Sum.getRight?) k = some x := by
  cases k with
  | none => exact ⟨0, fun g' _ => by simp only [PartIs] at h; rw [h]; rfl⟩
  | some j =>
    obtain ⟨a, ⟨g, hg⟩, rfl⟩ := h
    exact ⟨g, fun g' hle => by simp [unfoldPart, unfoldThing_le hle hg]⟩

/-- `Encode` among other calls. -/
theorem safe_encode {S : List Shape} (hS : WellTyped S) : ∀ (f i : Nat) (M : Cells), S.length ≤ M.length →
    ESafe S (EncPost S (unfoldThing S f i) (Holds S i) thingEncode i) (encodeProg S f i) M
  | 0, i, M, _ => fun M' _ => ⟨fun a ha => by simp [unfoldThing] at ha, fun h => by simp at h⟩
  | f + 1, i, M, hl => by
    have ih := safe_encode hS f
    have hval : ∀ j, ShapeIs S Shape.isVal j → ∀ M', ELater S M M' → ESafe S (EncPost S ((unfoldThing S f j).bind thingVal)
        (fun v => Holds S j (.inr (.inl v))) CVal.encode j) (encodeProg S f j) M' := fun j hj M' a =>
      safe_weaken (fun M r h => encPost_typed (inj := fun v => .inr (.inl v)) (fun c a h => thingVal_eq h) (fun a => rfl)
        (fun c ⟨f, hc⟩ => unfold_val hj hc) h) _ _ (ih j M' (by rw [a.len]; exact hl))
    have hrec : ∀ j, ShapeIs S Shape.isRecord j → ∀ M', ELater S M M' → ESafe S (EncPost S ((unfoldThing S f j).bind thingRec)
        (fun v => Holds S j (.inr (.inr v))) CRec.encode j) (encodeProg S f j) M' := fun j hj M' a =>
      safe_weaken (fun M r h => encPost_typed (inj := fun v => .inr (.inr v)) (fun c a h => thingRec_eq h) (fun a => rfl)
        (fun c ⟨f, hc⟩ => unfold_rec hj hc) h) _ _ (ih j M' (by rw [a.len]; exact hl))
    have hkey : ∀ j, ShapeIs S Shape.isKey j → ∀ M', ELater S M M' → ESafe S (EncPost S ((unfoldThing S f j).bind Sum.getLeft?)
        (fun v => Holds S j (.inl v)) keyPartBytes j) (encodeProg S f j) M' := fun j hj M' a =>
      safe_weaken (fun M r h => encPost_typed (inj := fun v => .inl v) (fun c a h => thingKey_eq h) (fun a => rfl)
        (fun c ⟨f, hc⟩ => unfold_key hj hc) h) _ _ (ih j M' (by rw [a.len]; exact hl))
    have aval : EAgree (fun j => (unfoldThing S f j).bind thingVal) (fun j v => Holds S j (.inr (.inl v))) :=
      agree_of (inj := fun v => .inr (.inl v)) (fun a b h => by simpa using h) (fun c a h => thingVal_eq h)
    have arec : EAgree (fun j => (unfoldThing S f j).bind thingRec) (fun j v => Holds S j (.inr (.inr v))) :=
      agree_of (inj := fun v => .inr (.inr v)) (fun a b h => by simpa using h) (fun c a h => thingRec_eq h)
    have akey : EAgree (fun j => (unfoldThing S f j).bind Sum.getLeft?) (fun j v => Holds S j (.inl v)) :=
      agree_of (inj := fun v => .inl v) (fun a b h => by simpa using h) (fun c a h => thingKey_eq h)
    have uval : ∀ f, (fun j => ((unfoldThing S f j).bind Sum.getRight?).bind Sum.getLeft?) = fun j => (unfoldThing S f j).bind thingVal := by
      intro f; funext j; rw [Option.bind_assoc]; rfl
    have urec : ∀ f, (fun j => ((unfoldThing S f j).bind Sum.getRight?).bind Sum.getRight?) = fun j => (unfoldThing S f j).bind thingRec := by
      intro f; funext j; rw [Option.bind_assoc]; rfl
    rw [encodeProg, unfoldThing]
    cases e : S[i]? with
    | none => exact fun M' _ => ⟨fun a ha => by simp at ha, fun h => by simp at h⟩
    | some n =>
      have hty := hS n (List.mem_of_getElem? e)
      have leaf : ∀ c, unfoldThing S 1 i = some c → Holds S i c := fun c h => ⟨1, h⟩
      cases n with
      | emptyKey =>
        have hh := leaf (.inl .empty) (by simp only [unfoldThing, e])
        exact fun M' _ => ⟨fun a ha => by cases ha; rfl, fun _ => ⟨_, [0x00], hh, rfl, by simp [bufNow, e], _, hh, rfl⟩⟩
      | mappedKey m =>
        have hh := leaf (.inl (.mapped m)) (by simp only [unfoldThing, e])
        exact fun M' _ => ⟨fun a ha => by cases ha; rfl, fun _ => ⟨_, m.getBuf, hh, rfl, by simp [bufNow, e], _, hh, rfl⟩⟩
      | key keys =>
        have hh := leaf (.inl (.key ⟨false, keys, none, 0⟩)) (by simp only [unfoldThing, e])
        exact safe_store e rfl hl (fun a ha => by cases ha; rfl) (fun w hw => ⟨_, hh, hw, _, hh, hw⟩)
      | prim data =>
        have hh := leaf (.inr (.inl (.prim data))) (by simp only [unfoldThing, e])
        have hw' : thingEncode (.inr (.inl (.prim data))) = encodePrimitive data := by simp [thingEncode, contentEncode, CVal.encode]
        exact safe_store e rfl hl (fun a ha => by cases ha; exact hw'.symm) (fun w hw => ⟨_, hh, hw'.trans hw, _, hh, hw'.trans hw⟩)
      | array elems =>
        simp only [uval]
        refine safe_container aval e rfl hl (fun j hj => hval j (hty j hj)) (fun cs => ?_) (fun cs h => ?_)
        · simp only [thingEncode, contentEncode, CVal.encode, encodeVals_eq]; rfl
        · obtain ⟨g, hg⟩ := forall_unfold (inj := fun v => .inr (.inl v)) (g := thingVal) (fun a => rfl) h
          exact ⟨g + 1, by simp only [unfoldThing, e, uval, hg, Option.map_some]⟩
      | list elems =>
        simp only [urec]
        refine safe_container arec e rfl hl (fun j hj => hrec j (hty j hj)) (fun cs => ?_) (fun cs h => ?_)
        · simp only [thingEncode, contentEncode, CVal.encode, encodeRecs_eq]; rfl
        · obtain ⟨g, hg⟩ := forall_unfold (inj := fun v => .inr (.inr v)) (g := thingRec) (fun a => rfl) h
          exact ⟨g + 1, by simp only [unfoldThing, e, urec, hg, Option.map_some]⟩
      | record k v s t sr ss =>
        have hq1 : ∀ x, thingKey (unfoldThing S f) k = some x → PartIs (fun j a => (unfoldThing S f j).bind Sum.getLeft? = some a) k x := by
          intro x hx
          cases k with
          | none => cases hx; rfl
          | some j =>
            simp only [thingKey, Option.map_eq_some_iff] at hx
            obtain ⟨a, h1, rfl⟩ := hx
            exact ⟨a, h1, rfl⟩
        have hq2 : ∀ (o : Option Nat) x, unfoldPart (fun j => (unfoldThing S f j).bind Sum.getRight?) o = some x →
            PartIs (fun j a => (unfoldThing S f j).bind thingVal = some a) o x := by
          intro o x hx
          cases o with
          | none => cases hx; rfl
          | some j =>
            simp only [unfoldPart, Option.map_eq_some_iff] at hx
            obtain ⟨a, h1, rfl⟩ := hx
            exact ⟨a, by show _ = _; rw [← h1, Option.bind_assoc]; rfl, rfl⟩
        have hold : ∀ k' v' s', PartIs (fun j v => Holds S j (.inl v)) k k' → PartIs (fun j v => Holds S j (.inr (.inl v))) v v' →
            PartIs (fun j v => Holds S j (.inr (.inl v))) s s' → Holds S i (.inr (.inr (.record k' v' s' t sr ss))) := by
          intro k' v' s' h1 h2 h3
          obtain ⟨g1, h1⟩ := key_later h1
          obtain ⟨g2, h2⟩ := part_later h2
          obtain ⟨g3, h3⟩ := part_later h3
          refine ⟨max g1 (max g2 g3) + 1, ?_⟩
          simp only [unfoldThing, e, h1 (max g1 (max g2 g3)) (by omega), h2 (max g1 (max g2 g3)) (by omega),
            h3 (max g1 (max g2 g3)) (by omega), Option.bind_some, Option.map_some]
        have hsplit : ∀ a, ((thingKey (unfoldThing S f) k).bind fun k =>
            (unfoldPart (fun j => (unfoldThing S f j).bind Sum.getRight?) v).bind fun v =>
              (unfoldPart (fun j => (unfoldThing S f j).bind Sum.getRight?) s).map fun s =>
                (Sum.inr (Sum.inr (.record k v s t sr ss)) : Thing)) = some a →
            ∃ k' v' s', thingKey (unfoldThing S f) k = some k' ∧
              unfoldPart (fun j => (unfoldThing S f j).bind Sum.getRight?) v = some v' ∧
              unfoldPart (fun j => (unfoldThing S f j).bind Sum.getRight?) s = some s' ∧ a = .inr (.inr (.record k' v' s' t sr ss)) := by
          intro a ha
          simp only [Option.bind_eq_some_iff, Option.map_eq_some_iff] at ha
          obtain ⟨k', h1, v', h2, s', h3, rfl⟩ := ha
          exact ⟨k', v', s', h1, h2, h3, rfl⟩
        simp only at hty ⊢
        refine safe_seq (safe_part akey k M (fun j hj => hkey j (hty.1 j hj)) (fun j hj => absent_key (hty.1 j hj)) hq1)
          (fun M1 o1 a1 p1 => ?_) (fun M1 r r' p1 hf => ?_)
        · refine safe_seq (safe_part aval v M1 (fun j hj M' a => hval j (hty.2.1 j hj) M' (a1.trans a))
            (fun j hj => absent_val (hty.2.1 j hj)) (hq2 v)) (fun M2 o2 a2 p2 => ?_) (fun M2 r r' p2 hf => ?_)
          · refine safe_seq (safe_part aval s M2 (fun j hj M' a => hval j (hty.2.2 j hj) M' ((a1.trans a2).trans a))
              (fun j hj => absent_val (hty.2.2 j hj)) (hq2 s)) (fun M3 o3 a3 p3 => ?_) (fun M3 r r' p3 hf => ?_)
            · refine safe_store e rfl (by rw [a3.len, a2.len, a1.len]; exact hl) (fun a ha => ?_) (fun w hw => ?_)
              · obtain ⟨k', v', s', h1, h2, h3, rfl⟩ := hsplit a ha
                have e1 := p1.1 k' h1
                have e2 := p2.1 v' h2
                have e3 := p3.1 s' h3
                simp only [Option.some.injEq] at e1 e2 e3
                rw [record_eq, ← e1, ← e2, ← e3]; rfl
              · obtain ⟨k', h1, e1⟩ := p1.2 o1 rfl
                obtain ⟨v', h2, e2⟩ := p2.2 o2 rfl
                obtain ⟨s', h3, e3⟩ := p3.2 o3 rfl
                have hw' : thingEncode (.inr (.inr (.record k' v' s' t sr ss))) = .ok w := by
                  rw [record_eq, e1, e2, e3, ← hw]; rfl
                exact ⟨_, hold k' v' s' h1 h2 h3, hw', _, hold k' v' s' h1 h2 h3, hw'⟩
            · refine fun M' _ => ⟨fun a ha => ?_, fun hr => by subst hr; exact (failed_ok hf).elim⟩
              obtain ⟨k', v', s', h1, h2, h3, rfl⟩ := hsplit a ha
              have e1 := p1.1 k' h1
              have e2 := p2.1 v' h2
              have e3 := p3.1 s' h3
              simp only [Option.some.injEq] at e1 e2
              subst e3
              rw [record_eq, ← e1, ← e2]
              rcases he : partBytesOf CVal.isNil CVal.encode s' with x | - | - <;> rw [he] at hf <;> simp [seqFailed] at hf <;> subst hf <;> rfl
          · refine fun M' _ => ⟨fun a ha => ?_, fun hr => by subst hr; exact (failed_ok hf).elim⟩
            obtain ⟨k', v', s', h1, h2, h3, rfl⟩ := hsplit a ha
            have e1 := p1.1 k' h1
            have e2 := p2.1 v' h2
            simp only [Option.some.injEq] at e1
            subst e2
            rw [record_eq, ← e1]
            rcases he : partBytesOf CVal.isNil CVal.encode v' with x | - | - <;> rw [he] at hf <;> simp [seqFailed] at hf <;> subst hf <;> rfl
        · refine fun M' _ => ⟨fun a ha => ?_, fun hr => by subst hr; exact (failed_ok hf).elim⟩
          obtain ⟨k', v', s', h1, h2, h3, rfl⟩ := hsplit a ha
          have e1 := p1.1 k' h1
          subst e1
          rw [record_eq]
          rcases he : partBytesOf KeyObj.isEmpty keyPartBytes k' with x | - | - <;> rw [he] at hf <;> simp [seqFailed] at hf <;> subst hf <;> rfl
      | mappedSimple c b =>
        exact fun M' _ => ⟨fun a ha => by cases ha; simp [thingEncode, contentEncode, CVal.encode, asUnit], fun h => by simp at h⟩
      | mappedStd c =>
        exact fun M' _ => ⟨fun a ha => by cases ha; simp [thingEncode, contentEncode, CVal.encode, asUnit], fun h => by simp at h⟩
      | mappedRec c =>
        exact fun M' _ => ⟨fun a ha => by cases ha; simp [thingEncode, contentEncode, CRec.encode, asUnit], fun h => by simp at h⟩

/-! ### Executions -/

/-- What a call of `Encode` has to give, whatever happens meanwhile. -/
def callPost (S : List Shape) (id : Nat) : EncCall → Cells → Option (Res EncOut) → Prop
  | .encode depth => fun M r => (∀ c, unfoldThing S depth id = some c → r = encodeResult (thingEncode c)) ∧
      (r = some (.ok .done) → ∃ w, Right S id w ∧ bufNow S M id = .ok w)
  | _ => fun _ _ => True

/-- What a call of `Buf` has to give, if it begins with these fields. -/
def bufPost (S : List Shape) (id : Nat) (M0 : Cells) (r : Option (Res Bytes)) : Prop :=
  (∃ b, r = some (.ok b) ∧ (Right S id b ∨ bufNow S M0 id = .ok b)) ∨ (r = some .panic ∧ bufNow S M0 id = .panic)

theorem safe_anyBuf (S : List Shape) (id : Nat) (M : Cells) : ESafe S (fun _ r => bufPost S id M r) (bufProg S id) M := by
  unfold bufProg bufPost bufNow
  cases e : S[id]? with
  | none => exact fun _ _ => Or.inr ⟨rfl, rfl⟩
  | some n =>
    cases n with
    | key _ | prim _ | array _ | list _ | record =>
      intro M' a
      by_cases he : (M'.at id).encoded = true
      · rw [he]
        intro M'' b M3 _
        refine Or.inl ⟨_, rfl, ?_⟩
        rcases b.buf id with h1 | h1
        · rcases a.fresh id he with h2 | h2
          · rcases a.buf id with h3 | h3
            · right; simp [h2, h1, h3]
            · left; rw [h1]; exact h3
          · left; rw [h1]; exact h2
        · exact Or.inl h1
      · have h0 : ¬ (M.at id).encoded = true := fun h => he (a.keep id h)
        rw [Bool.not_eq_true] at he
        rw [he]
        exact fun M'' _ => Or.inr ⟨rfl, by simp [h0]⟩
    | _ => exact fun _ _ => Or.inl ⟨_, rfl, Or.inr rfl⟩

/-- What a call of `IsEncoded` has to give, if it begins with these fields. -/
def flagPost (S : List Shape) (id : Nat) (M0 M : Cells) (r : Option (Res Bool)) : Prop :=
  (r = some (.ok true) ∧ ∃ w, bufNow S M id = .ok w ∧ (Right S id w ∨ bufNow S M0 id = .ok w)) ∨
    ((r = some (.ok false) ∨ r = some .panic) ∧ bufNow S M0 id = .panic)

theorem safe_flag (S : List Shape) (id : Nat) (M : Cells) : ESafe S (fun M' r => flagPost S id M M' r) (flagProg S id) M := by
  unfold flagProg flagPost bufNow
  cases e : S[id]? with
  | none => exact fun _ _ => Or.inr ⟨Or.inr rfl, rfl⟩
  | some n =>
    cases n with
    | key _ | prim _ | array _ | list _ | record =>
      intro M' a
      by_cases he : (M'.at id).encoded = true
      · rw [he]
        intro M'' b
        refine Or.inl ⟨rfl, (M''.at id).buf, by simp [b.keep id he], ?_⟩
        rcases b.buf id with h1 | h1
        · rcases a.fresh id he with h2 | h2
          · rcases a.buf id with h3 | h3
            · right; simp [h2, h1, h3]
            · left; rw [h1]; exact h3
          · left; rw [h1]; exact h2
        · exact Or.inl h1
      · have h0 : ¬ (M.at id).encoded = true := fun h => he (a.keep id h)
        rw [Bool.not_eq_true] at he
        rw [he]
        exact fun M'' _ => Or.inr ⟨Or.inl rfl, by simp [h0]⟩
    | _ => exact fun _ _ => Or.inl ⟨rfl, _, rfl, Or.inr rfl⟩

theorem bufNow_later {S : List Shape} {M M' : Cells} (a : ELater S M M') {i : Nat} {b : Bytes} (h : bufNow S M i = .ok b) :
    ∃ b', bufNow S M' i = .ok b' ∧ (b' = b ∨ Right S i b') := by
  unfold bufNow at h ⊢
  cases e : S[i]? with
  | none => simp [e] at h
  | some n =>
    rw [e] at h
    cases n with
    | key _ | prim _ | array _ | list _ | record =>
      simp only at h ⊢
      split at h
      · rename_i h1
        rw [if_pos (a.keep i h1)]
        refine ⟨_, rfl, ?_⟩
        rw [← Res.ok.inj h]
        exact a.buf i
      · simp at h
    | _ => exact ⟨b, h, Or.inl rfl⟩

theorem safe_call {S : List Shape} (hS : WellTyped S) (id : Nat) (c : EncCall) (M : Cells) (hl : S.length ≤ M.length) :
    ESafe S (callPost S id c) (c.prog S id) M := by
  cases c with
  | encode depth =>
    refine safe_seq (safe_encode hS depth id M hl) (fun M1 _ _ h1 => ?_) (fun M1 r r' h1 hf => ?_)
    · intro M2 a
      obtain ⟨c, w, g1, g2, g3, g4⟩ := h1.2 rfl
      refine ⟨fun c' hc' => ?_, fun _ => ⟨w, g4, later_bufNow a g3 g4⟩⟩
      rw [holds_unique ⟨depth, hc'⟩ g1, g2]; rfl
    · intro M2 a
      refine ⟨fun c' hc' => ?_, fun h => by subst h; exact (failed_ok hf).elim⟩
      have := h1.1 c' hc'
      subst this
      rcases he : thingEncode c' with x | - | - <;> rw [he] at hf <;> simp [seqFailed, asUnit] at hf <;> subst hf <;> rfl
  | buf => exact safe_seq (safe_anyBuf S id M) (fun M1 _ _ h1 _ _ => trivial) (fun M1 r r' h1 hf _ _ => trivial)
  | isEncoded => exact safe_seq (safe_flag S id M) (fun M1 _ _ h1 _ _ => trivial) (fun M1 r r' h1 hf _ _ => trivial)

theorem safe_step {α : Type} {S : List Shape} {Q : Cells → α → Prop} {p : Prog α} {M : Cells} (h : ESafe S Q p M) :
    ELater S M (p.step M).1 ∧ ESafe S Q (p.step M).2 (p.step M).1 := by
  cases p with
  | ret a => exact ⟨ELater.refl S M, h⟩
  | readFlag id n => exact ⟨ELater.refl S M, h M (ELater.refl S M)⟩
  | readBuf id n => exact ⟨ELater.refl S M, h M (ELater.refl S M)⟩
  | writeBuf id w n => exact h M (ELater.refl S M)
  | writeFlag id n => exact h M (ELater.refl S M)

/-- All calls are as they should be. -/
def EncWorldSafe (S : List Shape) (w : EncWorld) : Prop :=
  S.length ≤ w.cells.length ∧ ∀ t ∈ w.tasks, ESafe S (callPost S t.id t.call) t.prog w.cells

theorem event_safe {S : List Shape} (hS : WellTyped S) {w : EncWorld} (h : EncWorldSafe S w) (e : EncEvent) :
    EncWorldSafe S (e.run S w) ∧ ELater S w.cells (e.run S w).cells := by
  cases e with
  | start id c =>
    refine ⟨⟨h.1, fun t ht => ?_⟩, ELater.refl S _⟩
    simp only [EncEvent.run, List.mem_append, List.mem_singleton] at ht
    rcases ht with ht | rfl
    · exact h.2 t ht
    · exact safe_call hS id c w.cells h.1
  | step k =>
    simp only [EncEvent.run]
    cases hk : w.tasks[k]? with
    | none => exact ⟨h, ELater.refl S _⟩
    | some t =>
      obtain ⟨a, hs⟩ := safe_step (h.2 t (List.mem_of_getElem? hk))
      refine ⟨⟨by rw [a.len]; exact h.1, fun u hu => ?_⟩, a⟩
      rcases List.mem_or_eq_of_mem_set hu with hu | rfl
      · exact safe_later (h.2 u hu) a
      · exact hs

theorem run_safe {S : List Shape} (hS : WellTyped S) : ∀ (l : List EncEvent) {w : EncWorld}, EncWorldSafe S w →
    EncWorldSafe S (encInterleave S w l) ∧ ELater S w.cells (encInterleave S w l).cells
  | [], _, h => ⟨h, ELater.refl S _⟩
  | e :: l, w, h => by
    have h1 := event_safe hS h e
    have h2 := run_safe hS l h1.1
    exact ⟨h2.1, h1.2.trans h2.2⟩

/-- A call with whatever it has to give. -/
theorem run_track {S : List Shape} (hS : WellTyped S) {Q : Cells → Option (Res EncOut) → Prop} {k : Nat} : ∀ (l : List EncEvent) {w : EncWorld}
    {t : EncTask}, EncWorldSafe S w → w.tasks[k]? = some t → ESafe S Q t.prog w.cells →
      ∃ p, (encInterleave S w l).tasks[k]? = some { t with prog := p } ∧ ESafe S Q p (encInterleave S w l).cells
  | [], w, t, _, hk, hq => ⟨t.prog, hk, hq⟩
  | e :: l, w, t, h, hk, hq => by
    have h1 := event_safe hS h e
    have : ∃ p, (e.run S w).tasks[k]? = some { t with prog := p } ∧ ESafe S Q p (e.run S w).cells := by
      cases e with
      | start id c =>
        refine ⟨t.prog, ?_, hq⟩
        simp only [EncEvent.run]
        rw [List.getElem?_append_left (List.getElem?_eq_some_iff.mp hk).1, hk]
      | step j =>
        simp only [EncEvent.run] at h1 ⊢
        cases hj : w.tasks[j]? with
        | none => exact ⟨t.prog, hk, hq⟩
        | some u =>
          rw [hj] at h1
          by_cases hjk : j = k
          · subst hjk
            rw [hk] at hj
            obtain rfl := Option.some.inj hj
            refine ⟨(t.prog.step w.cells).2, ?_, (safe_step hq).2⟩
            simp only
            rw [List.getElem?_set_self (List.getElem?_eq_some_iff.mp hk).1]
          · refine ⟨t.prog, ?_, safe_later hq h1.2⟩
            simp only
            rw [List.getElem?_set_ne hjk, hk]
    obtain ⟨p, e1, e2⟩ := this
    obtain ⟨p', e3, e4⟩ := run_track hS l h1.1 e1 e2
    exact ⟨p', e3, e4⟩

theorem begin_safe {S : List Shape} {M : Cells} (hl : M.length = S.length) : EncWorldSafe S ⟨M, []⟩ :=
  ⟨by simp [hl], fun t ht => by simp at ht⟩

theorem encInterleave_append (S : List Shape) (w : EncWorld) (l l' : List EncEvent) :
    encInterleave S w (l ++ l') = encInterleave S (encInterleave S w l) l' := by
  simp [encInterleave, List.foldl_append]

/-- C205: whatever other calls are made at the same time, `Encode` gives the same as alone, for each key, value and record, and however its
parts are shared. -/
theorem C205_encode_partial (S : List Shape) (hS : WellTyped S) (M : Cells) (hl : M.length = S.length) (id : Nat) (c : Thing)
    (hc : Holds S id c) : ∃ d, ∀ depth ≥ d, ∀ (l : List EncEvent) (k : Nat) (r : Option (Res EncOut)),
      CallEnded (encInterleave S ⟨M, []⟩ l) k id (.encode depth) r → r = encodeResult (thingEncode c) := by
  obtain ⟨d, hd⟩ := hc
  refine ⟨d, fun depth hle l k r hk => ?_⟩
  have h := (run_safe hS l (begin_safe hl)).1.2 _ (List.mem_of_getElem? hk)
  exact (h _ (ELater.refl S _)).1 c (unfoldThing_le hle hd)

/-- C205: when `Encode` has succeeded, the bytes are there, and no other calls disturb them. -/
theorem C205_stays_partial (S : List Shape) (hS : WellTyped S) (M : Cells) (hl : M.length = S.length) (l : List EncEvent)
    (k id depth : Nat) (hk : CallEnded (encInterleave S ⟨M, []⟩ l) k id (.encode depth) (some (.ok .done))) :
    ∃ c w, Holds S id c ∧ thingEncode c = .ok w ∧ ∀ after, bufNow S (encInterleave S ⟨M, []⟩ (l ++ after)).cells id = .ok w := by
  have hw := (run_safe hS l (begin_safe hl)).1
  have h := hw.2 _ (List.mem_of_getElem? hk)
  obtain ⟨w, h1, h2⟩ := (h _ (ELater.refl S _)).2 rfl
  have h1' := h1
  obtain ⟨c, h3, h4⟩ := h1'
  refine ⟨c, w, h3, h4, fun after => ?_⟩
  rw [encInterleave_append]
  exact later_bufNow (run_safe hS after hw).2 h2 h1

/-- C205: `Buf` gives complete bytes: the encoding of the object, or the bytes that were there when it was called.  It panics only if there
were none when it was called. -/
theorem C205_buf_partial (S : List Shape) (hS : WellTyped S) (M : Cells) (hl : M.length = S.length) (before after : List EncEvent)
    (id : Nat) (r : Option (Res EncOut)) (hk : CallEnded (encInterleave S ⟨M, []⟩ (before ++ .start id .buf :: after))
      (encInterleave S ⟨M, []⟩ before).tasks.length id .buf r) :
    (∃ b, r = some (.ok (.bytes b)) ∧
      ((∃ c, Holds S id c ∧ thingEncode c = .ok b) ∨ bufNow S (encInterleave S ⟨M, []⟩ before).cells id = .ok b)) ∨
    (r = some .panic ∧ bufNow S (encInterleave S ⟨M, []⟩ before).cells id = .panic) := by
  have hw := (run_safe hS before (begin_safe hl)).1
  rw [encInterleave_append] at hk
  generalize encInterleave S ⟨M, []⟩ before = w at hw hk ⊢
  have h1 := event_safe hS hw (.start id .buf)
  have hq : ESafe S (fun _ r => (∃ b, r = some (.ok (.bytes b)) ∧ (Right S id b ∨ bufNow S w.cells id = .ok b)) ∨
      (r = some .panic ∧ bufNow S w.cells id = .panic)) (EncCall.buf.prog S id) w.cells := by
    refine safe_seq (safe_anyBuf S id w.cells) (fun M1 b _ h1 M2 _ => ?_) (fun M1 r r' h1 hf M2 _ => ?_)
    · rcases h1 with ⟨b', e1, e2⟩ | ⟨e1, -⟩
      · cases e1; exact Or.inl ⟨b, rfl, e2⟩
      · cases e1
    · rcases h1 with ⟨b', e1, e2⟩ | ⟨e1, e2⟩
      · subst e1; cases hf
      · subst e1; cases hf; exact Or.inr ⟨rfl, e2⟩
  obtain ⟨p, e1, e2⟩ := run_track hS (Q := _) (k := w.tasks.length) after h1.1 (by simp only [EncEvent.run]; simp; rfl) hq
  have hk' : (encInterleave S (EncEvent.run S w (.start id .buf)) after).tasks[w.tasks.length]? = some ⟨id, .buf, .ret r⟩ := hk
  rw [hk'] at e1
  simp only [Option.some.injEq, EncTask.mk.injEq] at e1
  rw [← e1.2.2] at e2
  exact e2 _ (ELater.refl S _)

/-- C205: if `IsEncoded` says yes, `Buf` gives complete bytes, from then on; it says no only if there were none when it was called. -/
theorem C205_isEncoded_partial (S : List Shape) (hS : WellTyped S) (M : Cells) (hl : M.length = S.length) (before after : List EncEvent)
    (id : Nat) (r : Option (Res EncOut)) (hk : CallEnded (encInterleave S ⟨M, []⟩ (before ++ .start id .isEncoded :: after))
      (encInterleave S ⟨M, []⟩ before).tasks.length id .isEncoded r) :
    (r = some (.ok (.flag true)) ∧ ∃ w, bufNow S (encInterleave S ⟨M, []⟩ (before ++ .start id .isEncoded :: after)).cells id = .ok w ∧
      ((∃ c, Holds S id c ∧ thingEncode c = .ok w) ∨ bufNow S (encInterleave S ⟨M, []⟩ before).cells id = .ok w)) ∨
    ((r = some (.ok (.flag false)) ∨ r = some .panic) ∧ bufNow S (encInterleave S ⟨M, []⟩ before).cells id = .panic) := by
  have hw := (run_safe hS before (begin_safe hl)).1
  rw [encInterleave_append] at hk ⊢
  generalize encInterleave S ⟨M, []⟩ before = w at hw hk ⊢
  have h1 := event_safe hS hw (.start id .isEncoded)
  have hq : ESafe S (fun M r => (r = some (.ok (.flag true)) ∧ ∃ b, bufNow S M id = .ok b ∧ (Right S id b ∨ bufNow S w.cells id = .ok b)) ∨
      ((r = some (.ok (.flag false)) ∨ r = some .panic) ∧ bufNow S w.cells id = .panic)) (EncCall.isEncoded.prog S id) w.cells := by
    refine safe_seq (safe_flag S id w.cells) (fun M1 b _ h1 M2 a2 => ?_) (fun M1 r r' h1 hf M2 _ => ?_)
    · rcases h1 with ⟨e1, b', e2, e3⟩ | ⟨e1 | e1, e2⟩
      · cases e1
        refine Or.inl ⟨rfl, ?_⟩
        obtain ⟨b2, g1, g2⟩ := bufNow_later a2 e2
        rcases g2 with rfl | g2
        · exact ⟨_, g1, e3⟩
        · exact ⟨_, g1, Or.inl g2⟩
      · cases e1; exact Or.inr ⟨Or.inl rfl, e2⟩
      · cases e1
    · rcases h1 with ⟨e1, e2⟩ | ⟨e1 | e1, e2⟩
      · subst e1; cases hf
      · subst e1; cases hf
      · subst e1; cases hf; exact Or.inr ⟨Or.inr rfl, e2⟩
  obtain ⟨p, e1, e2⟩ := run_track hS (Q := _) (k := w.tasks.length) after h1.1 (by simp only [EncEvent.run]; simp; rfl) hq
  have hk' : (encInterleave S (EncEvent.run S w (.start id .isEncoded)) after).tasks[w.tasks.length]? = some ⟨id, .isEncoded, .ret r⟩ := hk
  rw [hk'] at e1
  simp only [Option.some.injEq, EncTask.mk.injEq] at e1
  rw [← e1.2.2] at e2
  exact e2 _ (ELater.refl S _)

/-! ### Calls end -/

/-- The call ends after this many steps at most. -/
def Bounded {α : Type} : Nat → Prog α → Prop
  | _, .ret _ => True
  | 0, _ => False
  | n + 1, .readFlag _ p => ∀ b, Bounded n (p b)
  | n + 1, .readBuf _ p => ∀ b, Bounded n (p b)
  | n + 1, .writeBuf _ _ p => Bounded n p
  | n + 1, .writeFlag _ p => Bounded n p

theorem bounded_mono {α : Type} : ∀ {n m : Nat} {p : Prog α}, n ≤ m → Bounded n p → Bounded m p
  | _, m, .ret _, _, _ => by cases m <;> trivial
  | 0, _, .readFlag _ _, _, h => h.elim
  | 0, _, .readBuf _ _, _, h => h.elim
  | 0, _, .writeBuf _ _ _, _, h => h.elim
  | 0, _, .writeFlag _ _, _, h => h.elim
  | n + 1, m, p, hle, h => by
    obtain ⟨m, rfl⟩ : ∃ k, m = k + 1 := ⟨m - 1, by omega⟩
    cases p with
    | ret a => trivial
    | readFlag id q => exact fun b => bounded_mono (by omega) (h b)
    | readBuf id q => exact fun b => bounded_mono (by omega) (h b)
    | writeBuf id w q => exact bounded_mono (p := q) (by omega) h
    | writeFlag id q => exact bounded_mono (p := q) (by omega) h

theorem bounded_bind {α β : Type} {k : α → Prog β} {m : Nat} (hk : ∀ a, Bounded m (k a)) :
    ∀ {n : Nat} {p : Prog α}, Bounded n p → Bounded (n + m) (p.bind k)
  | n, .ret a, _ => bounded_mono (by omega) (hk a)
  | 0, .readFlag _ _, h => h.elim
  | 0, .readBuf _ _, h => h.elim
  | 0, .writeBuf _ _ _, h => h.elim
  | 0, .writeFlag _ _, h => h.elim
  | n + 1, .readFlag _ q, h => by rw [Nat.add_right_comm]; exact fun b => bounded_bind hk (h b)
  | n + 1, .readBuf _ q, h => by rw [Nat.add_right_comm]; exact fun b => bounded_bind hk (h b)
  | n + 1, .writeBuf _ _ q, h => by rw [Nat.add_right_comm]; exact bounded_bind (p := q) hk h
  | n + 1, .writeFlag _ q, h => by rw [Nat.add_right_comm]; exact bounded_bind (p := q) hk h

theorem bounded_ret {α : Type} (n : Nat) (a : α) : Bounded n (.ret a) := by cases n <;> trivial

theorem bounded_seq {α β : Type} {k : α → Prog (Option (Res β))} {m n : Nat} {p : Prog (Option (Res α))} (hp : Bounded n p)
    (hk : ∀ a, Bounded m (k a)) : Bounded (n + m) (p.seq k) := by
  refine bounded_bind (fun r => ?_) hp
  rcases r with - | r
  · exact bounded_ret _ _
  · rcases r with a | - | -
    · exact hk a
    · exact bounded_ret _ _
    · exact bounded_ret _ _

theorem bounded_store (id : Nat) (r : Res Bytes) : Bounded 2 (storeProg id r) := by
  rcases r with w | - | - <;> trivial

theorem bounded_buf (S : List Shape) (id : Nat) : Bounded 2 (bufProg S id) := by
  unfold bufProg checkedBuf
  split <;> first | exact bounded_ret _ _ | skip
  intro b
  cases b
  · trivial
  · exact fun _ => trivial

theorem bounded_flag (S : List Shape) (id : Nat) : Bounded 1 (flagProg S id) := by
  unfold flagProg
  split <;> first | exact bounded_ret _ _ | skip
  exact fun _ => trivial

theorem bounded_elems (S : List Shape) {enc : Nat → Prog (Option (Res Unit))} {n : Nat} :
    ∀ (l : List Nat), (∀ j ∈ l, Bounded n (enc j)) → Bounded (l.length * (n + 2)) (elemsProg S enc l)
  | [], _ => bounded_ret _ _
  | i :: l, h => by
    have h1 := bounded_elems S l (fun j hj => h j (List.mem_cons_of_mem _ hj))
    have h2 := bounded_seq (k := fun _ => (bufProg S i).seq fun b => (elemsProg S enc l).seq fun bs => .ret (some (.ok (b ++ bs))))
      (h i (List.mem_cons_self ..)) (fun _ => bounded_seq (bounded_buf S i) fun b => bounded_seq h1 fun bs => bounded_ret 0 _)
    rw [elemsProg]
    refine bounded_mono ?_ h2
    simp only [List.length_cons, Nat.add_mul]
    omega

theorem bounded_part (S : List Shape) {enc : Nat → Prog (Option (Res Unit))} {n : Nat} (o : Option Nat) (h : ∀ j ∈ o, Bounded n (enc j)) :
    Bounded (n + 2) (partProg S enc o) := by
  unfold partProg
  split
  · exact bounded_ret _ _
  · rename_i i
    split
    · exact bounded_ret _ _
    · split
      · exact bounded_ret _ _
      · exact bounded_mono (by omega) (bounded_seq (h i rfl) (fun _ => bounded_seq (bounded_buf S i) fun b => bounded_ret 0 _))

theorem refs_bounded : ∀ (S : List Shape), ∃ L, ∀ s ∈ S, (Shape.refs s).length ≤ L
  | [] => ⟨0, by simp⟩
  | s :: S => by
    obtain ⟨L, hL⟩ := refs_bounded S
    refine ⟨L + (Shape.refs s).length, fun x hx => ?_⟩
    rcases List.mem_cons.mp hx with rfl | hx
    · omega
    · have := hL x hx; omega

/-- `Encode` takes a number of steps that depends on the structure of the objects only. -/
theorem bounded_encode (S : List Shape) : ∀ (f : Nat), ∃ n, ∀ i, Bounded n (encodeProg S f i)
  | 0 => ⟨0, fun i => trivial⟩
  | f + 1 => by
    obtain ⟨n, hn⟩ := bounded_encode S f
    obtain ⟨L, hL⟩ := refs_bounded S
    refine ⟨L * (n + 2) + 3 * (n + 2) + 2, fun i => ?_⟩
    rw [encodeProg]
    cases e : S[i]? with
    | none => exact bounded_ret _ _
    | some s =>
      have hs := hL s (List.mem_of_getElem? e)
      cases s with
      | key keys => exact bounded_mono (by omega) (bounded_store i _)
      | prim data => exact bounded_mono (by omega) (bounded_store i _)
      | array elems =>
        have h1 := Nat.mul_le_mul_right (n + 2) hs
        simp only [Shape.refs] at h1
        simp only
        split
        · exact bounded_mono (by omega) (bounded_seq (bounded_elems S elems fun j _ => hn j) fun c => bounded_store i _)
        · exact bounded_ret _ _
        · exact bounded_ret _ _
      | list elems =>
        have h1 := Nat.mul_le_mul_right (n + 2) hs
        simp only [Shape.refs] at h1
        simp only
        split
        · exact bounded_mono (by omega) (bounded_seq (bounded_elems S elems fun j _ => hn j) fun c => bounded_store i _)
        · exact bounded_ret _ _
        · exact bounded_ret _ _
      | record k v s t sr ss =>
        exact bounded_mono (by omega) (bounded_seq (bounded_part S k fun j _ => hn j) fun o1 =>
          bounded_seq (bounded_part S v fun j _ => hn j) fun o2 => bounded_seq (bounded_part S s fun j _ => hn j) fun o3 => bounded_store i _)
      | _ => exact bounded_ret _ _

theorem bounded_call (S : List Shape) (id : Nat) (c : EncCall) : ∃ n, Bounded n (c.prog S id) := by
  cases c with
  | encode depth =>
    obtain ⟨n, hn⟩ := bounded_encode S depth
    exact ⟨n + 0, bounded_seq (hn id) fun _ => bounded_ret _ _⟩
  | buf => exact ⟨2 + 0, bounded_seq (bounded_buf S id) fun _ => bounded_ret _ _⟩
  | isEncoded => exact ⟨1 + 0, bounded_seq (bounded_flag S id) fun _ => bounded_ret _ _⟩

theorem bounded_step {α : Type} {n : Nat} {p : Prog α} (h : Bounded n p) (M : Cells) : Bounded (n - 1) (p.step M).2 := by
  cases p with
  | ret a => exact bounded_ret _ _
  | readFlag id q => cases n with
    | zero => exact h.elim
    | succ n => exact h _
  | readBuf id q => cases n with
    | zero => exact h.elim
    | succ n => exact h _
  | writeBuf id w q => cases n with
    | zero => exact h.elim
    | succ n => exact h
  | writeFlag id q => cases n with
    | zero => exact h.elim
    | succ n => exact h

theorem run_bounded {S : List Shape} {k : Nat} : ∀ (l : List EncEvent) {w : EncWorld} {t : EncTask} {n : Nat}, w.tasks[k]? = some t →
    Bounded n t.prog → ∃ p, (encInterleave S w l).tasks[k]? = some { t with prog := p } ∧ Bounded (n - encSteps k l) p
  | [], w, t, n, hk, hb => ⟨t.prog, hk, hb⟩
  | e :: l, w, t, n, hk, hb => by
    cases e with
    | start id c =>
      have h1 : (EncEvent.run S w (.start id c)).tasks[k]? = some t := by
        simp only [EncEvent.run]
        rw [List.getElem?_append_left (List.getElem?_eq_some_iff.mp hk).1, hk]
      have h2 := run_bounded (S := S) l h1 hb
      simpa [encSteps, encInterleave] using h2
    | step j =>
      by_cases hjk : j = k
      · subst hjk
        have h1 : (EncEvent.run S w (.step j)).tasks[j]? = some { t with prog := (t.prog.step w.cells).2 } := by
          simp only [EncEvent.run, hk]
          rw [List.getElem?_set_self (List.getElem?_eq_some_iff.mp hk).1]
        obtain ⟨p, h2, h3⟩ := run_bounded l h1 (bounded_step hb w.cells)
        refine ⟨p, h2, ?_⟩
        have : n - encSteps j (.step j :: l) = n - 1 - encSteps j l := by simp [encSteps]; omega
        rw [this]; exact h3
      · have h1 : (EncEvent.run S w (.step j)).tasks[k]? = some t := by
          simp only [EncEvent.run]
          split
          · simp only; rw [List.getElem?_set_ne hjk, hk]
          · exact hk
        obtain ⟨p, h2, h3⟩ := run_bounded l h1 hb
        refine ⟨p, h2, ?_⟩
        have : encSteps k (.step j :: l) = encSteps k l := by simp [encSteps, hjk]
        rw [this]; exact h3

/-- C205: no call waits for another.  A call has ended after a number of own steps that depends on the structure of the objects only. -/
theorem C205_ends (S : List Shape) (id : Nat) (c : EncCall) : ∃ n, ∀ (M : Cells) (before after : List EncEvent),
    n ≤ encSteps (encInterleave S ⟨M, []⟩ before).tasks.length after →
      ∃ r, CallEnded (encInterleave S ⟨M, []⟩ (before ++ .start id c :: after)) (encInterleave S ⟨M, []⟩ before).tasks.length id c r := by
  obtain ⟨n, hn⟩ := bounded_call S id c
  refine ⟨n, fun M before after hs => ?_⟩
  rw [encInterleave_append]
  generalize encInterleave S ⟨M, []⟩ before = w at hs ⊢
  have h1 : (EncEvent.run S w (.start id c)).tasks[w.tasks.length]? = some ⟨id, c, c.prog S id⟩ := by simp [EncEvent.run]
  obtain ⟨p, h2, h3⟩ := run_bounded after h1 hn
  rw [Nat.sub_eq_zero_of_le hs] at h3
  cases p with
  | ret r => exact ⟨r, h2⟩
  | _ => exact h3.elim

/-! ### Data races -/

/-- All accesses of the call are to such objects; the second condition is for those it writes. -/
def Only {α : Type} (P W : Nat → Prop) : Prog α → Prop
  | .ret _ => True
  | .readFlag id n => P id ∧ ∀ b, Only P W (n b)
  | .readBuf id n => P id ∧ ∀ b, Only P W (n b)
  | .writeBuf id _ n => P id ∧ W id ∧ Only P W n
  | .writeFlag id n => P id ∧ W id ∧ Only P W n

theorem only_bind {α β : Type} {P W : Nat → Prop} {k : α → Prog β} (hk : ∀ a, Only P W (k a)) :
    ∀ {p : Prog α}, Only P W p → Only P W (p.bind k)
  | .ret a, _ => hk a
  | .readFlag _ _, h => ⟨h.1, fun b => only_bind hk (h.2 b)⟩
  | .readBuf _ _, h => ⟨h.1, fun b => only_bind hk (h.2 b)⟩
  | .writeBuf _ _ _, h => ⟨h.1, h.2.1, only_bind hk h.2.2⟩
  | .writeFlag _ _, h => ⟨h.1, h.2.1, only_bind hk h.2.2⟩

theorem only_seq {α β : Type} {P W : Nat → Prop} {k : α → Prog (Option (Res β))} {p : Prog (Option (Res α))} (hp : Only P W p)
    (hk : ∀ a, Only P W (k a)) : Only P W (p.seq k) := by
  refine only_bind (fun r => ?_) hp
  rcases r with - | r
  · trivial
  · rcases r with a | - | -
    · exact hk a
    · trivial
    · trivial

theorem only_mono {α : Type} {P P' W W' : Nat → Prop} (h : ∀ j, P j → P' j) (h' : ∀ j, W j → W' j) :
    ∀ {p : Prog α}, Only P W p → Only P' W' p
  | .ret _, _ => trivial
  | .readFlag _ _, g => ⟨h _ g.1, fun b => only_mono h h' (g.2 b)⟩
  | .readBuf _ _, g => ⟨h _ g.1, fun b => only_mono h h' (g.2 b)⟩
  | .writeBuf _ _ _, g => ⟨h _ g.1, h' _ g.2.1, only_mono h h' g.2.2⟩
  | .writeFlag _ _, g => ⟨h _ g.1, h' _ g.2.1, only_mono h h' g.2.2⟩

theorem only_step {α : Type} {P W : Nat → Prop} {p : Prog α} (h : Only P W p) (M : Cells) : Only P W (p.step M).2 := by
  cases p with
  | ret a => exact h
  | readFlag id n => exact h.2 _
  | readBuf id n => exact h.2 _
  | writeBuf id w n => exact h.2.2
  | writeFlag id n => exact h.2.2

theorem only_access {α : Type} {P W : Nat → Prop} {p : Prog α} (h : Only P W p) {id : Nat} {f b : Bool}
    (ha : Prog.nextAccess p = some (id, f, b)) : P id ∧ (b = true → W id) := by
  cases p <;> simp only [Prog.nextAccess, Option.some.injEq, Prod.mk.injEq, reduceCtorEq] at ha
  · obtain ⟨rfl, -, rfl⟩ := ha; exact ⟨h.1, by simp⟩
  · obtain ⟨rfl, -, rfl⟩ := ha; exact ⟨h.1, by simp⟩
  · obtain ⟨rfl, -, rfl⟩ := ha; exact ⟨h.1, fun _ => h.2.1⟩
  · obtain ⟨rfl, -, rfl⟩ := ha; exact ⟨h.1, fun _ => h.2.1⟩

/-- An object that was made by the program and is object `i` or nested in it. -/
def MadePart (S : List Shape) (i j : Nat) : Prop := PartOf S i j ∧ ShapeIs S Shape.made j

theorem only_store {P : Nat → Prop} {i : Nat} (h : P i) (r : Res Bytes) : Only P P (storeProg i r) := by
  rcases r with w | - | -
  · exact ⟨h, h, h, h, trivial⟩
  · trivial
  · trivial

theorem only_buf (S : List Shape) (W : Nat → Prop) (i : Nat) : Only (MadePart S i) W (bufProg S i) := by
  unfold bufProg checkedBuf
  cases e : S[i]? with
  | none => trivial
  | some n =>
    cases n with
    | key _ | prim _ | array _ | list _ | record =>
      have h : MadePart S i i := ⟨.refl, _, e, rfl⟩
      refine ⟨h, fun b => ?_⟩
      cases b
      · trivial
      · exact ⟨h, fun _ => trivial⟩
    | _ => trivial

theorem only_flag (S : List Shape) (W : Nat → Prop) (i : Nat) : Only (MadePart S i) W (flagProg S i) := by
  unfold flagProg
  cases e : S[i]? with
  | none => trivial
  | some n =>
    cases n with
    | key _ | prim _ | array _ | list _ | record => exact ⟨⟨.refl, _, e, rfl⟩, fun b => trivial⟩
    | _ => trivial

theorem only_elems {S : List Shape} {P : Nat → Prop} {enc : Nat → Prog (Option (Res Unit))} :
    ∀ (l : List Nat), (∀ j ∈ l, Only P P (enc j)) → (∀ j ∈ l, ∀ x, MadePart S j x → P x) → Only P P (elemsProg S enc l)
  | [], _, _ => trivial
  | i :: l, h, h' => by
    rw [elemsProg]
    exact only_seq (h i (List.mem_cons_self ..)) fun _ =>
      only_seq (only_mono (h' i (List.mem_cons_self ..)) (fun _ h => h) (only_buf S P i)) fun _ =>
        only_seq (only_elems l (fun j hj => h j (List.mem_cons_of_mem _ hj)) (fun j hj => h' j (List.mem_cons_of_mem _ hj))) fun _ => trivial

theorem only_part {S : List Shape} {P : Nat → Prop} {enc : Nat → Prog (Option (Res Unit))} (o : Option Nat)
    (h : ∀ j ∈ o, Only P P (enc j)) (h' : ∀ j ∈ o, ∀ x, MadePart S j x → P x) : Only P P (partProg S enc o) := by
  unfold partProg
  split
  · trivial
  · rename_i i
    split
    · trivial
    · split
      · trivial
      · exact only_seq (h i rfl) fun _ => only_seq (only_mono (h' i rfl) (fun _ h => h) (only_buf S P i)) fun _ => trivial

theorem only_encode (S : List Shape) : ∀ (f i : Nat), Only (MadePart S i) (MadePart S i) (encodeProg S f i)
  | 0, _ => trivial
  | f + 1, i => by
    have ih := only_encode S f
    rw [encodeProg]
    cases e : S[i]? with
    | none => trivial
    | some n =>
      have sub : ∀ j ∈ Shape.refs n, ∀ x, MadePart S j x → MadePart S i x := fun j hj x hx => ⟨.head ⟨n, e, hj⟩ hx.1, hx.2⟩
      have enc : ∀ j ∈ Shape.refs n, Only (MadePart S i) (MadePart S i) (encodeProg S f j) := fun j hj =>
        only_mono (sub j hj) (sub j hj) (ih j)
      cases n with
      | key _ => exact only_store ⟨.refl, _, e, rfl⟩ _
      | prim _ => exact only_store ⟨.refl, _, e, rfl⟩ _
      | array elems =>
        simp only
        split
        · exact only_seq (only_elems elems enc sub) fun _ => only_store ⟨.refl, _, e, rfl⟩ _
        · trivial
        · trivial
      | list elems =>
        simp only
        split
        · exact only_seq (only_elems elems enc sub) fun _ => only_store ⟨.refl, _, e, rfl⟩ _
        · trivial
        · trivial
      | record k v s t sr ss =>
        have mk : ∀ j ∈ k, j ∈ Shape.refs (.record k v s t sr ss) := fun j hj => by cases hj; simp [Shape.refs]
        have mv : ∀ j ∈ v, j ∈ Shape.refs (.record k v s t sr ss) := fun j hj => by cases hj; simp [Shape.refs]
        have ms : ∀ j ∈ s, j ∈ Shape.refs (.record k v s t sr ss) := fun j hj => by cases hj; simp [Shape.refs]
        exact only_seq (only_part k (fun j hj => enc j (mk j hj)) (fun j hj => sub j (mk j hj))) fun _ =>
          only_seq (only_part v (fun j hj => enc j (mv j hj)) (fun j hj => sub j (mv j hj))) fun _ =>
            only_seq (only_part s (fun j hj => enc j (ms j hj)) (fun j hj => sub j (ms j hj))) fun _ => only_store ⟨.refl, _, e, rfl⟩ _
      | _ => trivial

/-- What a call may access, and what it may write. -/
def TaskOnly (S : List Shape) (t : EncTask) : Prop :=
  Only (MadePart S t.id) (fun j => MadePart S t.id j ∧ ∃ d, t.call = .encode d) t.prog

theorem only_call (S : List Shape) (id : Nat) (c : EncCall) : TaskOnly S ⟨id, c, c.prog S id⟩ := by
  cases c with
  | encode d => exact only_seq (only_mono (fun _ h => h) (fun _ h => ⟨h, d, rfl⟩) (only_encode S d id)) fun _ => trivial
  | buf => exact only_seq (only_buf S _ id) fun _ => trivial
  | isEncoded => exact only_seq (only_flag S _ id) fun _ => trivial

theorem run_only {S : List Shape} : ∀ (l : List EncEvent) {w : EncWorld}, (∀ t ∈ w.tasks, TaskOnly S t) →
    ∀ t ∈ (encInterleave S w l).tasks, TaskOnly S t
  | [], _, h => h
  | e :: l, w, h => by
    refine run_only (w := e.run S w) l fun t ht => ?_
    cases e with
    | start id c =>
      simp only [EncEvent.run, List.mem_append, List.mem_singleton] at ht
      rcases ht with ht | rfl
      · exact h t ht
      · exact only_call S id c
    | step k =>
      simp only [EncEvent.run] at ht
      cases hk : w.tasks[k]? with
      | none => rw [hk] at ht; exact h t ht
      | some u =>
        rw [hk] at ht
        rcases List.mem_or_eq_of_mem_set ht with ht | rfl
        · exact h t ht
        · exact only_step (h u (List.mem_of_getElem? hk)) w.cells

/-- C205, data races: if there is one, then two calls that have not ended, one of them of `Encode`, are for objects with a part in common,
which is not one mapped to a buffer. -/
theorem C205_race_partial (S : List Shape) (M : Cells) (l : List EncEvent) (h : EncRacing (encInterleave S ⟨M, []⟩ l)) :
    ∃ (j k : Nat) (t u : EncTask) (d x : Nat) (n : Shape), j ≠ k ∧ (encInterleave S ⟨M, []⟩ l).tasks[j]? = some t ∧
      (encInterleave S ⟨M, []⟩ l).tasks[k]? = some u ∧ (∀ r, t.prog ≠ .ret r) ∧ (∀ r, u.prog ≠ .ret r) ∧ t.call = .encode d ∧
      PartOf S t.id x ∧ PartOf S u.id x ∧ S[x]? = some n ∧ Shape.made n = true := by
  have ho := run_only (S := S) l (w := ⟨M, []⟩) (fun t ht => by simp at ht)
  obtain ⟨j, k, t, u, x, f, b, h1, h2, h3, h4, h5⟩ := h
  have g1 := only_access (ho t (List.mem_of_getElem? h2)) h4
  have g2 := only_access (ho u (List.mem_of_getElem? h3)) h5
  obtain ⟨-, d, hd⟩ := g1.2 rfl
  obtain ⟨n, e1, e2⟩ := g1.1.2
  exact ⟨j, k, t, u, d, x, n, h1, h2, h3, fun r hr => by rw [hr] at h4; simp [Prog.nextAccess] at h4,
    fun r hr => by rw [hr] at h5; simp [Prog.nextAccess] at h5, hd, g1.1.1, g2.1.1, e1, e2⟩

theorem replicate_step (S : List Shape) (w : EncWorld) (n k : Nat) :
    encInterleave S w (List.replicate (n + 1) (.step k)) = encInterleave S (EncEvent.run S w (.step k)) (List.replicate n (.step k)) := rfl

theorem step_other (S : List Shape) (w : EncWorld) {j k : Nat} (h : j ≠ k) : (EncEvent.run S w (.step k)).tasks[j]? = w.tasks[j]? := by
  simp only [EncEvent.run]
  split
  · simp only; rw [List.getElem?_set_ne (Ne.symm h)]
  · rfl

/-- A call that sets `encoded` comes to the point at which it is about to do so. -/
theorem flips {S : List Shape} {k id : Nat} : ∀ (n : Nat) (w : EncWorld), (w.cells.at id).encoded = false →
    ((encInterleave S w (List.replicate n (.step k))).cells.at id).encoded = true →
    ∃ m t, ((encInterleave S w (List.replicate m (.step k))).cells.at id).encoded = false ∧
      (encInterleave S w (List.replicate m (.step k))).tasks[k]? = some t ∧ Prog.nextAccess t.prog = some (id, true, true) ∧
      ∀ j, j ≠ k → (encInterleave S w (List.replicate m (.step k))).tasks[j]? = w.tasks[j]?
  | 0, w, h0, h1 => by
    have : (w.cells.at id).encoded = true := h1
    rw [h0] at this; simp at this
  | n + 1, w, h0, h1 => by
    rw [replicate_step] at h1
    by_cases hf : ((EncEvent.run S w (.step k)).cells.at id).encoded = true
    · cases hk : w.tasks[k]? with
      | none => simp only [EncEvent.run, hk] at hf; rw [h0] at hf; simp at hf
      | some t =>
        refine ⟨0, t, h0, hk, ?_, fun j _ => rfl⟩
        simp only [EncEvent.run, hk] at hf
        cases hp : t.prog with
        | ret a => rw [hp] at hf; simp only [Prog.step] at hf; rw [h0] at hf; simp at hf
        | readFlag i q => rw [hp] at hf; simp only [Prog.step] at hf; rw [h0] at hf; simp at hf
        | readBuf i q => rw [hp] at hf; simp only [Prog.step] at hf; rw [h0] at hf; simp at hf
        | writeBuf i b q =>
          rw [hp] at hf
          simp only [Prog.step, at_set] at hf
          split at hf
          · rename_i e; rw [e.1, h0] at hf; simp at hf
          · rw [h0] at hf; simp at hf
        | writeFlag i q =>
          rw [hp] at hf
          simp only [Prog.step, at_set] at hf
          split at hf
          · rename_i e; rw [e.1]; rfl
          · rw [h0] at hf; simp at hf
    · rw [Bool.not_eq_true] at hf
      obtain ⟨m, t, g1, g2, g3, g4⟩ := flips n _ hf h1
      exact ⟨m + 1, t, g1, g2, g3, fun j hj => by rw [replicate_step, g4 j hj, step_other S w hj]⟩

/-- C205, data races: two calls of `Encode` on an object that is not encoded yet can always get into one, provided that they succeed. -/
theorem C205_race_same_partial (S : List Shape) (hS : WellTyped S) (M : Cells) (hl : M.length = S.length) (id : Nat) (n : Shape)
    (hn : S[id]? = some n) (hm : Shape.made n = true) (he : (M.at id).encoded = false) (c : Thing) (hc : Holds S id c) (b : Bytes)
    (hb : thingEncode c = .ok b) : ∃ d, ∀ depth ≥ d, ∃ order : List Nat,
      EncRacing (encInterleave S ⟨M, []⟩ ([.start id (.encode depth), .start id (.encode depth)] ++ order.map .step)) := by
  obtain ⟨d, hd⟩ := hc
  refine ⟨d, fun depth hle => ?_⟩
  have hd' := unfoldThing_le hle hd
  have begun := run_safe hS [.start id (.encode depth), .start id (.encode depth)] (begin_safe hl)
  -- a call alone succeeds, and sets `encoded`
  have alone : ∀ (w : EncWorld) (k : Nat), EncWorldSafe S w → w.tasks[k]? = some ⟨id, .encode depth, (EncCall.encode depth).prog S id⟩ →
      ∃ m, ((encInterleave S w (List.replicate m (.step k))).cells.at id).encoded = true := by
    intro w k hw hk
    obtain ⟨m, hbd⟩ := bounded_call S id (.encode depth)
    obtain ⟨p, e1, e2⟩ := run_bounded (S := S) (List.replicate m (.step k)) hk hbd
    have hs : encSteps k (List.replicate m (.step k)) = m := by simp [encSteps, List.countP_replicate]
    rw [hs, Nat.sub_self] at e2
    have hw' := (run_safe hS (List.replicate m (.step k)) hw).1
    have hp := hw'.2 _ (List.mem_of_getElem? e1)
    refine ⟨m, ?_⟩
    cases p with
    | ret r =>
      have hp := hp _ (ELater.refl S _)
      have hr := hp.1 c hd'
      rw [hb] at hr
      obtain ⟨w', -, h2⟩ := hp.2 hr
      unfold bufNow at h2
      simp only at hn h2
      rw [hn] at h2
      cases n <;> simp [Shape.made] at hm <;> (simp only at h2; split at h2; assumption; simp at h2)
    | _ => exact e2.elim
  have h0 : (encInterleave S ⟨M, []⟩ [.start id (.encode depth), .start id (.encode depth)]).tasks =
      [⟨id, .encode depth, (EncCall.encode depth).prog S id⟩, ⟨id, .encode depth, (EncCall.encode depth).prog S id⟩] := rfl
  have hc0 : (encInterleave S ⟨M, []⟩ [.start id (.encode depth), .start id (.encode depth)]).cells = M := rfl
  generalize hw : encInterleave S ⟨M, []⟩ [.start id (.encode depth), .start id (.encode depth)] = w at begun h0 hc0
  obtain ⟨m1, r1⟩ := alone w 0 begun.1 (by rw [h0]; rfl)
  obtain ⟨k1, t1, a1, a2, a3, a4⟩ := flips m1 w (by rw [hc0]; exact he) r1
  have begun1 := (run_safe hS (List.replicate k1 (.step 0)) begun.1).1
  obtain ⟨m2, r2⟩ := alone _ 1 begun1 (by rw [a4 1 (by omega), h0]; rfl)
  obtain ⟨k2, t2, b1, b2, b3, b4⟩ := flips m2 _ a1 r2
  refine ⟨List.replicate k1 0 ++ List.replicate k2 1, 0, 1, t1, t2, id, true, true, by omega, ?_, ?_, a3, b3⟩
  · rw [encInterleave_append, hw, List.map_append, List.map_replicate, List.map_replicate, encInterleave_append, b4 0 (by omega), a2]
  · rw [encInterleave_append, hw, List.map_append, List.map_replicate, List.map_replicate, encInterleave_append, b2]

/-! ### The claim as stated, and examples -/

/-- Two records that share a key and a value, and a list of both. -/
def sharedShapes : List Shape :=
  [.key [some [1, 2]], .prim (some [7]), .record (some 0) (some 1) none none none none, .record (some 0) (some 1) none (some 5) none none,
    .list [2, 3]]

/-- None of them is encoded. -/
def freshCells : Cells := List.replicate 5 ⟨false, []⟩

theorem sharedShapes_typed : WellTyped sharedShapes := by
  have h0 : ShapeIs sharedShapes Shape.isKey 0 := ⟨_, rfl, rfl⟩
  have h1 : ShapeIs sharedShapes Shape.isVal 1 := ⟨_, rfl, rfl⟩
  have h2 : ShapeIs sharedShapes Shape.isRecord 2 := ⟨_, rfl, rfl⟩
  have h3 : ShapeIs sharedShapes Shape.isRecord 3 := ⟨_, rfl, rfl⟩
  intro n hn
  simp only [sharedShapes, List.mem_cons, List.not_mem_nil, or_false] at hn
  rcases hn with rfl | rfl | rfl | rfl | rfl
  · trivial
  · trivial
  · exact ⟨fun j hj => by cases hj; exact h0, fun j hj => by cases hj; exact h1, fun j hj => by cases hj⟩
  · exact ⟨fun j hj => by cases hj; exact h0, fun j hj => by cases hj; exact h1, fun j hj => by cases hj⟩
  · intro j hj
    simp only [List.mem_cons, List.not_mem_nil, or_false] at hj
    rcases hj with rfl | rfl
    · exact h2
    · exact h3

/-- The bytes of the first record. -/
def firstBytes : Bytes := [0x60, 1, 2, 1, 2, 0x01, 1, 7]

theorem shared_holds : ∃ c, Holds sharedShapes 2 c ∧ thingEncode c = .ok firstBytes :=
  ⟨.inr (.inr (.record (some (.key ⟨false, [some [1, 2]], none, 0⟩)) (some (.prim (some [7]))) none none none none)), ⟨2, rfl⟩, by decide +kernel⟩

/-- Not only the records, but also a list of them and a key can be encoded by goroutines at the same time. -/
example : (∃ c, Holds sharedShapes 4 c ∧ ∃ w, thingEncode c = .ok w) ∧ ∃ c, Holds sharedShapes 0 c ∧ thingEncode c = .ok [1, 2, 1, 2] := by
  refine ⟨⟨_, ⟨3, rfl⟩, ?_⟩, ⟨_, ⟨1, rfl⟩, by decide +kernel⟩⟩
  refine ⟨[0x11, 0x02, 0x18] ++ firstBytes ++ ([0x64, 1, 2, 1, 2, 0x01, 1, 7] ++ timeToBytes 5), by decide +kernel⟩

/-- Calls for the two records, one step each in turn. -/
def encodeBoth : List EncEvent := [.start 2 (.encode 2), .start 3 (.encode 2)] ++ (List.range 40).map fun n => .step (n % 2)

set_option maxRecDepth 20000 in
/-- Both succeed. -/
theorem both_encoded : CallEnded (encInterleave sharedShapes ⟨freshCells, []⟩ encodeBoth) 0 2 (.encode 2) (some (.ok .done)) ∧
    CallEnded (encInterleave sharedShapes ⟨freshCells, []⟩ encodeBoth) 1 3 (.encode 2) (some (.ok .done)) := by
  unfold CallEnded; exact ⟨rfl, rfl⟩

set_option maxRecDepth 20000 in
/-- `Buf` and `IsEncoded` of the key while the records are being encoded, and after that. -/
theorem key_meanwhile : CallEnded (encInterleave sharedShapes ⟨freshCells, []⟩ (encodeBoth ++ .start 0 .buf :: [.step 2, .step 2]))
      (encInterleave sharedShapes ⟨freshCells, []⟩ encodeBoth).tasks.length 0 .buf (some (.ok (.bytes [1, 2, 1, 2]))) ∧
    CallEnded (encInterleave sharedShapes ⟨freshCells, []⟩ (encodeBoth.take 2 ++ .start 0 .buf :: [.step 0, .step 2]))
      (encInterleave sharedShapes ⟨freshCells, []⟩ (encodeBoth.take 2)).tasks.length 0 .buf (some .panic) ∧
    CallEnded (encInterleave sharedShapes ⟨freshCells, []⟩ (encodeBoth.take 2 ++ .start 0 .isEncoded :: [.step 0, .step 0, .step 2]))
      (encInterleave sharedShapes ⟨freshCells, []⟩ (encodeBoth.take 2)).tasks.length 0 .isEncoded (some (.ok (.flag true))) := by
  unfold CallEnded; exact ⟨rfl, rfl, rfl⟩

/-- The claim as stated: no data race, whatever is encoded at the same time. -/
def EncodersIndependent : Prop :=
  ∀ (S : List Shape), WellTyped S → ∀ M : Cells, M.length = S.length → ∀ l, ¬ EncRacing (encInterleave S ⟨M, []⟩ l)

/-- C205 as stated does not hold: there are data races. -/
theorem C205_refuted : ¬ EncodersIndependent := by
  intro h
  obtain ⟨c, hc, hb⟩ := shared_holds
  obtain ⟨d, hd⟩ := C205_race_same_partial sharedShapes sharedShapes_typed freshCells rfl 2 _ rfl rfl rfl c hc _ hb
  obtain ⟨order, hr⟩ := hd d (Nat.le_refl d)
  exact h _ sharedShapes_typed freshCells rfl _ hr

example := C205_ends sharedShapes 4 (.encode 3)

example := shared_holds.imp fun c h => C205_encode_partial sharedShapes sharedShapes_typed freshCells rfl 2 c h.1

example := C205_stays_partial sharedShapes sharedShapes_typed freshCells rfl encodeBoth 0 2 2 both_encoded.1

example := C205_buf_partial sharedShapes sharedShapes_typed freshCells rfl encodeBoth [.step 2, .step 2] 0 _ key_meanwhile.1

example := C205_isEncoded_partial sharedShapes sharedShapes_typed freshCells rfl (encodeBoth.take 2) [.step 0, .step 0, .step 2] 0 _ key_meanwhile.2.2

/-- Two goroutines that encode the same record get into a race. -/
theorem shared_races : ∃ l, EncRacing (encInterleave sharedShapes ⟨freshCells, []⟩ l) := by
  obtain ⟨c, hc, hb⟩ := shared_holds
  obtain ⟨d, hd⟩ := C205_race_same_partial sharedShapes sharedShapes_typed freshCells rfl 2 _ rfl rfl rfl c hc _ hb
  obtain ⟨order, hr⟩ := hd d (Nat.le_refl d)
  exact ⟨_, hr⟩

example := shared_races.imp fun l h => C205_race_partial sharedShapes freshCells l h

end Poodle.Props
