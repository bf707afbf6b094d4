import Verif.Spec.HashObj
import Verif.Props.Hashable
import Verif.Props.HashPanic

/-
Properties C188, C189: hashable objects (/repo/src/collection/hashable.go); and the exact form of C131 for keys that cannot be hashed.
-/

namespace Poodle.Props
open Poodle Poodle.Spec HashTab

/-! ### C131: keys that cannot be hashed -/

section
variable {K V : Type} {ops : HashOps K} {pol : ResizePolicy}

/-- `Equal` does not panic, and the hash of a key panics always or never. -/
def BadKeys (bad : K → Bool) (t : Trap K) : Prop := FixedHash bad t ∧ ∀ n a b, t n (.equal a b) = false

theorem chainFindT_some {t : Trap K} (ht : ∀ n a b, t n (.equal a b) = false) (k : K) (c : List (K × V)) (n : Nat) : chainFindT t ops k c n ≠ none := by
  induction c generalizing n with
  | nil => simp [chainFindT]
  | cons e es ih =>
    simp only [chainFindT, keyCall, ht, Bool.false_eq_true, if_false]
    split
    · simp
    · rcases h : chainFindT t ops k es (n + 1) with - | ⟨r, n'⟩
      · exact absurd h (ih _)
      · simp

theorem putT_works (hl : LawfulHash ops) {t : Trap K} {bad : K → Bool} (ht : BadKeys bad t) (h : HashTab K V) (hg : GoodTab ops h) (k : K) (v : V)
    (hk : bad k = false) {n : Nat} (hn : h.size + 1 ≤ n) (hpol : Modest pol n) : h.putT t ops pol k v ≠ (h, none) := by
  intro hc
  obtain ⟨h1, p1, -⟩ := putNode_hash_spec hl pol h hg k v (fun m len c h0 hm hlen hc => hpol m len c h0 (by omega) hlen (.inl hc))
  simp only [putNode] at p1
  simp only [putT, putNodeT, keyCall, ht.1 0 k, hk, Bool.false_eq_true, if_false] at hc
  rcases e1 : index ops h.array.length k with - | i
  · simp [e1] at p1
  · simp only [e1] at p1 hc
    rcases e2 : h.array[i]? with - | c
    · simp [e2] at p1
    · simp only [e2] at hc
      rcases e3 : chainFindT t ops k c (0 + 1) with - | ⟨r, n'⟩
      · exact chainFindT_some ht.2 k c _ e3
      · simp only [e3] at hc
        rcases r with - | ⟨a, old, b⟩
        · simp only at hc
          rcases e4 : resizeIfT t ops ⟨h.array.set i ((k, v) :: c), h.size + 1⟩ (pol.grow (h.size + 1) (h.array.set i ((k, v) :: c)).length) n' with - | h'
          · simp only [e4, Prod.mk.injEq] at hc
            have := congrArg HashTab.size hc.1
            simp at this
          · simp only [e4, Option.map_some, Prod.mk.injEq, reduceCtorEq, and_false] at hc
        · simp at hc

theorem removeT_works (hl : LawfulHash ops) {t : Trap K} {bad : K → Bool} (ht : BadKeys bad t) (h : HashTab K V) (hg : GoodTab ops h) (k : K)
    (hk : bad k = false) {n : Nat} (hn : h.size + 1 ≤ n) (hpol : Modest pol n) : h.removeT t ops pol k ≠ (h, none) := by
  intro hc
  obtain ⟨h1, p1, -⟩ := removeNode_hash_spec hl pol h hg k (fun m len c h0 hm hlen hc => hpol m len c h0 (by omega) hlen (.inr hc))
  simp only [removeNode] at p1
  simp only [removeT, removeNodeT, keyCall, ht.1 0 k, hk, Bool.false_eq_true, if_false] at hc
  rcases e1 : index ops h.array.length k with - | i
  · simp [e1] at p1
  · simp only [e1] at p1 hc
    rcases e2 : h.array[i]? with - | c
    · simp [e2] at p1
    · simp only [e2] at hc
      rcases e3 : chainFindT t ops k c (0 + 1) with - | ⟨r, n'⟩
      · exact chainFindT_some ht.2 k c _ e3
      · simp only [e3] at hc
        rcases r with - | ⟨a, old, b⟩
        · simp at hc
        · simp only at hc
          rcases e4 : resizeIfT t ops ⟨h.array.set i (a ++ b), h.size - 1⟩ (pol.shrink (h.size - 1) (h.array.set i (a ++ b)).length) n' with - | h'
          · simp only [e4, Prod.mk.injEq] at hc
            have := congrArg HashTab.size hc.1
            simp at this
          · simp only [e4, Option.map_some, Prod.mk.injEq, reduceCtorEq, and_false] at hc

/-- C131, exactly, if only hashing panics, and for the same keys always: calls with such keys panic and have no effect; all others return and
take effect. -/
theorem C131_bad_keys (hl : LawfulHash ops) (cap : Int) (hc : cap < 2 ^ 32) (bad : K → Bool) (os : List (Trap K × MapOp K V))
    (hbad : ∀ o ∈ os, BadKeys bad o.1) (hpol : Modest pol os.length) :
    (runHashT ops pol (HashTab.new cap) os).2 = (runBad ops.equal bad (fun _ => none) (os.map Prod.snd)).2 ∧
    (∀ k, (runHashT ops pol (HashTab.new cap) os).1.get ops k = some ((runBad ops.equal bad (fun _ => none) (os.map Prod.snd)).1 k)) ∧
    ∀ t k, BadKeys bad t → (runHashT ops pol (HashTab.new cap) os).1.getT t ops k =
      if bad k then none else some ((runBad ops.equal bad (fun _ => none) (os.map Prod.snd)).1 k) := by
  have H : ∀ (os : List (Trap K × MapOp K V)) (h : HashTab K V), GoodTab ops h → (∀ e ∈ h.all, bad e.1 = false) →
      (∀ o ∈ os, BadKeys bad o.1) → ∀ n : Nat, h.size + os.length ≤ n → Modest pol n →
      (runHashT ops pol h os).2 = (runBad ops.equal bad (valE ops h.all) (os.map Prod.snd)).2 ∧
      valE ops (runHashT ops pol h os).1.all = (runBad ops.equal bad (valE ops h.all) (os.map Prod.snd)).1 := by
    clear hbad hpol
    intro os
    induction os with
    | nil => intro h _ _ _ n _ _; exact ⟨rfl, rfl⟩
    | cons o os ih =>
      intro h hg hb hbad n hn hpol
      rw [List.length_cons] at hn
      obtain ⟨t, o⟩ := o
      have ht : BadKeys bad t := hbad (t, o) (by simp)
      have hbad' : ∀ o ∈ os, BadKeys bad o.1 := fun o ho => hbad o (by simp [ho])
      cases o with
      | put k v =>
        simp only [runHashT, List.map_cons]
        by_cases hk : bad k = true
        · have er : runBad ops.equal bad (valE ops h.all) (.put k v :: os.map Prod.snd) = ((runBad ops.equal bad (valE ops h.all) (os.map Prod.snd)).1,
              none :: (runBad ops.equal bad (valE ops h.all) (os.map Prod.snd)).2) := by
            rw [runBad]; exact if_pos hk
          have e : h.putT t ops pol k v = (h, none) := by simp [putT, putNodeT, keyCall, ht.1 0 k, hk]
          rw [e, er]
          obtain ⟨i1, i2⟩ := ih h hg hb hbad' n (by omega) hpol
          exact ⟨by rw [i1], i2⟩
        · have hk' : bad k = false := by simpa using hk
          have er : runBad ops.equal bad (valE ops h.all) (.put k v :: os.map Prod.snd) =
              ((runBad ops.equal bad (applyE ops.equal (valE ops h.all) (.put k v)) (os.map Prod.snd)).1,
                some (valE ops h.all k) :: (runBad ops.equal bad (applyE ops.equal (valE ops h.all) (.put k v)) (os.map Prod.snd)).2) := by
            rw [runBad]; exact if_neg hk
          obtain ⟨g, s, r⟩ := putT_step hl t h hg k v (n := n) (by omega) hpol
          obtain ⟨b1, b2⟩ := keys_put hl ht.1 h hg hb k v (n := n) (by omega) hpol
          rw [er]
          rcases b2 with b2 | b2
          · exact absurd b2 (putT_works hl ht h hg k v hk' (n := n) (by omega) hpol)
          · obtain ⟨i1, i2⟩ := ih _ g b1 hbad' n (by omega) hpol
            rcases r with r | ⟨r1, -⟩
            · rw [r] at b2; simp at b2
            · rw [b2, i1, i2, r1]
              exact ⟨rfl, rfl⟩
      | remove k =>
        simp only [runHashT, List.map_cons]
        by_cases hk : bad k = true
        · have er : runBad ops.equal bad (valE ops h.all) (.remove k :: os.map Prod.snd) = ((runBad ops.equal bad (valE ops h.all) (os.map Prod.snd)).1,
              none :: (runBad ops.equal bad (valE ops h.all) (os.map Prod.snd)).2) := by
            rw [runBad]; exact if_pos hk
          have e : h.removeT t ops pol k = (h, none) := by simp [removeT, removeNodeT, keyCall, ht.1 0 k, hk]
          rw [e, er]
          obtain ⟨i1, i2⟩ := ih h hg hb hbad' n (by omega) hpol
          exact ⟨by rw [i1], i2⟩
        · have hk' : bad k = false := by simpa using hk
          have er : runBad ops.equal bad (valE ops h.all) (.remove k :: os.map Prod.snd) =
              ((runBad ops.equal bad (applyE ops.equal (valE ops h.all) (.remove k)) (os.map Prod.snd)).1,
                some (valE ops h.all k) :: (runBad ops.equal bad (applyE ops.equal (valE ops h.all) (.remove k)) (os.map Prod.snd)).2) := by
            rw [runBad]; exact if_neg hk
          obtain ⟨g, s, r⟩ := removeT_step hl t h hg k (n := n) (by omega) hpol
          obtain ⟨b1, b2⟩ := keys_remove hl ht.1 h hg hb k (n := n) (by omega) hpol
          rw [er]
          rcases b2 with b2 | b2
          · exact absurd b2 (removeT_works hl ht h hg k hk' (n := n) (by omega) hpol)
          · obtain ⟨i1, i2⟩ := ih _ g b1 hbad' n (by omega) hpol
            rcases r with r | ⟨r1, -⟩
            · rw [r] at b2; simp at b2
            · rw [b2, i1, i2, r1]
              exact ⟨rfl, rfl⟩
  obtain ⟨i1, i2⟩ := H os (HashTab.new cap) (new_hash_good cap hc) (by rw [all_new]; simp) hbad os.length (by simp [HashTab.new]) hpol
  have e0 : valE ops (HashTab.new cap : HashTab K V).all = fun _ => none := by rw [all_new]; rfl
  rw [e0] at i1 i2
  obtain ⟨g, -⟩ := runHashT_spec hl os (HashTab.new cap) (new_hash_good cap hc) os.length (by simp [HashTab.new]) hpol
  have hget : ∀ k, (runHashT ops pol (HashTab.new cap) os).1.get ops k = some ((runBad ops.equal bad (fun _ => none) (os.map Prod.snd)).1 k) := by
    intro k
    rw [← i2, HashTab.get, getNode_spec hl _ g]; rfl
  refine ⟨i1, hget, ?_⟩
  intro t k ht
  by_cases hk : bad k = true
  · rw [if_pos hk]
    simp [getT, getNodeT, keyCall, ht.1 0 k, hk]
  · rw [if_neg hk, ← hget k]
    have hk' : bad k = false := by simpa using hk
    unfold getT HashTab.get
    congr 1
    simp only [getNodeT, getNode, keyCall, ht.1 0 k, hk', Bool.false_eq_true, if_false]
    rcases e1 : index ops (runHashT ops pol (HashTab.new cap) os).1.array.length k with - | i
    · rfl
    · simp only
      rcases e2 : (runHashT ops pol (HashTab.new cap) os).1.array[i]? with - | c
      · rfl
      · simp only
        have hne : ∀ (c : List (K × V)) n, chainGetT t ops k c n ≠ none := by
          intro c
          induction c with
          | nil => intro n; simp [chainGetT]
          | cons e es ih =>
            intro n
            simp only [chainGetT, keyCall, ht.2, Bool.false_eq_true, if_false]
            split
            · simp
            · exact ih _
        rcases chainGetT_or (t := t) (ops := ops) k c (0 + 1) with e3 | ⟨n', e3⟩
        · exact absurd e3 (hne _ _)
        · rw [e3]; rfl

end

/-- The hash of 5 panics, nothing else. -/
def fiveBad : Trap Nat := fun _ c => match c with
  | .hash k => k == 5
  | .equal _ _ => false

example : BadKeys (· == 5) fiveBad := ⟨fun _ _ => rfl, fun _ _ _ => rfl⟩

example : (runHashT natHash defaultPolicy (HashTab.new 10) [(fiveBad, .put 3 30), (fiveBad, .put 5 50), (fiveBad, .remove 5),
    (fiveBad, .put 3 31), (fiveBad, .remove 3)]).2 = [some none, none, none, some (some 30), some (some 31)] := by decide +kernel

/-! ### C188 -/

/-- C188: `Equal` of hashable objects returns, and is an equivalence. -/
def EqualIsEquivalence : Prop := ∀ a b c : HashObj, a.isAbsent = false → b.isAbsent = false → c.isAbsent = false →
  (∃ v, a.equal b = .ok v) ∧ a.equal a = .ok true ∧ (a.equal b = .ok true → b.equal a = .ok true) ∧
    (a.equal b = .ok true → b.equal c = .ok true → a.equal c = .ok true)

/-- C188 does not hold: a nil pointer is not equal to itself. -/
theorem C188_refuted : ¬ EqualIsEquivalence := by
  intro h
  obtain ⟨-, h, -⟩ := h .nilObjs .nilObjs .nilObjs rfl rfl rfl
  simp [HashObj.equal, HashObj.isAbsent] at h

theorem sounds_cons {o : HashObj} {l : List HashObj} : sounds (o :: l) ↔ (o.isAbsent = true ∨ sound o) ∧ sounds l := by
  cases o <;> simp [sounds, sound, HashObj.isAbsent]

theorem sound_present {o : HashObj} (h : sound o) : o.isAbsent = false := by cases o <;> simp_all [sound, HashObj.isAbsent]

theorem content_absent (o : HashObj) : (content o).isAbsent = o.isAbsent := by cases o <;> simp [content, HashObj.isAbsent]

theorem elemContents_length : ∀ l : List HashObj, (elemContents l).length = l.length
  | [] => rfl
  | _ :: l => by simp [elemContents, elemContents_length l]

theorem isAbsent_eq {o : HashObj} (h : o.isAbsent = true) : o = .absent := by cases o <;> simp_all [HashObj.isAbsent]

mutual
theorem equal_sound : ∀ a b : HashObj, sound a → sound b → ∃ v, a.equal b = .ok v ∧ (v = true ↔ content a = content b)
  | .ints k s, b, _, hb => by
    cases b with
    | ints k' t =>
      by_cases hk : k = k'
      · subst hk
        refine ⟨hashableIntSliceEqual s t, by simp only [HashObj.equal, if_true], ?_⟩
        rw [hashableIntSliceEqual_iff]
        simp [content]
      · exact ⟨false, by simp only [HashObj.equal, if_neg hk], by simp [content, hk]⟩
    | absent => simp [sound] at hb
    | nilInts k' => simp [sound] at hb
    | nilObjs => simp [sound] at hb
    | objsNil => exact ⟨false, by simp [HashObj.equal], by simp [content]⟩
    | objs m => exact ⟨false, by simp [HashObj.equal], by simp [content]⟩
  | .objsNil, b, _, hb => by
    cases b with
    | ints k' t => exact ⟨false, by simp [HashObj.equal], by simp [content]⟩
    | absent => simp [sound] at hb
    | nilInts k' => simp [sound] at hb
    | nilObjs => simp [sound] at hb
    | objsNil => exact ⟨true, by simp [HashObj.equal], by simp⟩
    | objs m =>
      refine ⟨m.length == 0, by simp [HashObj.equal], ?_⟩
      cases m <;> simp [content, elemContents]
  | .objs l, b, ha, hb => by
    cases b with
    | ints k' t => exact ⟨false, by simp [HashObj.equal], by simp [content]⟩
    | absent => simp [sound] at hb
    | nilInts k' => simp [sound] at hb
    | nilObjs => simp [sound] at hb
    | objsNil =>
      refine ⟨l.length == 0, by simp [HashObj.equal], ?_⟩
      cases l <;> simp [content, elemContents]
    | objs m =>
      rw [sound] at ha hb
      rw [HashObj.equal]
      by_cases h : l.length = m.length
      · rw [if_neg (by simpa using h)]
        obtain ⟨v, h1, h2⟩ := equalLoop_sound l m h ha hb
        exact ⟨v, h1, by rw [h2]; simp [content]⟩
      · rw [if_pos h]
        refine ⟨false, rfl, ?_⟩
        simp only [Bool.false_eq_true, content, HashObj.objs.injEq, false_iff]
        intro e
        have := congrArg List.length e
        rw [elemContents_length, elemContents_length] at this
        exact h this
  | .absent, _, h, _ => by simp [sound] at h
  | .nilInts _, _, h, _ => by simp [sound] at h
  | .nilObjs, _, h, _ => by simp [sound] at h

theorem equalLoop_sound : ∀ l m : List HashObj, l.length = m.length → sounds l → sounds m →
    ∃ v, HashObj.equalLoop l m = .ok v ∧ (v = true ↔ elemContents l = elemContents m)
  | [], m, h, _, _ => by
    have : m = [] := List.length_eq_zero_iff.mp h.symm
    subst this
    exact ⟨true, by rw [HashObj.equalLoop], by simp⟩
  | a :: l, [], h, _, _ => by simp at h
  | a :: l, b :: m, h, hl, hm => by
    rw [sounds_cons] at hl hm
    obtain ⟨w, h3, h4⟩ := equalLoop_sound l m (by simpa using h) hl.2 hm.2
    rw [HashObj.equalLoop]
    by_cases ha : a.isAbsent = b.isAbsent
    · rw [ha]
      simp only [bne_self_eq_false, Bool.false_eq_true, if_false]
      by_cases hb : b.isAbsent = true
      · rw [if_pos hb]
        refine ⟨w, h3, ?_⟩
        rw [isAbsent_eq (ha.trans hb), isAbsent_eq hb, h4]
        simp [elemContents]
      · rw [if_neg hb]
        have hsa := hl.1.resolve_left (by rw [ha]; exact hb)
        have hsb := hm.1.resolve_left hb
        obtain ⟨v, h1, h2⟩ := equal_sound a b hsa hsb
        rw [h1]
        cases v with
        | true => exact ⟨w, h3, by rw [h4]; simp [elemContents, h2.mp rfl]⟩
        | false =>
          refine ⟨false, rfl, ?_⟩
          simp only [Bool.false_eq_true, elemContents, List.cons.injEq, false_iff, not_and]
          intro e
          exact absurd (h2.mpr e) (by simp)
    · rw [if_pos (by simpa using ha)]
      refine ⟨false, rfl, ?_⟩
      simp only [Bool.false_eq_true, elemContents, List.cons.injEq, false_iff, not_and]
      intro e
      have := congrArg HashObj.isAbsent e
      rw [content_absent, content_absent] at this
      exact absurd this ha
end

/-- C188, what holds: for objects without nil pointers in them, `Equal` returns, and says whether the types and contents are the same (where
a nil slice of objects is like an empty one, but a nil slice of integers is not); so it is an equivalence among them. -/
theorem C188_sound_partial (a b : HashObj) (ha : sound a) (hb : sound b) : ∃ v, a.equal b = .ok v ∧ (v = true ↔ content a = content b) :=
  equal_sound a b ha hb

example : sound (.objs [.absent, .ints .int16 ⟨some [1], 1⟩, .objsNil]) ∧ sound (.objs [.absent, .ints .int16 ⟨some [1], 9⟩, .objs []]) ∧
    (HashObj.objs [.absent, .ints .int16 ⟨some [1], 1⟩, .objsNil]).equal (.objs [.absent, .ints .int16 ⟨some [1], 9⟩, .objs []]) = .ok true := by
  refine ⟨by simp [sound, sounds], by simp [sound, sounds], by decide +kernel⟩

/-- C188, nil pointers, exactly: they are equal to nothing but an interface holding nothing, and handed to an object of their type they make
it panic. -/
theorem C188_nil_partial (k : HashKind) (s : IntSlice) (l : List HashObj) (t : HashObj) :
    (HashObj.nilInts k).equal t = .ok t.isAbsent ∧ HashObj.nilObjs.equal t = .ok t.isAbsent ∧
    (HashObj.ints k s).equal (.nilInts k) = .panic ∧ HashObj.objsNil.equal .nilObjs = .panic ∧ (HashObj.objs l).equal .nilObjs = .panic ∧
    (HashObj.objs [.nilObjs]).equal (.objs [.nilObjs]) = .ok false := by
  simp [HashObj.equal, HashObj.equalLoop, HashObj.isAbsent]

/-! ### C189 -/

/-- Hashable objects without nil pointers in them. -/
abbrev HashKey := { o : HashObj // sound o }

/-- The hash, where it panics the one that is meant. -/
def meantHash (f : Bytes → UInt32) : HashObj → UInt32
  | .ints k s => f ((s.elems.getD []).flatMap (leBytes (elemBytes k)))
  | .objs l => l.foldl (fun h _ => h ^^^ f []) (f [])
  | _ => f []

/-- Whether something panics. -/
def resPanics {α : Type} : Res α → Bool
  | .ok _ => false
  | _ => true

/-- What `Equal` says and what `HashUint32` is. -/
def objOps (f : Bytes → UInt32) : HashOps HashKey where
  equal a b := match a.1.equal b.1 with
    | .ok v => v
    | _ => false
  hash a := match a.1.hash f with
    | .ok h => h
    | _ => meantHash f a.1

/-- When they panic. -/
def objTrap (f : Bytes → UInt32) : Trap HashKey := fun _ c => match c with
  | .hash a => resPanics (a.1.hash f)
  | .equal a b => resPanics (a.1.equal b.1)

theorem hashLoop_exact (e : UInt32) : ∀ (l : List HashObj) (h : UInt32),
    HashObj.hashLoop e l h = if l.all HashObj.isAbsent then .ok (l.foldl (fun h _ => h ^^^ e) h) else .panic
  | [], h => rfl
  | o :: l, h => by
    rw [HashObj.hashLoop]
    by_cases ho : o.isAbsent = true
    · rw [if_pos ho, hashLoop_exact e l]
      simp [ho]
    · rw [if_neg ho]
      simp [ho]

theorem width_elemBytes (k : HashKind) : k.width = elemBytes k := by cases k <;> rfl

/-- The hash, exactly. -/
theorem hash_exact (f : Bytes → UInt32) (o : HashObj) : o.hash f = if hashes o then .ok (meantHash f o) else .panic := by
  have hint : ∀ k s, (match hashableIntSliceHash k.width f s with | none => Res.panic | some h => .ok h) =
      if (s.elems.getD []).length * elemBytes k ≤ s.cap then .ok (f ((s.elems.getD []).flatMap (leBytes (elemBytes k)))) else .panic := by
    intro k s
    rw [← width_elemBytes]
    obtain ⟨el, c⟩ := s
    cases el with
    | none => simp [hashableIntSliceHash]
    | some l =>
      simp only [hashableIntSliceHash, Option.getD_some]
      by_cases h : l.length * k.width ≤ c
      · simp only [if_pos h]
      · simp only [if_neg h]
  cases o with
  | absent => rfl
  | nilInts _ => rfl
  | nilObjs => rfl
  | objsNil => rfl
  | objs l => rw [HashObj.hash, hashLoop_exact]; rfl
  | ints k s =>
    cases k
    · rfl
    all_goals
      simp only [HashObj.hash, hashes, meantHash, decide_eq_true_eq]
      exact hint _ s

theorem meantHash_content (f : Bytes → UInt32) {a b : HashObj} (ha : sound a) (hb : sound b) (h : content a = content b) : meantHash f a = meantHash f b := by
  have hfold : ∀ (l m : List HashObj) (x : UInt32), l.length = m.length → l.foldl (fun h _ => h ^^^ f []) x = m.foldl (fun h _ => h ^^^ f []) x := by
    intro l
    induction l with
    | nil =>
      intro m x h
      rw [List.length_eq_zero_iff.mp h.symm]
    | cons o l ih =>
      intro m x h
      cases m with
      | nil => simp at h
      | cons p m => exact ih m _ (by simpa using h)
  cases a with
  | absent => simp [sound] at ha
  | nilInts _ => simp [sound] at ha
  | nilObjs => simp [sound] at ha
  | objsNil =>
    cases b with
    | objsNil => rfl
    | objs m =>
      cases m with
      | nil => rfl
      | cons o m => simp [content, elemContents] at h
    | _ => simp [content] at h
  | objs l =>
    cases b with
    | objsNil =>
      cases l with
      | nil => rfl
      | cons o m => simp [content, elemContents] at h
    | objs m =>
      simp only [content, HashObj.objs.injEq] at h
      have := congrArg List.length h
      rw [elemContents_length, elemContents_length] at this
      exact hfold l m _ this
    | _ => simp [content] at h
  | ints k s =>
    cases b with
    | ints k' t =>
      simp only [content, HashObj.ints.injEq, IntSlice.mk.injEq, and_true] at h
      rw [meantHash, meantHash, h.1, h.2]
    | _ => simp [content] at h

theorem objOps_equal (f : Bytes → UInt32) (a b : HashKey) : (objOps f).equal a b = true ↔ content a.1 = content b.1 := by
  obtain ⟨v, h1, h2⟩ := equal_sound a.1 b.1 a.2 b.2
  simp only [objOps, h1]
  exact h2

theorem objOps_hash (f : Bytes → UInt32) (a : HashKey) : (objOps f).hash a = meantHash f a.1 := by
  simp only [objOps, hash_exact]
  by_cases h : hashes a.1 = true
  · rw [if_pos h]
  · rw [if_neg h]

theorem objOps_lawful (f : Bytes → UInt32) : LawfulHash (objOps f) where
  refl a := (objOps_equal f a a).mpr rfl
  symm a b h := (objOps_equal f b a).mpr ((objOps_equal f a b).mp h).symm
  trans a b c h1 h2 := (objOps_equal f a c).mpr (((objOps_equal f a b).mp h1).trans ((objOps_equal f b c).mp h2))
  hash a b h := by
    rw [objOps_hash, objOps_hash]
    exact meantHash_content f a.2 b.2 ((objOps_equal f a b).mp h)

theorem objTrap_bad (f : Bytes → UInt32) : BadKeys (fun a : HashKey => !hashes a.1) (objTrap f) := by
  refine ⟨fun n a => ?_, fun n a b => ?_⟩
  · simp only [objTrap, hash_exact]
    cases hashes a.1 <;> rfl
  · obtain ⟨v, h1, -⟩ := equal_sound a.1 b.1 a.2 b.2
    simp only [objTrap, h1, resPanics]

/-- C189: a hash map can be indexed by hashable objects without nil pointers in them, of all types at once: no call panics, and the map is a
finite map. -/
def HashMapOfObjects : Prop := ∀ (V : Type) (f : Bytes → UInt32) (os : List (MapOp HashKey V)), os.length ≤ 2 ^ 30 →
  (runHashT (objOps f) defaultPolicy (HashTab.new 10) (os.map fun o => (objTrap f, o))).2 =
    (runE (objOps f).equal (fun _ => none) os).2.map some

/-- C189 does not hold: two integers of 16 bits in a slice that is full. -/
theorem C189_refuted : ¬ HashMapOfObjects := by
  intro h
  have := h Unit (fun _ => 0) [.put ⟨.ints .int16 ⟨some [1, 2], 2⟩, by simp [sound]⟩ ()] (by decide)
  revert this
  decide +kernel

/-- C189, exactly: calls with a key that cannot be hashed panic and change nothing; all others return and do what they do on a finite map,
where keys are the same if their types and contents are.  That holds for every hash function (so for every seed). -/
theorem C189_partial {V : Type} (f : Bytes → UInt32) (os : List (MapOp HashKey V)) (hlen : os.length ≤ 2 ^ 30) :
    let bad : HashKey → Bool := fun a => !hashes a.1
    let r := runHashT (objOps f) defaultPolicy (HashTab.new 10) (os.map fun o => (objTrap f, o))
    let s := runBad (objOps f).equal bad (fun _ => none) os
    r.2 = s.2 ∧ ∀ k, r.1.getT (objTrap f) (objOps f) k = if bad k then none else some (s.1 k) := by
  intro bad r s
  have e : (os.map fun o => (objTrap f, o)).map Prod.snd = os := by rw [List.map_map]; exact List.map_id _
  obtain ⟨h1, -, h3⟩ := C131_bad_keys (objOps_lawful f) 10 (by decide) bad (os.map fun o => (objTrap f, o))
    (by intro o ho; simp only [List.mem_map] at ho; obtain ⟨p, -, rfl⟩ := ho; exact objTrap_bad f)
    (pol := defaultPolicy) (defaultPolicy_modest _ (by rw [List.length_map]; exact hlen))
  rw [e] at h1 h3
  exact ⟨h1, fun k => h3 _ k (objTrap_bad f)⟩

/-- C189, which keys cannot be hashed; and equal keys have equal hashes. -/
theorem C189_hash_partial (f : Bytes → UInt32) (a b : HashObj) (ha : sound a) (hb : sound b) :
    (a.hash f = .panic ↔ hashes a = false) ∧
    (a.equal b = .ok true → ∀ x y, a.hash f = .ok x → b.hash f = .ok y → x = y) := by
  constructor
  · rw [hash_exact]
    cases hashes a <;> simp
  · intro h x y hx hy
    obtain ⟨v, h1, h2⟩ := equal_sound a b ha hb
    rw [h1] at h
    cases h
    have e := meantHash_content f ha hb (h2.mp rfl)
    rw [hash_exact] at hx hy
    split at hx
    · split at hy
      · cases hx; cases hy; exact e
      · cases hy
    · cases hx

/-- Bytes and integers in one map; the second slice of integers is too full. -/
example : (runHashT (objOps (murmurHash 7)) defaultPolicy (HashTab.new 10) ([.put ⟨.ints .byte ⟨some [1], 1⟩, by simp [sound]⟩ 10,
    .put ⟨.ints .int16 ⟨some [1], 2⟩, by simp [sound]⟩ 20, .put ⟨.ints .int16 ⟨some [1], 1⟩, by simp [sound]⟩ 30,
    .put ⟨.objs [.absent], by simp [sound, sounds]⟩ 40, .remove ⟨.ints .int16 ⟨some [1], 3⟩, by simp [sound]⟩].map
      fun o => (objTrap (murmurHash 7), o))).2 = [some none, some none, none, some none, some (some 20)] := by decide +kernel

example := C189_partial (murmurHash 7) [.put ⟨.ints .byte ⟨some [1], 1⟩, by simp [sound]⟩ 10,
  .put ⟨.ints .int16 ⟨some [1], 1⟩, by simp [sound]⟩ 30, .remove ⟨.ints .int16 ⟨some [1], 3⟩, by simp [sound]⟩] (by decide)

end Poodle.Props
