import Verif.Lemmas.Sharing
import Verif.Props.CopyConstruct

/-
Lemmas about which bytes a copy shares with its original.
-/

namespace Poodle.Props
open Poodle Poodle.Spec

/-! ### What an object shows depends on its slices, and on nothing else -/

theorem get_eq_iff {m1 m2 : Mem} (s : Option Sl) : m1.get s = m2.get s ↔ ∀ t ∈ slicesIn [s], m1.read t = m2.read t := by
  cases s with
  | none => simp [slicesIn, get_none]
  | some s => simp [slicesIn, get_some]

theorem map_get_iff {m1 m2 : Mem} : ∀ l : List (Option Sl), l.map m1.get = l.map m2.get ↔ ∀ t ∈ slicesIn l, m1.read t = m2.read t
  | [] => by simp [slicesIn]
  | none :: l => by
    rw [List.map_cons, List.map_cons, slicesIn, ← map_get_iff l]
    simp [get_none]
  | some s :: l => by
    rw [List.map_cons, List.map_cons, slicesIn]
    simp only [List.cons.injEq, get_some, Option.some.injEq, List.mem_cons, forall_eq_or_imp, map_get_iff l]

theorem viewMapped_iff {m1 m2 : Mem} (k : SMapped) : viewMapped m1 k = viewMapped m2 k ↔ ∀ t ∈ slicesMapped k, m1.read t = m2.read t := by
  rw [viewMapped, viewMapped, MappedKey.mk.injEq, map_get_iff, slicesMapped]
  simp only [List.mem_append, List.mem_cons, List.not_mem_nil, or_false, or_imp, forall_and, forall_eq]

theorem viewKey_iff {m1 m2 : Mem} : ∀ k : SKeyObj, viewKey m1 k = viewKey m2 k ↔ ∀ t ∈ slicesKey k, m1.read t = m2.read t
  | .empty => by simp [viewKey, slicesKey]
  | .mapped k => by
    rw [viewKey, viewKey, KeyObj.mapped.injEq, viewMapped_iff, slicesKey]
  | .key k => by
    rw [viewKey, viewKey, KeyObj.key.injEq, viewK, viewK, Key.mk.injEq, map_get_iff, get_eq_iff, slicesKey]
    simp only [List.mem_append, or_imp, forall_and, and_true, true_and]

theorem viewKeyPart_iff {m1 m2 : Mem} : ∀ k : Option SKeyObj, k.map (viewKey m1) = k.map (viewKey m2) ↔
    ∀ t ∈ slicesKeyPart k, m1.read t = m2.read t
  | none => by simp [slicesKeyPart]
  | some k => by
    rw [Option.map_some, Option.map_some, Option.some.injEq, viewKey_iff, slicesKeyPart]

theorem viewStd_iff {m1 m2 : Mem} (d : SStd) : viewStd m1 d = viewStd m2 d ↔ ∀ t ∈ slicesStd d, m1.read t = m2.read t := by
  rw [viewStd, viewStd, StdValue.mk.injEq, slicesStd]
  simp

theorem viewInfo_iff {m1 m2 : Mem} (r : SRecInfo) : viewInfo m1 r = viewInfo m2 r ↔ ∀ t ∈ slicesInfo r, m1.read t = m2.read t := by
  rw [viewInfo, viewInfo, RecInfo.mk.injEq, viewMapped_iff, viewStd_iff, viewStd_iff, slicesInfo]
  simp only [List.mem_cons, List.mem_append, or_imp, forall_and, forall_eq, and_true, and_assoc]

mutual
theorem viewVal_iff {m1 m2 : Mem} : ∀ v : SVal, viewVal m1 v = viewVal m2 v ↔ ∀ t ∈ slicesVal v, m1.read t = m2.read t
  | .prim s => by rw [viewVal, viewVal, CVal.prim.injEq, get_eq_iff, slicesVal]
  | .array l => by rw [viewVal, viewVal, CVal.array.injEq, viewVals_iff l, slicesVal]
  | .records l => by rw [viewVal, viewVal, CVal.records.injEq, viewRecs_iff l, slicesVal]
  | .simple c b => by rw [viewVal, viewVal, CVal.simple.injEq, slicesVal]; simp
  | .std d => by rw [viewVal, viewVal, CVal.std.injEq, viewStd_iff, slicesVal]

theorem viewVals_iff {m1 m2 : Mem} : ∀ l : List SVal, viewVals m1 l = viewVals m2 l ↔ ∀ t ∈ slicesVals l, m1.read t = m2.read t
  | [] => by simp [viewVals, slicesVals]
  | v :: l => by
    rw [viewVals, viewVals, List.cons.injEq, viewVal_iff v, viewVals_iff l, slicesVals]
    simp only [List.mem_append, or_imp, forall_and]

theorem viewPart_iff {m1 m2 : Mem} : ∀ v : Option SVal, viewPart m1 v = viewPart m2 v ↔ ∀ t ∈ slicesPart v, m1.read t = m2.read t
  | none => by simp [viewPart, slicesPart]
  | some v => by rw [viewPart, viewPart, Option.some.injEq, viewVal_iff v, slicesPart]

theorem viewRec_iff {m1 m2 : Mem} : ∀ r : SRec, viewRec m1 r = viewRec m2 r ↔ ∀ t ∈ slicesRec r, m1.read t = m2.read t
  | .record k v s _ _ _ => by
    rw [viewRec, viewRec, CRec.record.injEq, viewKeyPart_iff, viewPart_iff v, viewPart_iff s, slicesRec]
    simp only [List.mem_append, or_imp, forall_and, and_true, and_assoc]
  | .mapped r => by rw [viewRec, viewRec, CRec.mapped.injEq, viewInfo_iff, slicesRec]

theorem viewRecs_iff {m1 m2 : Mem} : ∀ l : List SRec, viewRecs m1 l = viewRecs m2 l ↔ ∀ t ∈ slicesRecs l, m1.read t = m2.read t
  | [] => by simp [viewRecs, slicesRecs]
  | v :: l => by
    rw [viewRecs, viewRecs, List.cons.injEq, viewRec_iff v, viewRecs_iff l, slicesRecs]
    simp only [List.mem_append, or_imp, forall_and]
end

theorem _root_.Poodle.Spec.AllIn.ext {m : Mem} {l : List Sl} (h : AllIn m l) (e : Mem) : AllIn (m ++ e) l := fun s hs => inside_append (h s hs) e

theorem _root_.Poodle.Spec.AllIn.left {m : Mem} {l k : List Sl} (h : AllIn m (l ++ k)) : AllIn m l := fun s hs => h s (List.mem_append_left _ hs)
theorem _root_.Poodle.Spec.AllIn.right {m : Mem} {l k : List Sl} (h : AllIn m (l ++ k)) : AllIn m k := fun s hs => h s (List.mem_append_right _ hs)

theorem _root_.Poodle.Spec.AllIn.same {m : Mem} {l : List Sl} (h : AllIn m l) (e : Mem) : ∀ s ∈ l, (m ++ e).read s = m.read s :=
  fun s hs => read_append (h s hs) e

/-- What is known after a copy: the memory has only grown, the slices `new` of the copy are in new arrays or in one of the slices `old`,
and all of these are used. -/
structure Copied (m m' : Mem) (old new : List Sl) : Prop where
  ext : ∃ e, m' = m ++ e
  ins : AllIn m' new
  origin : ∀ s ∈ new, m.length ≤ s.arr ∨ ∃ k ∈ old, within s k
  keeps : ∀ k ∈ old, k ∈ new

theorem Copied.nil (m : Mem) : Copied m m [] [] :=
  ⟨⟨[], (List.append_nil _).symm⟩, by simp [AllIn], by simp, by simp⟩

theorem Copied.append {m m1 m2 : Mem} {o1 o2 n1 n2 : List Sl} (h1 : Copied m m1 o1 n1) (h2 : Copied m1 m2 o2 n2) :
    Copied m m2 (o1 ++ o2) (n1 ++ n2) := by
  obtain ⟨e1, rfl⟩ := h1.ext
  obtain ⟨e2, rfl⟩ := h2.ext
  refine ⟨⟨e1 ++ e2, by simp⟩, ?_, ?_, ?_⟩
  · intro s hs
    rcases List.mem_append.mp hs with hs | hs
    · exact inside_append (h1.ins s hs) e2
    · exact h2.ins s hs
  · intro s hs
    rcases List.mem_append.mp hs with hs | hs
    · rcases h1.origin s hs with h | ⟨k, hk, hw⟩
      · exact Or.inl h
      · exact Or.inr ⟨k, List.mem_append_left _ hk, hw⟩
    · rcases h2.origin s hs with h | ⟨k, hk, hw⟩
      · left
        rw [List.length_append] at h
        omega
      · exact Or.inr ⟨k, List.mem_append_right _ hk, hw⟩
  · intro k hk
    rcases List.mem_append.mp hk with hk | hk
    · exact List.mem_append_left _ (h1.keeps k hk)
    · exact List.mem_append_right _ (h2.keeps k hk)

theorem Copied.fresh (m : Mem) (b : Bytes) {new : List Sl} (h : ∀ s ∈ new, within s (m.make b).2) : Copied m (m.make b).1 [] new := by
  refine ⟨⟨[b], rfl⟩, fun s hs => (h s hs).inside (make_inside m b), fun s hs => Or.inl ?_, by simp⟩
  rw [(h s hs).1, make_arr]

/-! ### Keys -/

theorem len_get {m : Mem} {s : Option Sl} (h : AllIn m (slicesIn [s])) : (s.map Sl.len).getD 0 = (m.get s).bytes.length := by
  cases s with
  | none => rfl
  | some s =>
    rw [get_some]
    simp only [Option.map_some, Option.getD_some, Slice.bytes]
    rw [read_length (h s (by simp [slicesIn]))]

theorem slicesIn_append : ∀ a b : List (Option Sl), slicesIn (a ++ b) = slicesIn a ++ slicesIn b
  | [], _ => rfl
  | none :: a, b => by rw [List.cons_append, slicesIn, slicesIn, slicesIn_append a b]
  | some s :: a, b => by rw [List.cons_append, slicesIn, slicesIn, slicesIn_append a b, List.cons_append]

theorem slicesIn_cons (s : Option Sl) (l : List (Option Sl)) : slicesIn (s :: l) = slicesIn [s] ++ slicesIn l := slicesIn_append [s] l

theorem addAllS_view {m : Mem} : ∀ (l : List (Option Sl)) (k : SKey), AllIn m (slicesIn l) →
    mapR (viewK m) (addAllS k l) = addAll (viewK m k) (l.map m.get)
  | [], _, _ => rfl
  | s :: l, k, h => by
    rw [slicesIn_cons] at h
    rw [addAllS, List.map_cons, addAll, SKey.add, Key.add, ← len_get h.left]
    split_ifs
    · rfl
    · rw [Res.bind_ok, Res.bind_ok, addAllS_view l _ h.right]
      simp [viewK]

theorem addAllS_ok : ∀ (l : List (Option Sl)) (k k' : SKey), addAllS k l = .ok k' → k'.keys = k.keys ++ l ∧ k'.buf = k.buf
  | [], k, k', h => by
    cases h
    simp
  | s :: l, k, k', h => by
    rw [addAllS] at h
    obtain ⟨k1, h1, h2⟩ := Res.bind_eq_ok.mp h
    rw [SKey.add] at h1
    split_ifs at h1
    cases h1
    obtain ⟨h3, h4⟩ := addAllS_ok l _ _ h2
    exact ⟨by rw [h3]; simp, h4⟩

theorem addAllS_slices {l : List (Option Sl)} {k : SKey} (h : addAllS newSKey l = .ok k) : slicesKey (.key k) = slicesIn l := by
  obtain ⟨h1, h2⟩ := addAllS_ok l _ _ h
  rw [slicesKey, h1, h2]
  simp [newSKey, slicesIn]

theorem copyKey_view {m : Mem} (k : SKeyObj) (h : AllIn m (slicesKey k)) : mapR (viewKey m) (k.copy m) = (viewKey m k).copy := by
  cases k with
  | empty => rfl
  | mapped k =>
    have hb : inside m k.buf := h _ (by simp [slicesKey, slicesMapped])
    have hv := mappedKeyAt_view hb
    rw [viewKey, KeyObj.copy, SKeyObj.copy]
    change _ = (match newMappedKey (m.read k.buf) with
      | .ok (m', _) => Res.ok (KeyObj.mapped m')
      | .err => .panic
      | .panic => .panic)
    rw [← hv]
    cases mappedKeyAt m k.buf <;> rfl
  | key k =>
    rw [viewKey, KeyObj.copy, SKeyObj.copy]
    have := addAllS_view k.keys newSKey h.left
    change _ = (do
      let k' ← addAll (viewK m newSKey) (k.keys.map m.get)
      Res.ok (KeyObj.key k'))
    rw [← this]
    cases addAllS newSKey k.keys <;> rfl

theorem constructKey_view {m : Mem} (k : SKeyObj) (h : AllIn m (slicesKey k)) :
    mapR (viewKey m) k.copyConstruct = (viewKey m k).copyConstruct := by
  cases k with
  | empty => rfl
  | mapped k =>
    rw [viewKey, KeyObj.copyConstruct, SKeyObj.copyConstruct]
    have := addAllS_view k.keys newSKey h.left
    change _ = (do
      let k' ← addAll (viewK m newSKey) (k.keys.map m.get)
      Res.ok (KeyObj.key k'))
    rw [← this]
    cases addAllS newSKey k.keys <;> rfl
  | key k =>
    rw [viewKey, KeyObj.copyConstruct, SKeyObj.copyConstruct]
    have := addAllS_view k.keys newSKey h.left
    change _ = (do
      let k' ← addAll (viewK m newSKey) (k.keys.map m.get)
      Res.ok (KeyObj.key k'))
    rw [← this]
    cases addAllS newSKey k.keys <;> rfl

theorem Copied.shared {m : Mem} {old new : List Sl} (hi : AllIn m new) (h1 : ∀ s ∈ new, ∃ k ∈ old, within s k) (h2 : ∀ k ∈ old, k ∈ new) :
    Copied m m old new :=
  ⟨⟨[], (List.append_nil _).symm⟩, hi, fun s hs => Or.inr (h1 s hs), h2⟩

theorem copyKey_copied {m : Mem} {k c : SKeyObj} (h : AllIn m (slicesKey k)) (e : k.copy m = .ok c) : Copied m m (keptKey k) (slicesKey c) := by
  cases k with
  | empty =>
    cases e
    exact Copied.nil m
  | mapped k =>
    have hb : inside m k.buf := h _ (by simp [slicesKey, slicesMapped])
    rw [SKeyObj.copy] at e
    cases e1 : mappedKeyAt m k.buf with
    | ok p =>
      obtain ⟨k', n⟩ := p
      rw [e1] at e
      cases e
      obtain ⟨h1, h2⟩ := mappedKeyAt_within hb e1
      have hw : ∀ s ∈ slicesKey (.mapped k'), within s k.buf := by
        intro s hs
        rw [slicesKey, slicesMapped] at hs
        rcases List.mem_append.mp hs with hs | hs
        · exact h2 s hs
        · rw [List.mem_singleton.mp hs, h1]
          exact within.refl _
      refine Copied.shared (fun s hs => (hw s hs).inside hb) (fun s hs => ⟨_, List.mem_singleton.mpr rfl, hw s hs⟩) ?_
      intro t ht
      rw [keptKey] at ht
      rw [List.mem_singleton.mp ht, slicesKey, slicesMapped, h1]
      simp
    | err => rw [e1] at e; exact absurd e (by simp)
    | panic => rw [e1] at e; exact absurd e (by simp)
  | key k =>
    rw [SKeyObj.copy] at e
    obtain ⟨k', e1, e⟩ := Res.bind_eq_ok.mp e
    cases e
    rw [addAllS_slices e1, keptKey]
    exact Copied.shared h.left (fun s hs => ⟨s, hs, within.refl s⟩) (fun _ hk => hk)

theorem constructKey_copied {m : Mem} {k c : SKeyObj} (h : AllIn m (slicesKey k)) (e : k.copyConstruct = .ok c) :
    Copied m m (subKeysOf k) (slicesKey c) := by
  cases k with
  | empty =>
    cases e
    exact Copied.nil m
  | mapped k =>
    rw [SKeyObj.copyConstruct] at e
    obtain ⟨k', e1, e⟩ := Res.bind_eq_ok.mp e
    cases e
    rw [addAllS_slices e1, subKeysOf]
    exact Copied.shared h.left (fun s hs => ⟨s, hs, within.refl s⟩) (fun _ hk => hk)
  | key k =>
    rw [SKeyObj.copyConstruct] at e
    obtain ⟨k', e1, e⟩ := Res.bind_eq_ok.mp e
    cases e
    rw [addAllS_slices e1, subKeysOf]
    exact Copied.shared h.left (fun s hs => ⟨s, hs, within.refl s⟩) (fun _ hk => hk)

/-! ### Copy of values and records -/

/-- The outcome `x` of a copy at memory level: seen from outside it is `y`, and of the slices only those in `old` are shared. -/
def CopyOf {α β : Type} (m : Mem) (x : Res (Mem × α)) (view : Mem → α → β) (slices : α → List Sl) (y : Res β) (old : List Sl) : Prop :=
  mapR (fun p => view p.1 p.2) x = y ∧ ∀ m' c, x = .ok (m', c) → Copied m m' old (slices c)

theorem CopyOf.cases {α β : Type} {m : Mem} {x : Res (Mem × α)} {view : Mem → α → β} {slices : α → List Sl} {y : Res β} {old : List Sl}
    (h : CopyOf m x view slices y old) :
    (∃ m' c, x = .ok (m', c) ∧ y = .ok (view m' c) ∧ Copied m m' old (slices c)) ∨ (x = .err ∧ y = .err) ∨ (x = .panic ∧ y = .panic) := by
  obtain ⟨h1, h2⟩ := h
  cases x with
  | ok p =>
    obtain ⟨m', c⟩ := p
    exact Or.inl ⟨m', c, rfl, h1.symm, h2 m' c rfl⟩
  | err => exact Or.inr (Or.inl ⟨rfl, h1.symm⟩)
  | panic => exact Or.inr (Or.inr ⟨rfl, h1.symm⟩)

theorem CopyOf.ok {α β : Type} {m m' : Mem} {c : α} {view : Mem → α → β} {slices : α → List Sl} {y : Res β} {old : List Sl}
    (h1 : y = .ok (view m' c)) (h2 : Copied m m' old (slices c)) : CopyOf m (.ok (m', c)) view slices y old :=
  ⟨h1.symm, by
    intro m'' c' e
    simp only [Res.ok.injEq, Prod.mk.injEq] at e
    obtain ⟨rfl, rfl⟩ := e
    exact h2⟩

theorem CopyOf.err {α β : Type} {m : Mem} {view : Mem → α → β} {slices : α → List Sl} {old : List Sl} :
    CopyOf m (.err : Res (Mem × α)) view slices (.err : Res β) old := ⟨rfl, by simp⟩

theorem CopyOf.panic {α β : Type} {m : Mem} {view : Mem → α → β} {slices : α → List Sl} {old : List Sl} :
    CopyOf m (.panic : Res (Mem × α)) view slices (.panic : Res β) old := ⟨rfl, by simp⟩

theorem copySimpleS_spec (m : Mem) (b : Sl) : CopyOf m (copySimpleS m b) viewVal slicesVal (copySimple (m.read b)) [] := by
  rw [copySimpleS, copySimple]
  have hi := make_inside m (m.read b)
  have hv := simpleAt_view hi
  rw [make_read] at hv
  rw [← hv]
  cases e : simpleAt (m.make (m.read b)).1 (m.make (m.read b)).2 with
  | ok p =>
    obtain ⟨c, b', n⟩ := p
    obtain ⟨w1, w2⟩ := simpleAt_within hi e
    refine CopyOf.ok rfl (Copied.fresh m _ ?_)
    intro s hs
    rw [slicesVal] at hs
    simp only [List.mem_cons, List.not_mem_nil, or_false] at hs
    rcases hs with rfl | rfl
    · exact w1
    · exact w2
  | err => exact CopyOf.panic
  | panic => exact CopyOf.panic

theorem copyStdS_spec (m : Mem) (d : SStd) : CopyOf m (copyStdS m d) viewVal slicesVal (copyStd (viewStd m d)) [] := by
  rw [copyStdS, copyStd]
  have hi := make_inside m (m.read d.buf)
  have hv := stdAt_view hi
  rw [make_read] at hv
  rw [show (viewStd m d).buf = m.read d.buf from rfl, ← hv]
  cases e : stdAt (m.make (m.read d.buf)).1 (m.make (m.read d.buf)).2 with
  | ok p =>
    obtain ⟨d', n⟩ := p
    obtain ⟨-, w, -⟩ := stdAt_ok hi e
    exact CopyOf.ok rfl (Copied.fresh m _ w)
  | err => exact CopyOf.panic
  | panic => exact CopyOf.panic

theorem copyRecS_spec (m : Mem) (r : SRecInfo) :
    CopyOf m (copyRecS m r) viewRec slicesRec ((viewInfo m r).copy >>= fun r => .ok (.mapped r)) [] := by
  rw [copyRecS, RecInfo.copy]
  have hi := make_inside m (m.read r.buf)
  have hv := recordAt_view hi
  rw [make_read] at hv
  rw [show (viewInfo m r).buf = m.read r.buf from rfl, ← hv]
  cases e : recordAt (m.make (m.read r.buf)).1 (m.make (m.read r.buf)).2 with
  | ok p =>
    obtain ⟨d', n⟩ := p
    obtain ⟨-, w, -⟩ := memRecord_ok hi e
    exact CopyOf.ok rfl (Copied.fresh m _ w)
  | err => exact CopyOf.panic
  | panic => exact CopyOf.panic

theorem copyKeyS_spec {m : Mem} (k : Option SKeyObj) (h : AllIn m (slicesKeyPart k)) :
    (∃ c, copyKeyS m k = .ok c ∧ copyKeyPart (k.map (viewKey m)) = .ok (c.map (viewKey m)) ∧
      Copied m m ((k.map keptKey).getD []) (slicesKeyPart c)) ∨
      (copyKeyS m k = .err ∧ copyKeyPart (k.map (viewKey m)) = .err) ∨
      (copyKeyS m k = .panic ∧ copyKeyPart (k.map (viewKey m)) = .panic) := by
  cases k with
  | none => exact Or.inl ⟨none, rfl, rfl, Copied.nil m⟩
  | some k =>
    have hv := copyKey_view k h
    rw [copyKeyS, Option.map_some, copyKeyPart, ← hv]
    cases e : k.copy m with
    | ok c => exact Or.inl ⟨some c, rfl, rfl, copyKey_copied h e⟩
    | err => exact Or.inr (Or.inl ⟨rfl, rfl⟩)
    | panic => exact Or.inr (Or.inr ⟨rfl, rfl⟩)

theorem constructKeyS_spec {m : Mem} (k : Option SKeyObj) (h : AllIn m (slicesKeyPart k)) :
    (∃ c, constructKeyS k = .ok c ∧ constructKeyPart (k.map (viewKey m)) = .ok (c.map (viewKey m)) ∧
      Copied m m ((k.map subKeysOf).getD []) (slicesKeyPart c)) ∨
      (constructKeyS k = .err ∧ constructKeyPart (k.map (viewKey m)) = .err) ∨
      (constructKeyS k = .panic ∧ constructKeyPart (k.map (viewKey m)) = .panic) := by
  cases k with
  | none => exact Or.inl ⟨none, rfl, rfl, Copied.nil m⟩
  | some k =>
    have hv := constructKey_view k h
    rw [constructKeyS, Option.map_some, constructKeyPart, ← hv]
    cases e : k.copyConstruct with
    | ok c => exact Or.inl ⟨some c, rfl, rfl, constructKey_copied h e⟩
    | err => exact Or.inr (Or.inl ⟨rfl, rfl⟩)
    | panic => exact Or.inr (Or.inr ⟨rfl, rfl⟩)

mutual
theorem dupVal_spec : ∀ (v : SVal) (m : Mem), AllIn m (slicesVal v) → CopyOf m (v.copy m) viewVal slicesVal (viewVal m v).copy (keptVal v)
  | .prim none, m, _ => CopyOf.ok rfl (Copied.nil m)
  | .prim (some s), m, _ => by
    refine CopyOf.ok ?_ (Copied.fresh m _ ?_)
    · rw [viewVal, viewVal, CVal.copy, get_some, get_some, make_read]
    · intro t ht
      simp only [slicesVal, slicesIn, List.mem_cons, List.not_mem_nil, or_false] at ht
      rw [ht]
      exact within.refl _
  | .array l, m, h => by
    rw [SVal.copy, viewVal, CVal.copy]
    rcases (dupVals_spec l m h).cases with ⟨m', c, e1, e2, e3⟩ | ⟨e1, e2⟩ | ⟨e1, e2⟩
    · rw [e1, e2]
      exact CopyOf.ok rfl e3
    · rw [e1, e2]; exact CopyOf.err
    · rw [e1, e2]; exact CopyOf.panic
  | .records l, m, h => by
    rw [SVal.copy, viewVal, CVal.copy]
    rcases (dupRecs_spec l m h).cases with ⟨m', c, e1, e2, e3⟩ | ⟨e1, e2⟩ | ⟨e1, e2⟩
    · rw [e1, e2]
      exact CopyOf.ok rfl e3
    · rw [e1, e2]; exact CopyOf.err
    · rw [e1, e2]; exact CopyOf.panic
  | .simple c b, m, _ => by
    rw [SVal.copy, viewVal, CVal.copy]
    exact copySimpleS_spec m b
  | .std d, m, _ => by
    rw [SVal.copy, viewVal, CVal.copy]
    exact copyStdS_spec m d

theorem dupVals_spec : ∀ (l : List SVal) (m : Mem), AllIn m (slicesVals l) →
    CopyOf m (copyValsS l m) viewVals slicesVals (copyVals (viewVals m l)) (keysVals keptKey l)
  | [], m, _ => CopyOf.ok rfl (Copied.nil m)
  | v :: l, m, h => by
    rw [slicesVals] at h
    rw [copyValsS, viewVals, copyVals, keysVals]
    rcases (dupVal_spec v m h.left).cases with ⟨m1, c, e1, e2, e3⟩ | ⟨e1, e2⟩ | ⟨e1, e2⟩
    · obtain ⟨x1, rfl⟩ := e3.ext
      rw [e1, e2, Res.bind_ok, Res.bind_ok]
      simp only
      have hs := (viewVals_iff l).mpr (h.right.same x1)
      rcases (dupVals_spec l _ (h.right.ext x1)).cases with ⟨m2, c2, f1, f2, f3⟩ | ⟨f1, f2⟩ | ⟨f1, f2⟩
      · obtain ⟨x2, rfl⟩ := f3.ext
        rw [hs] at f2
        rw [f1, f2, Res.bind_ok, Res.bind_ok]
        refine CopyOf.ok ?_ (e3.append f3)
        rw [viewVals, (viewVal_iff c).mpr (e3.ins.same x2)]
      · rw [hs] at f2
        rw [f1, f2]; exact CopyOf.err
      · rw [hs] at f2
        rw [f1, f2]; exact CopyOf.panic
    · rw [e1, e2]; exact CopyOf.err
    · rw [e1, e2]; exact CopyOf.panic

theorem dupPart_spec : ∀ (v : Option SVal) (m : Mem), AllIn m (slicesPart v) →
    CopyOf m (copyPartS v m) viewPart slicesPart (copyValuePart (viewPart m v)) (keysPart keptKey v)
  | none, m, _ => CopyOf.ok rfl (Copied.nil m)
  | some v, m, h => by
    rw [copyPartS, viewPart, copyValuePart]
    rcases (dupVal_spec v m h).cases with ⟨m', c, e1, e2, e3⟩ | ⟨e1, e2⟩ | ⟨e1, e2⟩
    · rw [e1, e2]
      exact CopyOf.ok rfl e3
    · rw [e1, e2]; exact CopyOf.err
    · rw [e1, e2]; exact CopyOf.panic

theorem dupRec_spec : ∀ (r : SRec) (m : Mem), AllIn m (slicesRec r) → CopyOf m (r.copy m) viewRec slicesRec (viewRec m r).copy (keptRec r)
  | .record k v s t a b, m, h => by
    rw [slicesRec] at h
    rw [SRec.copy, viewRec, CRec.copy, keptRec, keysRec]
    rcases copyKeyS_spec k h.left.left with ⟨k', e1, e2, e3⟩ | ⟨e1, e2⟩ | ⟨e1, e2⟩
    · rw [e1, e2, Res.bind_ok, Res.bind_ok]
      rcases (dupPart_spec v m h.left.right).cases with ⟨m1, c, f1, f2, f3⟩ | ⟨f1, f2⟩ | ⟨f1, f2⟩
      · obtain ⟨x1, rfl⟩ := f3.ext
        rw [f1, f2, Res.bind_ok, Res.bind_ok]
        simp only
        have hs := (viewPart_iff s).mpr (h.right.same x1)
        rcases (dupPart_spec s _ (h.right.ext x1)).cases with ⟨m2, c2, g1, g2, g3⟩ | ⟨g1, g2⟩ | ⟨g1, g2⟩
        · obtain ⟨x2, rfl⟩ := g3.ext
          rw [hs] at g2
          rw [g1, g2, Res.bind_ok, Res.bind_ok]
          refine CopyOf.ok ?_ ((e3.append f3).append g3)
          have hk : k'.map (viewKey (m ++ x1 ++ x2)) = k'.map (viewKey m) := (viewKeyPart_iff k').mpr (fun t ht => by
            rw [List.append_assoc]
            exact e3.ins.same _ t ht)
          rw [viewRec, (viewPart_iff c).mpr (f3.ins.same x2), hk]
        · rw [hs] at g2
          rw [g1, g2]; exact CopyOf.err
        · rw [hs] at g2
          rw [g1, g2]; exact CopyOf.panic
      · rw [f1, f2]; exact CopyOf.err
      · rw [f1, f2]; exact CopyOf.panic
    · rw [e1, e2]; exact CopyOf.err
    · rw [e1, e2]; exact CopyOf.panic
  | .mapped r, m, _ => by
    rw [SRec.copy, viewRec, CRec.copy]
    exact copyRecS_spec m r

theorem dupRecs_spec : ∀ (l : List SRec) (m : Mem), AllIn m (slicesRecs l) →
    CopyOf m (copyRecsS l m) viewRecs slicesRecs (copyRecs (viewRecs m l)) (keysRecs keptKey l)
  | [], m, _ => CopyOf.ok rfl (Copied.nil m)
  | v :: l, m, h => by
    rw [slicesRecs] at h
    rw [copyRecsS, viewRecs, copyRecs, keysRecs]
    rcases (dupRec_spec v m h.left).cases with ⟨m1, c, e1, e2, e3⟩ | ⟨e1, e2⟩ | ⟨e1, e2⟩
    · obtain ⟨x1, rfl⟩ := e3.ext
      rw [e1, e2, Res.bind_ok, Res.bind_ok]
      simp only
      have hs := (viewRecs_iff l).mpr (h.right.same x1)
      rcases (dupRecs_spec l _ (h.right.ext x1)).cases with ⟨m2, c2, f1, f2, f3⟩ | ⟨f1, f2⟩ | ⟨f1, f2⟩
      · obtain ⟨x2, rfl⟩ := f3.ext
        rw [hs] at f2
        rw [f1, f2, Res.bind_ok, Res.bind_ok]
        refine CopyOf.ok ?_ (e3.append f3)
        rw [viewRecs, (viewRec_iff c).mpr (e3.ins.same x2)]
      · rw [hs] at f2
        rw [f1, f2]; exact CopyOf.err
      · rw [hs] at f2
        rw [f1, f2]; exact CopyOf.panic
    · rw [e1, e2]; exact CopyOf.err
    · rw [e1, e2]; exact CopyOf.panic
end

/-! ### CopyConstruct of decoded values and records -/

theorem readsVals_drop {c : Bytes} {e : StdValue} {n : Nat} (h : decodeStd c = .ok (e, n)) : ∀ (us : List CVal) (i : Nat),
    ReadsVals us c (i + 1) ↔ ReadsVals us (c.drop n) i
  | [], _ => by rw [ReadsVals, ReadsVals]
  | u :: us, i => by
    rw [ReadsVals, ReadsVals, readsVals_drop h us (i + 1), elemOf, h]
    rfl

theorem readsRecs_drop {c : Bytes} {e : RecInfo} {n : Nat} (h : decodeRecord c = .ok (e, n)) : ∀ (us : List CRec) (i : Nat),
    ReadsRecs us c (i + 1) ↔ ReadsRecs us (c.drop n) i
  | [], _ => by rw [ReadsRecs, ReadsRecs]
  | u :: us, i => by
    rw [ReadsRecs, ReadsRecs, readsRecs_drop h us (i + 1), elemOf, h]
    rfl

theorem elemOf_zero {α : Type} {dec : Bytes → Res (α × Nat)} {c : Bytes} {e : α} : elemOf dec c 0 = .ok e ↔ ∃ n, dec c = .ok (e, n) := by
  rw [elemOf]
  constructor
  · intro h
    obtain ⟨⟨x, n⟩, h1, h2⟩ := Res.bind_eq_ok.mp h
    cases h2
    exact ⟨n, h1⟩
  · rintro ⟨n, h⟩
    rw [h]
    rfl

theorem readsVals_cons {c : Bytes} {u : CVal} {us : List CVal} : ReadsVals (u :: us) c 0 ↔
    ∃ e n, decodeStd c = .ok (e, n) ∧ Reads u e ∧ ReadsVals us (c.drop n) 0 := by
  rw [ReadsVals]
  constructor
  · rintro ⟨⟨e, h1, h2⟩, h3⟩
    obtain ⟨n, h1⟩ := elemOf_zero.mp h1
    exact ⟨e, n, h1, h2, (readsVals_drop h1 us 0).mp h3⟩
  · rintro ⟨e, n, h1, h2, h3⟩
    exact ⟨⟨e, elemOf_zero.mpr ⟨n, h1⟩, h2⟩, (readsVals_drop h1 us 0).mpr h3⟩

theorem readsRecs_cons {c : Bytes} {u : CRec} {us : List CRec} : ReadsRecs (u :: us) c 0 ↔
    ∃ e n, decodeRecord c = .ok (e, n) ∧ ReadsRec u e ∧ ReadsRecs us (c.drop n) 0 := by
  rw [ReadsRecs]
  constructor
  · rintro ⟨⟨e, h1, h2⟩, h3⟩
    obtain ⟨n, h1⟩ := elemOf_zero.mp h1
    exact ⟨e, n, h1, h2, (readsRecs_drop h1 us 0).mp h3⟩
  · rintro ⟨e, n, h1, h2, h3⟩
    exact ⟨⟨e, elemOf_zero.mpr ⟨n, h1⟩, h2⟩, (readsRecs_drop h1 us 0).mpr h3⟩

theorem orPanic_ok {α : Type} {x : Res α} {a : α} : orPanic x = .ok a ↔ x = .ok a := by
  cases x <;> simp [orPanic]

/-- One level of `CopyConstruct` of a decoded value. -/
def SoundStd (f : Mem → SStd → Res (Mem × SVal)) : Prop := ∀ m d m' v, AllIn m (slicesStd d) → f m d = .ok (m', v) →
  Reads (viewVal m' v) (viewStd m d) ∧ Copied m m' [] (slicesVal v)

/-- One level of `CopyConstruct` of a decoded record. -/
def SoundRec (f : Mem → SRecInfo → Res (Mem × SRec)) : Prop := ∀ m r m' v, AllIn m (slicesInfo r) → r.key.keys = [] → f m r = .ok (m', v) →
  ReadsRec (viewRec m' v) (viewInfo m r) ∧ Copied m m' [] (slicesRec v)

/-- The step of the loop over values. -/
def stepStd (f : Mem → SStd → Res (Mem × SVal)) (m : Mem) (s : Sl) : Res (Mem × SVal × Nat) := do
  let (e, _) ← stdAt m s
  let (m, v) ← f m e
  .ok (m, v, e.buf.len)

/-- The step of the loop over records. -/
def stepRec (f : Mem → SRecInfo → Res (Mem × SRec)) (m : Mem) (s : Sl) : Res (Mem × SRec × Nat) := do
  let (e, _) ← recordAt m s
  let (m, v) ← f m e
  .ok (m, v, e.buf.len)

theorem elems_sound {f : Mem → SStd → Res (Mem × SVal)} (H : SoundStd f) : ∀ (n : Nat) (m : Mem) (s : Sl) (m' : Mem) (l : List SVal),
    inside m s → constructElemsS (stepStd f) n m s = .ok (m', l) →
    (viewVals m' l).length = n ∧ ReadsVals (viewVals m' l) (m.read s) 0 ∧ Copied m m' [] (slicesVals l)
  | 0, m, s, m', l, _, e => by
    cases e
    exact ⟨rfl, by simp [viewVals, ReadsVals], Copied.nil m⟩
  | n + 1, m, s, m', l, hi, e => by
    rw [constructElemsS] at e
    obtain ⟨⟨m1, v, k⟩, e1, e⟩ := Res.bind_eq_ok.mp e
    obtain ⟨⟨m2, vs⟩, e2, e⟩ := Res.bind_eq_ok.mp e
    cases e
    rw [stepStd] at e1
    obtain ⟨⟨d, j⟩, d1, e1⟩ := Res.bind_eq_ok.mp e1
    obtain ⟨⟨m3, v3⟩, d2, e1⟩ := Res.bind_eq_ok.mp e1
    cases e1
    obtain ⟨a1, a2, a3, a4⟩ := stdAt_ok hi d1
    obtain ⟨b1, b2⟩ := H _ _ _ _ (fun t ht => (a2 t ht).inside hi) d2
    obtain ⟨x1, rfl⟩ := b2.ext
    have hr : inside m (s.rest d.buf.len) := (within_rest (by omega)).inside hi
    obtain ⟨c1, c2, c3⟩ := elems_sound H n _ _ _ _ (inside_append hr x1) e2
    obtain ⟨x2, rfl⟩ := c3.ext
    refine ⟨by rw [viewVals, List.length_cons, c1], ?_, b2.append c3⟩
    rw [viewVals, readsVals_cons, (viewVal_iff v).mpr (b2.ins.same x2)]
    refine ⟨_, _, a1, b1, ?_⟩
    rw [read_append hr, read_rest, ← a3] at c2
    exact c2

theorem elemsRec_sound {f : Mem → SRecInfo → Res (Mem × SRec)} (H : SoundRec f) : ∀ (n : Nat) (m : Mem) (s : Sl) (m' : Mem) (l : List SRec),
    inside m s → constructElemsS (stepRec f) n m s = .ok (m', l) →
    (viewRecs m' l).length = n ∧ ReadsRecs (viewRecs m' l) (m.read s) 0 ∧ Copied m m' [] (slicesRecs l)
  | 0, m, s, m', l, _, e => by
    cases e
    exact ⟨rfl, by simp [viewRecs, ReadsRecs], Copied.nil m⟩
  | n + 1, m, s, m', l, hi, e => by
    rw [constructElemsS] at e
    obtain ⟨⟨m1, v, k⟩, e1, e⟩ := Res.bind_eq_ok.mp e
    obtain ⟨⟨m2, vs⟩, e2, e⟩ := Res.bind_eq_ok.mp e
    cases e
    rw [stepRec] at e1
    obtain ⟨⟨d, j⟩, d1, e1⟩ := Res.bind_eq_ok.mp e1
    obtain ⟨⟨m3, v3⟩, d2, e1⟩ := Res.bind_eq_ok.mp e1
    cases e1
    obtain ⟨a1, a2, a3, a4⟩ := memRecord_ok hi d1
    have hk := C50_decoded_key_empty_partial _ _ _ a1
    obtain ⟨b1, b2⟩ := H _ _ _ _ (fun t ht => (a2 t ht).inside hi) (List.map_eq_nil_iff.mp hk) d2
    obtain ⟨x1, rfl⟩ := b2.ext
    have hr : inside m (s.rest d.buf.len) := (within_rest (by omega)).inside hi
    obtain ⟨c1, c2, c3⟩ := elemsRec_sound H n _ _ _ _ (inside_append hr x1) e2
    obtain ⟨x2, rfl⟩ := c3.ext
    refine ⟨by rw [viewRecs, List.length_cons, c1], ?_, b2.append c3⟩
    rw [viewRecs, readsRecs_cons, (viewRec_iff v).mpr (b2.ins.same x2)]
    refine ⟨_, _, a1, b1, ?_⟩
    rw [read_append hr, read_rest, a3] at c2
    exact c2

theorem construct_sound : ∀ fuel : Nat, SoundStd (constructStdS fuel) ∧ SoundRec (constructRecS fuel)
  | 0 => ⟨fun _ _ _ _ _ e => by rw [constructStdS] at e; exact absurd e (by simp),
      fun _ _ _ _ _ _ e => by rw [constructRecS] at e; exact absurd e (by simp)⟩
  | fuel + 1 => by
    obtain ⟨H1, H2⟩ := construct_sound fuel
    constructor
    · intro m d m' v hi e
      have hc : inside m d.content := hi _ (by simp [slicesStd])
      rw [constructStdS] at e
      cases hk : d.kind with
      | prim =>
        rw [hk] at e
        simp only [Res.ok.injEq, Prod.mk.injEq] at e
        obtain ⟨rfl, rfl⟩ := e
        refine ⟨?_, Copied.fresh m _ (fun s hs => ?_)⟩
        · rw [viewVal, Reads, get_some, make_read]
          exact ⟨hk, rfl⟩
        · simp only [slicesVal, slicesIn, List.mem_cons, List.not_mem_nil, or_false] at hs
          rw [hs]
          exact within.refl _
      | array =>
        rw [hk] at e
        obtain ⟨⟨m1, l⟩, e1, e⟩ := Res.bind_eq_ok.mp e
        cases e
        obtain ⟨c1, c2, c3⟩ := elems_sound H1 _ _ _ _ _ hc e1
        rw [viewVal, Reads]
        exact ⟨⟨hk, c1, c2⟩, c3⟩
      | records =>
        rw [hk] at e
        obtain ⟨⟨m1, l⟩, e1, e⟩ := Res.bind_eq_ok.mp e
        cases e
        obtain ⟨c1, c2, c3⟩ := elemsRec_sound H2 _ _ _ _ _ hc e1
        rw [viewVal, Reads]
        exact ⟨⟨hk, c1, c2⟩, c3⟩
    · intro m r m' v hi hk e
      rw [slicesInfo] at hi
      have hv : AllIn m (slicesStd r.value) := fun t ht => hi t (by simp [ht])
      have hs : AllIn m (slicesStd r.scheme) := fun t ht => hi t (by simp [ht])
      rw [constructRecS, SKeyObj.copyConstruct, hk] at e
      obtain ⟨k, e1, e⟩ := Res.bind_eq_ok.mp e
      obtain ⟨⟨m1, v1⟩, e2, e⟩ := Res.bind_eq_ok.mp e
      obtain ⟨⟨m2, v2⟩, e3, e⟩ := Res.bind_eq_ok.mp e
      cases e1
      cases e
      obtain ⟨b1, b2⟩ := H1 _ _ _ _ hv (orPanic_ok.mp e2)
      obtain ⟨x1, rfl⟩ := b2.ext
      obtain ⟨c1, c2⟩ := H1 _ _ _ _ (hs.ext x1) (orPanic_ok.mp e3)
      obtain ⟨x2, rfl⟩ := c2.ext
      have := (Copied.nil m).append b2 |>.append c2
      refine ⟨?_, this⟩
      rw [viewRec, ReadsRec, viewPart, viewPart, ReadsPart, ReadsPart, (viewVal_iff v1).mpr (b2.ins.same x2)]
      rw [(viewStd_iff r.scheme).mpr (hs.same x1)] at c1
      exact ⟨rfl, b1, c1, rfl, rfl, rfl⟩

mutual
theorem constructStd_complete : ∀ (u : CVal) (fuel : Nat) (m : Mem) (d : SStd), Reads u (viewStd m d) → depthV u < fuel → AllIn m (slicesStd d) →
    ∃ m' v, constructStdS fuel m d = .ok (m', v) ∧ viewVal m' v = u
  | _, 0, _, _, _, hf, _ => absurd hf (Nat.not_lt_zero _)
  | .prim s, fuel + 1, m, d, hu, _, _ => by
    rw [Reads] at hu
    have hk : d.kind = .prim := hu.1
    refine ⟨_, _, by rw [constructStdS, hk], ?_⟩
    rw [viewVal, get_some, make_read, hu.2]
    rfl
  | .array us, fuel + 1, m, d, hu, hf, hi => by
    rw [Reads] at hu
    rw [depthV] at hf
    have hk : d.kind = .array := hu.1
    have hn : us.length = d.size := hu.2.1
    obtain ⟨m', l, e1, e2⟩ := constructVals_complete us fuel m d.content hu.2.2 (by omega) (hi _ (by simp [slicesStd]))
    refine ⟨m', .array l, ?_, by rw [viewVal, e2]⟩
    rw [constructStdS, hk, ← hn]
    exact Res.bind_eq_ok.mpr ⟨_, e1, rfl⟩
  | .records us, fuel + 1, m, d, hu, hf, hi => by
    rw [Reads] at hu
    rw [depthV] at hf
    have hk : d.kind = .records := hu.1
    have hn : us.length = d.size := hu.2.1
    obtain ⟨m', l, e1, e2⟩ := constructRecs_complete us fuel m d.content hu.2.2 (by omega) (hi _ (by simp [slicesStd]))
    refine ⟨m', .records l, ?_, by rw [viewVal, e2]⟩
    rw [constructStdS, hk, ← hn]
    exact Res.bind_eq_ok.mpr ⟨_, e1, rfl⟩
  | .simple _ _, _ + 1, _, _, h, _, _ => by rw [Reads] at h; exact h.elim
  | .std _, _ + 1, _, _, h, _, _ => by rw [Reads] at h; exact h.elim

theorem constructVals_complete : ∀ (us : List CVal) (fuel : Nat) (m : Mem) (s : Sl), ReadsVals us (m.read s) 0 → depthVs us < fuel →
    inside m s → ∃ m' l, constructElemsS (stepStd (constructStdS fuel)) us.length m s = .ok (m', l) ∧ viewVals m' l = us
  | [], _, m, s, _, _, _ => ⟨m, [], rfl, rfl⟩
  | u :: us, fuel, m, s, h, hf, hi => by
    rw [readsVals_cons] at h
    rw [depthVs] at hf
    obtain ⟨e, n, h1, h2, h3⟩ := h
    rw [← stdAt_view hi] at h1
    obtain ⟨⟨d, j⟩, d1, d2⟩ := Res.bind_eq_ok.mp h1
    simp only [Res.ok.injEq, Prod.mk.injEq] at d2
    obtain ⟨rfl, rfl⟩ := d2
    obtain ⟨-, a2, a3, a4⟩ := stdAt_ok hi d1
    have ha : AllIn m (slicesStd d) := fun t ht => (a2 t ht).inside hi
    obtain ⟨m1, v, b1, b2⟩ := constructStd_complete u fuel m d h2 (by omega) ha
    obtain ⟨-, b3⟩ := (construct_sound fuel).1 _ _ _ _ ha b1
    obtain ⟨x1, rfl⟩ := b3.ext
    have hr : inside m (s.rest d.buf.len) := (within_rest (by omega)).inside hi
    rw [a3, ← read_rest, ← read_append hr x1] at h3
    obtain ⟨m2, l, c1, c2⟩ := constructVals_complete us fuel _ _ h3 (by omega) (inside_append hr x1)
    obtain ⟨-, -, c3⟩ := elems_sound (construct_sound fuel).1 _ _ _ _ _ (inside_append hr x1) c1
    obtain ⟨x2, rfl⟩ := c3.ext
    refine ⟨m ++ x1 ++ x2, v :: l, ?_, ?_⟩
    · rw [List.length_cons, constructElemsS, stepStd, d1, Res.bind_ok]
      simp only
      rw [b1, Res.bind_ok, Res.bind_ok]
      simp only
      rw [c1, Res.bind_ok]
    · rw [viewVals, (viewVal_iff v).mpr (b3.ins.same x2), b2, c2]

theorem constructRecs_complete : ∀ (us : List CRec) (fuel : Nat) (m : Mem) (s : Sl), ReadsRecs us (m.read s) 0 → depthRs us < fuel →
    inside m s → ∃ m' l, constructElemsS (stepRec (constructRecS fuel)) us.length m s = .ok (m', l) ∧ viewRecs m' l = us
  | [], _, m, s, _, _, _ => ⟨m, [], rfl, rfl⟩
  | u :: us, fuel, m, s, h, hf, hi => by
    rw [readsRecs_cons] at h
    rw [depthRs] at hf
    obtain ⟨e, n, h1, h2, h3⟩ := h
    obtain ⟨d, d1, rfl, a2, a3⟩ := memRecord_ok' hi h1
    obtain ⟨-, -, a4, a5⟩ := memRecord_ok hi d1
    have hk := List.map_eq_nil_iff.mp (C50_decoded_key_empty_partial _ _ _ h1)
    have ha : AllIn m (slicesInfo d) := fun t ht => (a2 t ht).inside hi
    obtain ⟨m1, v, b1, b2⟩ := constructRec_complete u fuel m d h2 (by omega) ha hk
    obtain ⟨-, b3⟩ := (construct_sound fuel).2 _ _ _ _ ha hk b1
    obtain ⟨x1, rfl⟩ := b3.ext
    have hr : inside m (s.rest d.buf.len) := (within_rest (by omega)).inside hi
    rw [← a4, ← read_rest, ← read_append hr x1] at h3
    obtain ⟨m2, l, c1, c2⟩ := constructRecs_complete us fuel _ _ h3 (by omega) (inside_append hr x1)
    obtain ⟨-, -, c3⟩ := elemsRec_sound (construct_sound fuel).2 _ _ _ _ _ (inside_append hr x1) c1
    obtain ⟨x2, rfl⟩ := c3.ext
    refine ⟨m ++ x1 ++ x2, v :: l, ?_, ?_⟩
    · rw [List.length_cons, constructElemsS, stepRec, d1, Res.bind_ok]
      simp only
      rw [b1, Res.bind_ok, Res.bind_ok]
      simp only
      rw [c1, Res.bind_ok]
    · rw [viewRecs, (viewRec_iff v).mpr (b3.ins.same x2), b2, c2]

theorem constructRec_complete : ∀ (u : CRec) (fuel : Nat) (m : Mem) (r : SRecInfo), ReadsRec u (viewInfo m r) → depthR u < fuel →
    AllIn m (slicesInfo r) → r.key.keys = [] → ∃ m' v, constructRecS fuel m r = .ok (m', v) ∧ viewRec m' v = u
  | _, 0, _, _, _, hf, _, _ => absurd hf (Nat.not_lt_zero _)
  | .record k (some u) (some w) t a b, fuel + 1, m, r, hu, hf, hi, hk => by
    rw [ReadsRec, ReadsPart, ReadsPart] at hu
    rw [depthR, depthP, depthP] at hf
    obtain ⟨rfl, h1, h2, rfl, rfl, rfl⟩ := hu
    rw [slicesInfo] at hi
    have hv : AllIn m (slicesStd r.value) := fun t ht => hi t (by simp [ht])
    have hs : AllIn m (slicesStd r.scheme) := fun t ht => hi t (by simp [ht])
    obtain ⟨m1, v, b1, b2⟩ := constructStd_complete u fuel m r.value h1 (by omega) hv
    obtain ⟨-, b3⟩ := (construct_sound fuel).1 _ _ _ _ hv b1
    obtain ⟨x1, rfl⟩ := b3.ext
    have h2' : Reads w (viewStd (m ++ x1) r.scheme) := by
      rw [(viewStd_iff r.scheme).mpr (hs.same x1)]
      exact h2
    obtain ⟨m2, s, c1, c2⟩ := constructStd_complete w fuel _ r.scheme h2' (by omega) (hs.ext x1)
    obtain ⟨-, c3⟩ := (construct_sound fuel).1 _ _ _ _ (hs.ext x1) c1
    obtain ⟨x2, rfl⟩ := c3.ext
    refine ⟨m ++ x1 ++ x2, .record (some (.key newSKey)) (some v) (some s) r.timestamp (r.signature.map Prod.fst)
      (r.signature.map Prod.snd), ?_, ?_⟩
    · rw [constructRecS, SKeyObj.copyConstruct, hk, b1]
      simp only [addAllS, Res.bind_ok, orPanic]
      rw [c1]
      rfl
    · rw [viewRec, viewPart, viewPart, (viewVal_iff v).mpr (b3.ins.same x2), b2, c2]
      rfl
  | .record _ none _ _ _ _, _ + 1, _, _, hu, _, _, _ => by rw [ReadsRec, ReadsPart] at hu; exact hu.2.1.elim
  | .record _ (some _) none _ _ _, _ + 1, _, _, hu, _, _, _ => by rw [ReadsRec, ReadsPart, ReadsPart] at hu; exact hu.2.2.1.elim
  | .mapped _, _ + 1, _, _, hu, _, _, _ => by rw [ReadsRec] at hu; exact hu.elim
end

/-! ### CopyConstruct of values and records -/

/-- The outcome `x` of `CopyConstruct` at memory level: if it succeeds, it is seen from outside as `y`, and of the slices only those in
`old` are shared; if not, `y` is not a success either. -/
def ConstructOf {α β : Type} (m : Mem) (x : Res (Mem × α)) (view : Mem → α → β) (slices : α → List Sl) (y : Res β) (old : List Sl) : Prop :=
  (∃ m' c, x = .ok (m', c) ∧ y = .ok (view m' c) ∧ Copied m m' old (slices c)) ∨ ((∀ p, x ≠ .ok p) ∧ ∀ u, y ≠ .ok u)

theorem bind_ne_ok {α β : Type} {x : Res α} {f : α → Res β} (h : ∀ p, x ≠ .ok p) : ∀ p, (x >>= f) ≠ .ok p := by
  intro p e
  obtain ⟨a, h1, -⟩ := Res.bind_eq_ok.mp e
  exact h a h1

theorem constructStd_spec {m : Mem} {d : SStd} (hi : AllIn m (slicesStd d)) (hr : ∃ b n, decodeStd b = .ok (viewStd m d, n)) :
    ConstructOf m (constructStdS (d.buf.len + 1) m d) viewVal slicesVal (CVal.std (viewStd m d)).copyConstruct [] := by
  obtain ⟨b, n, hd⟩ := hr
  obtain ⟨rest, -, -, hw⟩ := (decodeStd_ok_iff _ _ _).mp hd
  have hl : (viewStd m d).buf.length = d.buf.len := read_length (hi _ (by simp [slicesStd]))
  by_cases he : ∃ u, Reads u (viewStd m d)
  · obtain ⟨u, hu⟩ := he
    have := reads_depth u _ hu hw
    obtain ⟨m', v, e1, e2⟩ := constructStd_complete u (d.buf.len + 1) m d hu (by omega) hi
    left
    refine ⟨m', v, e1, ?_, ((construct_sound _).1 _ _ _ _ hi e1).2⟩
    rw [constructStd_iff hd, e2]
    exact hu
  · right
    refine ⟨?_, ?_⟩
    · rintro ⟨m', v⟩ e
      exact he ⟨_, ((construct_sound _).1 _ _ _ _ hi e).1⟩
    · intro u e
      exact he ⟨u, (constructStd_iff hd u).mp e⟩

theorem constructMapped_spec {m : Mem} {r : SRecInfo} (hi : AllIn m (slicesInfo r)) (hr : ∃ b n, decodeRecord b = .ok (viewInfo m r, n)) :
    ConstructOf m (constructRecS (r.buf.len + 2) m r) viewRec slicesRec (CRec.mapped (viewInfo m r)).copyConstruct [] := by
  have hr' := hr
  obtain ⟨b, n, hd⟩ := hr
  have hk := List.map_eq_nil_iff.mp (C50_decoded_key_empty_partial _ _ _ hd)
  have hl : (viewInfo m r).buf.length = r.buf.len := read_length (hi _ (by simp [slicesInfo]))
  by_cases he : ∃ u, ReadsRec u (viewInfo m r)
  · obtain ⟨u, hu⟩ := he
    have := readsRec_depth u _ hu hr'
    obtain ⟨m', v, e1, e2⟩ := constructRec_complete u (r.buf.len + 2) m r hu (by omega) hi hk
    left
    refine ⟨m', v, e1, ?_, ((construct_sound _).2 _ _ _ _ hi hk e1).2⟩
    rw [constructMapped_iff hd, e2]
    exact hu
  · right
    refine ⟨?_, ?_⟩
    · rintro ⟨m', v⟩ e
      exact he ⟨_, ((construct_sound _).2 _ _ _ _ hi hk e).1⟩
    · intro u e
      exact he ⟨u, (constructMapped_iff hd u).mp e⟩

mutual
theorem buildVal_spec : ∀ (v : SVal) (m : Mem), AllIn m (slicesVal v) → realVal (viewVal m v) →
    ConstructOf m (v.copyConstruct m) viewVal slicesVal (viewVal m v).copyConstruct (reusedVal v)
  | .prim none, m, _, _ => Or.inl ⟨m, _, rfl, rfl, Copied.nil m⟩
  | .prim (some s), m, _, _ => by
    refine Or.inl ⟨_, _, rfl, ?_, Copied.fresh m _ ?_⟩
    · rw [viewVal, viewVal, CVal.copyConstruct, get_some, get_some, make_read]
    · intro t ht
      simp only [slicesVal, slicesIn, List.mem_cons, List.not_mem_nil, or_false] at ht
      rw [ht]
      exact within.refl _
  | .array l, m, h, hr => by
    rw [viewVal, realVal] at hr
    rw [SVal.copyConstruct, viewVal, CVal.copyConstruct]
    rcases buildVals_spec l m h hr with ⟨m', c, e1, e2, e3⟩ | ⟨e1, e2⟩
    · rw [e1, e2]
      exact Or.inl ⟨_, _, rfl, rfl, e3⟩
    · exact Or.inr ⟨bind_ne_ok e1, bind_ne_ok e2⟩
  | .records l, m, h, hr => by
    rw [viewVal, realVal] at hr
    rw [SVal.copyConstruct, viewVal, CVal.copyConstruct]
    rcases buildRecs_spec l m h hr with ⟨m', c, e1, e2, e3⟩ | ⟨e1, e2⟩
    · rw [e1, e2]
      exact Or.inl ⟨_, _, rfl, rfl, e3⟩
    · exact Or.inr ⟨bind_ne_ok e1, bind_ne_ok e2⟩
  | .simple c b, m, _, _ => by
    refine Or.inl ⟨_, _, rfl, ?_, Copied.fresh m _ ?_⟩
    · rw [viewVal, viewVal, CVal.copyConstruct, get_some, make_read]
    · intro t ht
      simp only [slicesVal, slicesIn, List.mem_cons, List.not_mem_nil, or_false] at ht
      rw [ht]
      exact within.refl _
  | .std d, m, h, hr => by
    rw [viewVal, realVal] at hr
    rw [viewVal]
    exact constructStd_spec h hr

theorem buildVals_spec : ∀ (l : List SVal) (m : Mem), AllIn m (slicesVals l) → realVals (viewVals m l) →
    ConstructOf m (constructValsS l m) viewVals slicesVals (constructVals (viewVals m l)) (keysVals subKeysOf l)
  | [], m, _, _ => Or.inl ⟨m, [], rfl, rfl, Copied.nil m⟩
  | v :: l, m, h, hr => by
    rw [slicesVals] at h
    rw [viewVals, realVals] at hr
    rw [constructValsS, viewVals, constructVals, keysVals]
    rcases buildVal_spec v m h.left hr.1 with ⟨m1, c, e1, e2, e3⟩ | ⟨e1, e2⟩
    · obtain ⟨x1, rfl⟩ := e3.ext
      rw [e1, e2, Res.bind_ok, Res.bind_ok]
      simp only
      have hs := (viewVals_iff l).mpr (h.right.same x1)
      rcases buildVals_spec l _ (h.right.ext x1) (by rw [hs]; exact hr.2) with ⟨m2, c2, f1, f2, f3⟩ | ⟨f1, f2⟩
      · obtain ⟨x2, rfl⟩ := f3.ext
        rw [hs] at f2
        rw [f1, f2, Res.bind_ok, Res.bind_ok]
        refine Or.inl ⟨_, _, rfl, ?_, e3.append f3⟩
        rw [viewVals, (viewVal_iff c).mpr (e3.ins.same x2)]
      · rw [hs] at f2
        exact Or.inr ⟨bind_ne_ok f1, bind_ne_ok f2⟩
    · exact Or.inr ⟨bind_ne_ok e1, bind_ne_ok e2⟩

theorem buildPart_spec : ∀ (v : Option SVal) (m : Mem), AllIn m (slicesPart v) → realPart (viewPart m v) →
    ConstructOf m (constructPartS v m) viewPart slicesPart (constructValuePart (viewPart m v)) (keysPart subKeysOf v)
  | none, m, _, _ => Or.inl ⟨m, none, rfl, rfl, Copied.nil m⟩
  | some v, m, h, hr => by
    rw [viewPart, realPart] at hr
    rw [constructPartS, viewPart, constructValuePart]
    rcases buildVal_spec v m h hr with ⟨m', c, e1, e2, e3⟩ | ⟨e1, e2⟩
    · rw [e1, e2]
      exact Or.inl ⟨_, _, rfl, rfl, e3⟩
    · exact Or.inr ⟨bind_ne_ok e1, bind_ne_ok e2⟩

theorem buildRec_spec : ∀ (r : SRec) (m : Mem), AllIn m (slicesRec r) → realRec (viewRec m r) →
    ConstructOf m (r.copyConstruct m) viewRec slicesRec (viewRec m r).copyConstruct (reusedRec r)
  | .record k v s t a b, m, h, hr => by
    rw [slicesRec] at h
    rw [viewRec, realRec] at hr
    rw [SRec.copyConstruct, viewRec, CRec.copyConstruct, reusedRec, keysRec]
    rcases constructKeyS_spec k h.left.left with ⟨k', e1, e2, e3⟩ | ⟨e1, e2⟩ | ⟨e1, e2⟩
    · rw [e1, e2, Res.bind_ok, Res.bind_ok]
      rcases buildPart_spec v m h.left.right hr.2.1 with ⟨m1, c, f1, f2, f3⟩ | ⟨f1, f2⟩
      · obtain ⟨x1, rfl⟩ := f3.ext
        rw [f1, f2, Res.bind_ok, Res.bind_ok]
        simp only
        have hs := (viewPart_iff s).mpr (h.right.same x1)
        rcases buildPart_spec s _ (h.right.ext x1) (by rw [hs]; exact hr.2.2) with ⟨m2, c2, g1, g2, g3⟩ | ⟨g1, g2⟩
        · obtain ⟨x2, rfl⟩ := g3.ext
          rw [hs] at g2
          rw [g1, g2, Res.bind_ok, Res.bind_ok]
          refine Or.inl ⟨_, _, rfl, ?_, (e3.append f3).append g3⟩
          have hk : k'.map (viewKey (m ++ x1 ++ x2)) = k'.map (viewKey m) := (viewKeyPart_iff k').mpr (fun t ht => by
            rw [List.append_assoc]
            exact e3.ins.same _ t ht)
          rw [viewRec, (viewPart_iff c).mpr (f3.ins.same x2), hk]
        · rw [hs] at g2
          exact Or.inr ⟨bind_ne_ok g1, bind_ne_ok g2⟩
      · exact Or.inr ⟨bind_ne_ok f1, bind_ne_ok f2⟩
    · rw [e1, e2]
      exact Or.inr ⟨bind_ne_ok (by simp), bind_ne_ok (by simp)⟩
    · rw [e1, e2]
      exact Or.inr ⟨bind_ne_ok (by simp), bind_ne_ok (by simp)⟩
  | .mapped r, m, h, hr => by
    rw [viewRec, realRec] at hr
    rw [viewRec]
    obtain ⟨b, n, -, hd⟩ := hr
    exact constructMapped_spec h ⟨b, n, hd⟩

theorem buildRecs_spec : ∀ (l : List SRec) (m : Mem), AllIn m (slicesRecs l) → realRecs (viewRecs m l) →
    ConstructOf m (constructRecsS l m) viewRecs slicesRecs (constructRecs (viewRecs m l)) (keysRecs subKeysOf l)
  | [], m, _, _ => Or.inl ⟨m, [], rfl, rfl, Copied.nil m⟩
  | v :: l, m, h, hr => by
    rw [slicesRecs] at h
    rw [viewRecs, realRecs] at hr
    rw [constructRecsS, viewRecs, constructRecs, keysRecs]
    rcases buildRec_spec v m h.left hr.1 with ⟨m1, c, e1, e2, e3⟩ | ⟨e1, e2⟩
    · obtain ⟨x1, rfl⟩ := e3.ext
      rw [e1, e2, Res.bind_ok, Res.bind_ok]
      simp only
      have hs := (viewRecs_iff l).mpr (h.right.same x1)
      rcases buildRecs_spec l _ (h.right.ext x1) (by rw [hs]; exact hr.2) with ⟨m2, c2, f1, f2, f3⟩ | ⟨f1, f2⟩
      · obtain ⟨x2, rfl⟩ := f3.ext
        rw [hs] at f2
        rw [f1, f2, Res.bind_ok, Res.bind_ok]
        refine Or.inl ⟨_, _, rfl, ?_, e3.append f3⟩
        rw [viewRecs, (viewRec_iff c).mpr (e3.ins.same x2)]
      · rw [hs] at f2
        exact Or.inr ⟨bind_ne_ok f1, bind_ne_ok f2⟩
    · exact Or.inr ⟨bind_ne_ok e1, bind_ne_ok e2⟩
end

end Poodle.Props
