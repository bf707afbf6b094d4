import Verif.Lemmas.ValueEnc

namespace Poodle.Props
open Poodle Spec

/-! ### C45: the result of `ValueAt` and the history of accesses -/

/-- What the caller sees of a result: the bytes and structure of the value (`none`: a nil pointer). -/
def seen (r : Heap × Res (Option Nat)) : Res (Option StdValue) :=
  match r.2 with
  | .ok none => .ok none
  | .ok (some p) =>
    match r.1[p]? with
    | some (.val d _) => .ok (some d)
    | _ => .panic
  | .err => .err
  | .panic => .panic

/-- The result of every `ValueAt` on the decoded value is the same after any history as on the fresh value. -/
def HistoryFree (h : Heap) (root : Nat) : Prop :=
  ∀ (l : List Access) (i : Nat), seen ((history h l).valueAt root i) = seen (h.valueAt root i)

/-- The full claim of C45. -/
def ValueAtIndependent : Prop := ∀ (buf : Bytes) (h : Heap) (root : Nat), allocStd [] buf = (h, .ok root) → HistoryFree h root

theorem allocStd_root {buf : Bytes} {h : Heap} {root : Nat} (ha : allocStd [] buf = (h, .ok root)) :
    ∃ d n, decodeStd buf = .ok (d, n) ∧ h = [freshVal d] ∧ root = 0 := by
  unfold allocStd at ha
  rcases hd : decodeStd buf with ⟨d, n⟩ | - | -
  · rw [hd] at ha
    simp only [List.nil_append, List.length_nil, Prod.mk.injEq, Res.ok.injEq] at ha
    exact ⟨d, n, rfl, ha.1.symm, ha.2.symm⟩
  · rw [hd] at ha; simp at ha
  · rw [hd] at ha; simp at ha

theorem allocStd_coherent {buf : Bytes} {h : Heap} {root : Nat} (ha : allocStd [] buf = (h, .ok root)) : Coherent h := by
  obtain ⟨d, n, hd, rfl, rfl⟩ := allocStd_root ha
  obtain ⟨ext, p, e1, e2, -⟩ := allocStd_spec.onOk [] _ _ _ coherent_nil hd
  rw [e1] at ha
  cases ha
  exact e2

/-- C45: an element that is well formed is returned after any history, for the decoded value and for every value inside it. -/
theorem C45_wellFormed_partial (buf : Bytes) (h : Heap) (root : Nat) (ha : allocStd [] buf = (h, .ok root)) (l : List Access)
    (id : Nat) (d : StdValue) (hid : RepV (history h l) id d) (hk : d.kind = .array) (i : Nat) (hi : i < d.size) (e : StdValue)
    (he : elemOf decodeStd d.content i = .ok e) : seen ((history h l).valueAt id i) = .ok (some e) := by
  obtain ⟨hc, -⟩ := history_coherent (allocStd_coherent ha) l
  obtain ⟨h', q, h1, h2, h3, sl, h4⟩ := valueAt_ok hc hid hk hi he
  rw [h1, seen]
  simp only
  rw [h4]

/-- C45: and it is the same object every time. -/
theorem C45_same_object_partial (buf : Bytes) (h : Heap) (root : Nat) (ha : allocStd [] buf = (h, .ok root)) (l : List Access)
    (id i p : Nat) (h' : Heap) (hp : (history h l).valueAt id i = (h', .ok (some p))) (l' : List Access) :
    (history h' l').valueAt id i = (history h' l', .ok (some p)) := by
  obtain ⟨hc, -⟩ := history_coherent (allocStd_coherent ha) l
  generalize hH : history h l = H at hc hp
  have hv := hp
  rw [Heap.valueAt] at hv
  rcases hs : H[id]? with - | o
  · rw [hs] at hv; simp at hv
  rcases o with ⟨d, sl⟩ | ⟨r, v, s⟩
  swap
  · rw [hs] at hv; simp at hv
  rw [hs] at hv
  simp only at hv
  by_cases hk : d.kind = .array
  swap
  · rw [if_pos hk] at hv; simp at hv
  rw [if_neg (by simp [hk])] at hv
  have hi : i < d.size := by
    by_contra hge
    rw [lazyAt, if_pos (by omega)] at hv
    simp at hv
  have hel : ∃ e, elemOf decodeStd d.content i = .ok e := by
    by_contra hne
    push Not at hne
    exact valueAt_malformed hc ⟨sl, hs⟩ hne _ _ hp
  obtain ⟨e, hel⟩ := hel
  obtain ⟨h'', q, h1, h2, h3, h4, h5, -⟩ := lazyAt_ok allocStd_spec hk hc hs hi hel
  rw [hv] at h1
  cases h1
  obtain ⟨sl', g1, -⟩ := h3.1 id d sl hs
  rw [slot_eq g1] at h5
  obtain ⟨-, hx⟩ := history_coherent h2 l'
  obtain ⟨sl'', g2, g3, g4⟩ := hx.1 id d sl' g1
  have g5 := g4 i _ h5 (by simp)
  rw [Heap.valueAt, g2]
  simp only
  rw [if_neg (by simp [hk]), lazyAt, if_neg (by omega), slot_eq g2, g5]

/-- Whether a history has tried to read element `f` or a later one of the decoded value. -/
def triedFrom (l : List Access) (root f size : Nat) : Prop := ∃ j, Access.value root j ∈ l ∧ f ≤ j ∧ j < size

/-- The mark in the slot of the first malformed element after a history. -/
theorem history_mark {d : StdValue} (hk : d.kind = .array) {f : Nat} (hf : f < d.size) {id : Nat}
    (hfail : ∀ x, elemOf decodeStd d.content f ≠ .ok x) (hmin : ∀ j, j < f → ∃ x, elemOf decodeStd d.content j = .ok x) :
    ∀ (l : List Access) (h : Heap) (sl : List Slot), Coherent h → h[id]? = some (.val d sl) → sl[f]? = some .empty →
      ((triedFrom l id f d.size ∧ (history h l).slot id f = some .typedNil) ∨
        (¬ triedFrom l id f d.size ∧ (history h l).slot id f = some .empty)) := by
  intro l
  induction l with
  | nil =>
    intro h sl hc e hs
    right
    exact ⟨by rintro ⟨j, hj, -⟩; simp at hj, by rw [history, List.foldl_nil, slot_eq e, hs]⟩
  | cons a l ih =>
    intro h sl hc e hs
    have hid := (List.getElem?_eq_some_iff.mp e).1
    have hcoh : Coherent (a.run h) ∧ Extends h (a.run h) := by
      cases a with
      | value id' idx => exact valueAt_coherent hc id' idx
      | record id' idx => exact recordAt_coherent hc id' idx
    obtain ⟨sl', e', hl', hkeep⟩ := hcoh.2.1 id d sl e
    have herr : elemOf decodeStd d.content f = .err := by
      rcases hx : elemOf decodeStd d.content f with y | - | -
      · exact absurd hx (hfail y)
      · rfl
      · exact absurd hx (elemOf_std_ne_panic f d.content)
    have hhist : history h (a :: l) = history (a.run h) l := rfl
    by_cases hcase : ∃ j, a = .value id j ∧ f ≤ j ∧ j < d.size
    · obtain ⟨j, rfl, hj1, hj2⟩ := hcase
      left
      refine ⟨⟨j, by simp, hj1, hj2⟩, ?_⟩
      obtain ⟨q1, -, -⟩ := lazyAt_fail allocStd_spec hk hc e hj2 hj1 hfail hmin
      obtain ⟨h', r1, r2, r3, r4⟩ := q1 hs
      have hrun : (Access.value id j).run h = h' := by
        simp only [Access.run, Heap.valueAt, e]
        rw [if_neg (by simp [hk]), r1]
      rw [hrun] at e' hhist hcoh
      rw [herr, markOf] at r4
      rw [slot_eq e'] at r4
      obtain ⟨sl'', e'', -, hk''⟩ := (history_coherent r2 l).2.1 id d sl' e'
      rw [hhist, slot_eq e'']
      exact hk'' f _ r4 (by simp)
    · have hempty : sl'[f]? = some .empty := by
        cases a with
        | record id' idx =>
          by_cases hh : id' = id
          · subst hh
            have : (Access.record id' idx).run h = h := by
              simp only [Access.run, Heap.recordAt, e]
              rw [if_pos (by simp [hk])]
            rw [this, e] at e'
            cases e'; exact hs
          · have : ((Access.record id' idx).run h)[id]? = h[id]? := recordAt_other hh idx hid
            rw [this, e] at e'
            cases e'; exact hs
        | value id' idx =>
          by_cases hh : id' = id
          · subst hh
            rcases Nat.lt_or_ge idx f with hlt | hge
            · obtain ⟨x, hx⟩ := hmin idx hlt
              obtain ⟨h', q, r1, r2, r3, r4, r5, r6⟩ := lazyAt_ok allocStd_spec hk hc e (by omega) hx
              have hrun : (Access.value id' idx).run h = h' := by
                simp only [Access.run, Heap.valueAt, e]
                rw [if_neg (by simp [hk]), r1]
              have := r6 f hlt hs
              rw [hrun] at e'
              rwa [slot_eq e'] at this
            · have hbig : d.size ≤ idx := by
                by_contra hlt
                exact hcase ⟨idx, rfl, hge, by omega⟩
              have : (Access.value id' idx).run h = h := by
                simp only [Access.run]
                rw [valueAt_range ⟨sl, e⟩ (Or.inr hbig)]
              rw [this, e] at e'
              cases e'; exact hs
          · have : ((Access.value id' idx).run h)[id]? = h[id]? := valueAt_other hh idx hid
            rw [this, e] at e'
            cases e'; exact hs
      have hiff : triedFrom (a :: l) id f d.size ↔ triedFrom l id f d.size := by
        constructor
        · rintro ⟨j, hj, h1, h2⟩
          rcases List.mem_cons.mp hj with hj | hj
          · exact absurd ⟨j, hj.symm, h1, h2⟩ hcase
          · exact ⟨j, hj, h1, h2⟩
        · rintro ⟨j, hj, h1, h2⟩
          exact ⟨j, by simp [hj], h1, h2⟩
      rw [hiff, hhist]
      exact ih _ sl' hcoh.1 e' hempty

theorem fresh_slot (d : StdValue) (hk : d.kind = .array) {f : Nat} (hf : f < d.size) :
    ∃ sl, freshVal d = .val d sl ∧ sl[f]? = some .empty := by
  refine ⟨_, rfl, ?_⟩
  rw [if_neg (by simp [hk])]
  simp [hf]

/-- C45, malformed elements: let `f` be the first malformed element of the decoded array.  Reading it or a later one is an error the
first time; after that reading `f` gives a nil pointer without an error, and reading a later one panics. -/
theorem C45_malformed_partial (buf : Bytes) (h : Heap) (root : Nat) (ha : allocStd [] buf = (h, .ok root)) (d : StdValue)
    (hd : RepV h root d) (hk : d.kind = .array) (f : Nat) (hf : f < d.size) (hfail : ∀ x, elemOf decodeStd d.content f ≠ .ok x)
    (hmin : ∀ j, j < f → ∃ x, elemOf decodeStd d.content j = .ok x) (l : List Access) (i : Nat) (hi : f ≤ i) (hi' : i < d.size) :
    (¬ triedFrom l root f d.size → seen ((history h l).valueAt root i) = .err) ∧
    (triedFrom l root f d.size → seen ((history h l).valueAt root i) = if i = f then .ok none else .panic) := by
  have hc := allocStd_coherent ha
  obtain ⟨d', n, hdec, rfl, rfl⟩ := allocStd_root ha
  obtain ⟨sl0, hsl⟩ := hd
  simp only [List.getElem?_cons_zero, Option.some.injEq] at hsl
  have hdd : d' = d := by
    rw [freshVal] at hsl
    cases hsl; rfl
  subst hdd
  obtain ⟨sl, e1, e2⟩ := fresh_slot d' hk hf
  have e0 : ([freshVal d'] : Heap)[0]? = some (.val d' sl) := by rw [e1]; rfl
  obtain ⟨hc', hx⟩ := history_coherent hc l
  obtain ⟨sl', g1, g2, g3⟩ := hx.1 0 d' sl e0
  have hm := history_mark hk hf hfail hmin l _ sl hc e0 e2
  rw [slot_eq g1] at hm
  obtain ⟨q1, q2, -⟩ := lazyAt_fail allocStd_spec hk hc' g1 hi' hi hfail hmin
  have hva : (history [freshVal d'] l).valueAt 0 i = lazyAt allocStd (history [freshVal d'] l) 0 d' i := by
    rw [Heap.valueAt, g1]
    simp only
    rw [if_neg (by simp [hk])]
  rw [hva]
  constructor
  · intro hn
    rcases hm with ⟨h1, -⟩ | ⟨-, h1⟩
    · exact absurd h1 hn
    · obtain ⟨h', r1, r2, r3, r4⟩ := q1 h1
      rw [r1]
      rcases hx : elemOf decodeStd d'.content f with y | - | -
      · exact absurd hx (hfail y)
      · rfl
      · exact absurd hx (elemOf_std_ne_panic f d'.content)
  · intro hy
    rcases hm with ⟨-, h1⟩ | ⟨h1, -⟩
    · rw [q2 h1]
      by_cases hif : i = f
      · rw [if_pos hif, if_pos hif]; rfl
      · rw [if_neg hif, if_neg hif]; rfl
    · exact absurd hy h1

example : ∃ h root d, allocStd [] [0x41, 3, 2, 0x00, 0xff] = (h, .ok root) ∧ RepV h root d ∧ d.kind = .array ∧ 1 < d.size ∧
    (∀ x, elemOf decodeStd d.content 1 ≠ .ok x) ∧ ∀ j, j < 1 → ∃ x, elemOf decodeStd d.content j = .ok x := by
  refine ⟨_, 0, ⟨[0x41, 3, 2, 0x00, 0xff], .array, 3, [0x00, 0xff]⟩, rfl, ⟨_, rfl⟩, rfl, by decide, ?_, ?_⟩
  · have : elemOf decodeStd [0x00, 0xff] 1 = .err := by decide +kernel
    intro x; simp only; rw [this]; simp
  · intro j hj
    obtain rfl : j = 0 := by omega
    exact ⟨⟨[0x00], .prim, 0, []⟩, by decide +kernel⟩

/-- C45: the results are independent of the history exactly when all announced elements are well formed. -/
theorem C45_independent_iff_partial (buf : Bytes) (h : Heap) (root : Nat) (ha : allocStd [] buf = (h, .ok root)) (d : StdValue)
    (hd : RepV h root d) :
    HistoryFree h root ↔ (d.kind = .array → ∀ i, i < d.size → ∃ e, elemOf decodeStd d.content i = .ok e) := by
  constructor
  · intro hf hk i hi
    by_contra hne
    push Not at hne
    obtain ⟨f, hfi, h1, h2⟩ := exists_first_fail hne
    have hfs : f < d.size := by omega
    have q1 := (C45_malformed_partial buf h root ha d hd hk f hfs h1 h2 [] f (Nat.le_refl _) hfs).1 (by
      rintro ⟨j, hj, -⟩; simp at hj)
    have q2 := (C45_malformed_partial buf h root ha d hd hk f hfs h1 h2 [.value root f] f (Nat.le_refl _) hfs).2
      ⟨f, by simp, Nat.le_refl _, hfs⟩
    have q3 := hf [.value root f] f
    rw [q2, if_pos rfl] at q3
    have q4 : seen (h.valueAt root f) = .err := q1
    rw [q4] at q3
    exact absurd q3 (by simp)
  · intro hall l i
    obtain ⟨-, hx⟩ := history_coherent (allocStd_coherent ha) l
    have hd' := hd.mono hx
    by_cases hr : d.kind ≠ .array ∨ d.size ≤ i
    · rw [valueAt_range hd hr, valueAt_range hd' hr]; rfl
    · push Not at hr
      obtain ⟨e, he⟩ := hall hr.1 i hr.2
      rw [C45_wellFormed_partial buf h root ha l root d hd' hr.1 i hr.2 e he]
      exact (C45_wellFormed_partial buf h root ha [] root d hd hr.1 i hr.2 e he).symm

/-- An array with one empty element. -/
example := C45_independent_iff_partial [0x41, 1, 1, 0x00] _ 0 rfl ⟨[0x41, 1, 1, 0x00], .array, 1, [0x00]⟩ ⟨_, rfl⟩

/-- C45 as stated does not hold: a malformed element is an error once and a nil pointer afterwards. -/
theorem C45_refuted : ¬ ValueAtIndependent := by
  intro hall
  have := (C45_independent_iff_partial [0x41, 1, 1, 0xff] _ 0 rfl ⟨[0x41, 1, 1, 0xff], .array, 1, [0xff]⟩ ⟨_, rfl⟩).mp
    (hall [0x41, 1, 1, 0xff] _ 0 rfl) rfl 0 (by decide)
  obtain ⟨e, he⟩ := this
  have h2 : elemOf decodeStd [0xff] 0 = .err := by decide +kernel
  simp only at he
  rw [h2] at he
  exact absurd he (by simp)

/-! ### C47: copying -/

mutual
/-- The value that comes back: an empty array and an empty list of records are written like an empty primitive. -/
def canonVal : CVal → CVal
  | .array [] => .prim (some [])
  | .records [] => .prim (some [])
  | .array (v :: l) => .array (canonVal v :: canonVals l)
  | v => v

/-- All of them. -/
def canonVals : List CVal → List CVal
  | [] => []
  | v :: l => canonVal v :: canonVals l
end

mutual
/-- The nesting depth. -/
def depthVal : CVal → Nat
  | .array es => depthVals es + 1
  | _ => 0

/-- The largest nesting depth. -/
def depthVals : List CVal → Nat
  | [] => 0
  | v :: l => max (depthVal v) (depthVals l)
end

theorem canonVals_length : ∀ es : List CVal, (canonVals es).length = es.length
  | [] => rfl
  | _ :: l => by rw [canonVals, List.length_cons, List.length_cons, canonVals_length l]

mutual
theorem canonVal_encode : ∀ v : CVal, (canonVal v).encode = v.encode
  | .array [] => rfl
  | .array (v :: l) => by
    rw [canonVal, CVal.encode, CVal.encode, encodeVals, encodeVals, canonVal_encode v, canonVals_encode l]
    rw [List.length_cons, List.length_cons, canonVals_length]
  | .prim _ => rfl
  | .records [] => rfl
  | .records (_ :: _) => rfl
  | .simple _ _ => rfl
  | .std _ => rfl

theorem canonVals_encode : ∀ es : List CVal, encodeVals (canonVals es) = encodeVals es
  | [] => rfl
  | v :: l => by rw [canonVals, encodeVals, encodeVals, canonVal_encode v, canonVals_encode l]
end

mutual
/-- `CopyConstruct` rebuilds the value, in any state of the caches. -/
theorem copyVal_spec : ∀ (v : CVal) (d : StdValue) (fuel : Nat) (h : Heap) (id : Nat), isPlain v = true → noNil v = true →
    WireOf v d → depthVal v < fuel → Coherent h → RepV h id d →
    ∃ h', copyVal fuel h id = (h', .ok (canonVal v)) ∧ Coherent h' ∧ Extends h h'
  | _, _, 0, _, _, _, _, _, hf, _, _ => absurd hf (Nat.not_lt_zero _)
  | .prim s, d, fuel + 1, h, id, _, _, hw, _, hc, hr => by
    obtain ⟨sl, hs⟩ := hr
    refine ⟨h, ?_, hc, Extends.refl h⟩
    rw [copyVal, hs]
    simp only [hw.2.1]
    rw [hw.2.2.2]; rfl
  | .array [], d, fuel + 1, h, id, _, _, hw, _, hc, hr => by
    obtain ⟨sl, hs⟩ := hr
    refine ⟨h, ?_, hc, Extends.refl h⟩
    rcases hw.2.2 with ⟨-, hk, hcont⟩ | ⟨hne, -⟩
    · rw [copyVal, hs]
      simp only [hk, hcont]
      rfl
    · exact absurd rfl hne
  | .array (v :: l), d, fuel + 1, h, id, hp, hn, hw, hf, hc, hr => by
    rcases hw.2.2 with ⟨hne, -⟩ | ⟨-, hk, hcont⟩
    · exact absurd hne (by simp)
    have hsl := hr
    obtain ⟨sl, hs⟩ := hsl
    rw [isPlain] at hp
    rw [noNil] at hn
    rw [depthVal] at hf
    obtain ⟨h', h1, h2, h3⟩ := copyVals_spec (v :: l) [] (v :: l) d fuel h id rfl hp hn hk hw.2.1 hcont (by omega) hc hr
    refine ⟨h', ?_, h2, h3⟩
    rw [copyVal, hs]
    simp only [hk]
    rw [hw.2.1]
    simp only [List.length_nil] at h1
    rw [h1]
    rfl
  | .records _, _, _ + 1, _, _, hp, _, _, _, _, _ => by simp [isPlain] at hp
  | .simple _ _, _, _ + 1, _, _, hp, _, _, _, _, _ => by simp [isPlain] at hp
  | .std _, _, _ + 1, _, _, hp, _, _, _, _, _ => by simp [isPlain] at hp

/-- The loop over the elements `suf` that follow `pre`. -/
theorem copyVals_spec : ∀ (suf pre es : List CVal) (d : StdValue) (fuel : Nat) (h : Heap) (id : Nat), es = pre ++ suf →
    allPlain suf = true → allNoNil es = true → d.kind = .array → d.size = es.length → encodeVals es = .ok d.content →
    depthVals suf < fuel → Coherent h → RepV h id d →
    ∃ h', copyLoop Heap.valueAt (copyVal fuel) id suf.length pre.length h = (h', .ok (canonVals suf)) ∧ Coherent h' ∧ Extends h h'
  | [], pre, es, d, fuel, h, id, _, _, _, _, _, _, _, hc, _ => ⟨h, rfl, hc, Extends.refl h⟩
  | v :: l, pre, es, d, fuel, h, id, he, hp, hn, hk, hsz, hcont, hf, hc, hr => by
    rw [allPlain, Bool.and_eq_true] at hp
    rw [depthVals] at hf
    have hget : es[pre.length]? = some v := by rw [he]; simp
    obtain ⟨d', q1, q2, q3⟩ := elemOf_encodeVals hcont (fun e hm => by
      rintro rfl
      have := allNoNil_mem hn _ hm
      simp [noNil] at this) pre.length v hget
    obtain ⟨h1, p, r1, r2, r3, r4⟩ := valueAt_ok hc hr hk (by rw [hsz]; exact (List.getElem?_eq_some_iff.mp hget).1) q1
    obtain ⟨h2, s1, s2, s3⟩ := copyVal_spec v d' fuel h1 p hp.1 (allNoNil_mem hn v (List.mem_of_getElem? hget)) q2 (by omega) r2 r4
    obtain ⟨h3, t1, t2, t3⟩ := copyVals_spec l (pre ++ [v]) es d fuel h2 id (by rw [he]; simp) hp.2 hn hk hsz hcont (by omega) s2
      ((hr.mono r3).mono s3)
    refine ⟨h3, ?_, t2, (r3.trans s3).trans t3⟩
    rw [List.length_cons, copyLoop, r1]
    simp only
    rw [s1]
    simp only
    rw [show pre.length + 1 = (pre ++ [v]).length by simp, t1]
    rfl
end

/-- C47: for a value built from primitives and arrays that round trips, `CopyConstruct` of the decoded value, after any accesses,
succeeds, and the copy is encoded to the same bytes. -/
theorem C47_copy_partial (v : CVal) (w : Bytes) (hp : isPlain v = true) (he : v.encode = .ok w) (hr : RoundTrips v w) (rest : Bytes) :
    ∃ h root, allocStd [] (w ++ rest) = (h, .ok root) ∧ ∀ (l : List Access) (fuel : Nat), depthVal v < fuel →
      ∃ h' v', copyVal fuel (history h l) root = (h', .ok v') ∧ v'.encode = .ok w := by
  have hn := noNil_of_roundTrips he hr
  rcases encode_wire he with ⟨rfl, rfl⟩ | ⟨d, rfl, hd⟩
  · simp [noNil] at hn
  have hdec := decodeStd_of_wire (rest := rest) hd.1
  obtain ⟨ext, p', e1, e2, e3⟩ := allocStd_spec.onOk [] _ _ _ coherent_nil hdec
  refine ⟨_, p', e1, ?_⟩
  intro l fuel hf
  obtain ⟨c1, c2⟩ := history_coherent e2 l
  obtain ⟨h', q1, -, -⟩ := copyVal_spec v d fuel _ p' hp hn hd hf c1 (e3.mono c2)
  exact ⟨h', canonVal v, q1, by rw [canonVal_encode]; exact he⟩

/-- What C47 says of every constructed value: when it round trips, the decoded value is copied, and the copy is encoded to the same
bytes. -/
def CopyEncodesSame : Prop := ∀ (v : CVal) (w : Bytes), v.encode = .ok w → RoundTrips v w → ∀ rest : Bytes,
  ∃ h root, allocStd [] (w ++ rest) = (h, .ok root) ∧ ∀ l : List Access, ∃ d, ∀ fuel, d < fuel →
    ∃ h' v', copyVal fuel (history h l) root = (h', .ok v') ∧ v'.encode = .ok w

/-- Every list of records that is encoded round trips as a value: its size shows, and it has no elements by index path. -/
theorem records_roundTrip {rs : List CRec} {w : Bytes} (he : (CVal.records rs).encode = .ok w) (hl : rs.length < 65536) :
    RoundTrips (.records rs) w := by
  intro rest
  rcases encode_wire he with ⟨h, -⟩ | ⟨d, rfl, hd⟩
  · cases h
  have hdec := decodeStd_of_wire (rest := rest) hd.1
  obtain ⟨ext, p', e1, e2, e3⟩ := allocStd_spec.onOk [] _ _ _ coherent_nil hdec
  refine ⟨_, p', e1, ?_⟩
  intro l p
  obtain ⟨c1, c2⟩ := history_coherent e2 l
  obtain ⟨sl, hs⟩ := e3.mono c2
  have hsz : d.size = rs.length := hd.2.1
  have hk : d.kind ≠ .array := by rcases hd.2.2 with ⟨-, h, -⟩ | ⟨-, h, -⟩ <;> rw [h] <;> decide
  have hb : d.value.bytes = [] := by
    rcases hd.2.2 with ⟨-, h, h'⟩ | ⟨-, h, -⟩
    · simp [StdValue.value, h, h', Slice.bytes]
    · simp [StdValue.value, h, Slice.bytes]
  cases p with
  | nil =>
    refine ⟨fun u hu => ?_, fun h => by simp [pathAt] at h⟩
    simp only [pathAt, Option.some.injEq] at hu
    subst hu
    exact ⟨_, p', rfl, d, sl, hs, by rw [hsz, CVal.size, Nat.mod_eq_of_lt hl], by rw [hb]; rfl⟩
  | cons i p =>
    refine ⟨fun u hu => by simp [pathAt] at hu, fun _ => ?_⟩
    simp only [walk, Heap.valueAt, hs, ne_eq, hk, not_false_eq_true, if_true]

/-- C47 does not hold of lists of records: a record without a key is encoded, and the list shows the same after decoding, but it cannot be
copied: decoding the record panics. -/
theorem C47_refuted : ¬ CopyEncodesSame := by
  intro h
  have he : (CVal.records [.record none (some (.prim (some [7]))) none none none none]).encode = .ok [17, 1, 4, 32, 1, 1, 7] := by
    decide +kernel
  obtain ⟨h, root, h1, h2⟩ := h _ _ he (records_roundTrip he (by decide)) []
  have ha : allocStd [] ([17, 1, 4, 32, 1, 1, 7] ++ []) = ([freshVal ⟨[17, 1, 4, 32, 1, 1, 7], .records, 1, [32, 1, 1, 7]⟩], .ok 0) := by
    decide +kernel
  rw [ha] at h1
  cases h1
  obtain ⟨d, hd⟩ := h2 []
  obtain ⟨h', v', hc, -⟩ := hd (d + 1) (Nat.lt_succ_self d)
  have hr : (Heap.recordAt (history [freshVal ⟨[17, 1, 4, 32, 1, 1, 7], .records, 1, [32, 1, 1, 7]⟩] []) 0 0).2 = .panic := by
    decide +kernel
  have hg : (history [freshVal ⟨[17, 1, 4, 32, 1, 1, 7], .records, 1, [32, 1, 1, 7]⟩] [])[0]? =
      some (freshVal ⟨[17, 1, 4, 32, 1, 1, 7], .records, 1, [32, 1, 1, 7]⟩) := rfl
  rw [copyVal, hg] at hc
  simp only [freshVal, copyLoop] at hc hr
  generalize Heap.recordAt (history _ []) 0 0 = x at hc hr
  obtain ⟨x1, x2⟩ := x
  cases hr
  simp at hc

example : isPlain (.array [.prim (some [0x61]), .array []]) = true ∧
    (CVal.array [.prim (some [0x61]), .array []]).encode = .ok [0x41, 2, 4, 0x01, 1, 0x61, 0x00] ∧
    noNil (.array [.prim (some [0x61]), .array []]) = true ∧ depthVal (.array [.prim (some [0x61]), .array []]) = 2 := by
  decide +kernel

example := C45_wellFormed_partial [0x41, 3, 2, 0x00, 0xff] _ 0 rfl [.value 0 2] 0 ⟨[0x41, 3, 2, 0x00, 0xff], .array, 3, [0x00, 0xff]⟩ ⟨_, rfl⟩ rfl
  0 (by decide) ⟨[0x00], .prim, 0, []⟩ (by decide +kernel)

example := C45_same_object_partial [0x41, 3, 2, 0x00, 0xff] _ 0 rfl [.value 0 2] 0 0 1 _ (Prod.ext rfl (by decide +kernel)) [.value 0 1, .value 0 0]

end Poodle.Props
