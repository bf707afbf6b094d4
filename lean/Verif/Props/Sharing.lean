import Verif.Lemmas.SharingCopy
import Verif.Props.Key

/-
C124 to C127: which bytes copies, encoded keys and decoded objects share with others.
-/

namespace Poodle.Props
open Poodle Poodle.Spec

/-! ### Consequences of a copy -/

theorem byteAt_append {m : Mem} {a : Nat} (h : a < m.length) (e : Mem) (i : Nat) : byteAt (m ++ e) a i = byteAt m a i := by
  rw [byteAt, byteAt, List.getElem?_append_left h]

theorem Copied.forth {m m' : Mem} {old new : List Sl} (h : Copied m m' old new) {a i : Nat} {b : UInt8} (ha : a < m.length) :
    (∀ t ∈ new, (m'.write a i b).read t = m'.read t) ↔ ∀ s ∈ old, covers s a i → byteAt m a i = some b := by
  obtain ⟨e, rfl⟩ := h.ext
  constructor
  · intro H s hs hc
    have := (read_write (h.ins s (h.keeps s hs)) a i b).mp (H s (h.keeps s hs)) hc
    rwa [byteAt_append ha] at this
  · intro H t ht
    refine (read_write (h.ins t ht) a i b).mpr (fun hc => ?_)
    rw [byteAt_append ha]
    rcases h.origin t ht with h1 | ⟨k, hk, hw⟩
    · have := hc.1
      omega
    · exact H k hk (hw.covers hc)

theorem Copied.back {m m' : Mem} {old new orig : List Sl} (h : Copied m m' old new) (hs : ∀ s ∈ old, s ∈ orig) (ho : AllIn m orig) {a i : Nat}
    {b : UInt8} (hc : ∃ t ∈ new, covers t a i) :
    (∀ t ∈ orig, (m'.write a i b).read t = m'.read t) ↔ (a < m.length → byteAt m a i = some b) := by
  obtain ⟨e, rfl⟩ := h.ext
  obtain ⟨t, ht, hc⟩ := hc
  constructor
  · intro H ha
    rcases h.origin t ht with h1 | ⟨k, hk, hw⟩
    · have := hc.1
      omega
    · have := (read_write (inside_append (ho k (hs k hk)) e) a i b).mp (H k (hs k hk)) (hw.covers hc)
      rwa [byteAt_append ha] at this
  · intro H s hso
    refine (read_write (inside_append (ho s hso) e) a i b).mpr (fun hcs => ?_)
    have ha : a < m.length := by
      rw [← hcs.1]
      exact inside_lt (ho s hso)
    rw [byteAt_append ha]
    exact H ha

/-- Writes to arrays of the memory before do not reach slices that are all new. -/
theorem Copied.apart {m m' : Mem} {new : List Sl} (h : Copied m m' [] new) {ws : List (Nat × Nat × UInt8)} (hw : ∀ w ∈ ws, w.1 < m.length) :
    ∀ t ∈ new, (writes m' ws).read t = m'.read t := by
  intro t ht
  refine read_writes ws (h.ins t ht) (fun w hws hc => ?_)
  rcases h.origin t ht with h1 | ⟨k, hk, -⟩
  · have := hc.1
    have := hw w hws
    omega
  · simp at hk

/-- Writes to slices that are all new do not reach slices that were there before. -/
theorem Copied.others {m m' : Mem} {new orig : List Sl} (h : Copied m m' [] new) (ho : AllIn m orig) {ws : List (Nat × Nat × UInt8)}
    (hw : ∀ w ∈ ws, ∃ t ∈ new, covers t w.1 w.2.1) : ∀ s ∈ orig, (writes m' ws).read s = m.read s := by
  intro s hs
  obtain ⟨e, rfl⟩ := h.ext
  rw [read_writes ws (inside_append (ho s hs) e), read_append (ho s hs)]
  intro w hws hc
  obtain ⟨t, ht, hct⟩ := hw w hws
  have := inside_lt (ho s hs)
  rcases h.origin t ht with h1 | ⟨k, hk, -⟩
  · have := hc.1
    have := hct.1
    omega
  · simp at hk

theorem keptKey_sub : ∀ k : SKeyObj, ∀ s ∈ keptKey k, s ∈ slicesKey k
  | .empty, _, h => by simp [keptKey] at h
  | .mapped k, s, h => by
    rw [keptKey] at h
    rw [List.mem_singleton.mp h, slicesKey, slicesMapped]
    simp
  | .key k, s, h => by
    rw [slicesKey]
    exact List.mem_append_left _ h

theorem subKeysOf_sub : ∀ k : SKeyObj, ∀ s ∈ subKeysOf k, s ∈ slicesKey k
  | .empty, _, h => by simp [subKeysOf] at h
  | .mapped k, s, h => by
    rw [slicesKey, slicesMapped]
    exact List.mem_append_left _ h
  | .key k, s, h => by
    rw [slicesKey]
    exact List.mem_append_left _ h

mutual
theorem keysVal_sub {f : SKeyObj → List Sl} (hf : ∀ k, ∀ s ∈ f k, s ∈ slicesKey k) : ∀ (v : SVal), ∀ s ∈ keysVal f v, s ∈ slicesVal v
  | .prim _, _, h => by simp [keysVal] at h
  | .array l, s, h => by
    rw [keysVal] at h
    exact keysVals_sub hf l s h
  | .records l, s, h => by
    rw [keysVal] at h
    exact keysRecs_sub hf l s h
  | .simple _ _, _, h => by simp [keysVal] at h
  | .std _, _, h => by simp [keysVal] at h

theorem keysVals_sub {f : SKeyObj → List Sl} (hf : ∀ k, ∀ s ∈ f k, s ∈ slicesKey k) : ∀ (l : List SVal), ∀ s ∈ keysVals f l, s ∈ slicesVals l
  | [], _, h => by simp [keysVals] at h
  | v :: l, s, h => by
    rw [keysVals] at h
    rw [slicesVals]
    rcases List.mem_append.mp h with h | h
    · exact List.mem_append_left _ (keysVal_sub hf v s h)
    · exact List.mem_append_right _ (keysVals_sub hf l s h)

theorem keysPart_sub {f : SKeyObj → List Sl} (hf : ∀ k, ∀ s ∈ f k, s ∈ slicesKey k) : ∀ (v : Option SVal), ∀ s ∈ keysPart f v, s ∈ slicesPart v
  | none, _, h => by simp [keysPart] at h
  | some v, s, h => by
    rw [keysPart] at h
    rw [slicesPart]
    exact keysVal_sub hf v s h

theorem keysRec_sub {f : SKeyObj → List Sl} (hf : ∀ k, ∀ s ∈ f k, s ∈ slicesKey k) : ∀ (r : SRec), ∀ s ∈ keysRec f r, s ∈ slicesRec r
  | .record k v s _ _ _, t, h => by
    rw [keysRec] at h
    rw [slicesRec]
    rcases List.mem_append.mp h with h | h
    · rcases List.mem_append.mp h with h | h
      · refine List.mem_append_left _ (List.mem_append_left _ ?_)
        cases k with
        | none => simp at h
        | some k => exact hf k t h
      · exact List.mem_append_left _ (List.mem_append_right _ (keysPart_sub hf v t h))
    · exact List.mem_append_right _ (keysPart_sub hf s t h)
  | .mapped _, _, h => by simp [keysRec] at h

theorem keysRecs_sub {f : SKeyObj → List Sl} (hf : ∀ k, ∀ s ∈ f k, s ∈ slicesKey k) : ∀ (l : List SRec), ∀ s ∈ keysRecs f l, s ∈ slicesRecs l
  | [], _, h => by simp [keysRecs] at h
  | v :: l, s, h => by
    rw [keysRecs] at h
    rw [slicesRecs]
    rcases List.mem_append.mp h with h | h
    · exact List.mem_append_left _ (keysRec_sub hf v s h)
    · exact List.mem_append_right _ (keysRecs_sub hf l s h)
end

/-! ### C124 Copies of values own their bytes -/

/-- C124, `Copy`: the copy of a value without constructed keys shows what copying the shown value gives, with the same outcome.  No
assignments to bytes that existed before change what the copy shows, and no assignments to bytes of the copy change what any value shows
that existed before, the original included. -/
theorem C124_copy (v : SVal) (m : Mem) (hi : AllIn m (slicesVal v)) (hk : keptVal v = []) :
    ((∃ m' c, v.copy m = .ok (m', c) ∧ (viewVal m v).copy = .ok (viewVal m' c)) ∨ (v.copy m = .err ∧ (viewVal m v).copy = .err) ∨
      (v.copy m = .panic ∧ (viewVal m v).copy = .panic)) ∧
    ∀ m' c, v.copy m = .ok (m', c) →
      (∀ ws, (∀ w ∈ ws, w.1 < m.length) → viewVal (writes m' ws) c = viewVal m' c) ∧
      (∀ ws o, AllIn m (slicesVal o) → (∀ w ∈ ws, ∃ t ∈ slicesVal c, covers t w.1 w.2.1) → viewVal (writes m' ws) o = viewVal m o) := by
  have h := dupVal_spec v m hi
  rw [hk] at h
  refine ⟨?_, fun m' c e => ⟨fun ws hw => ?_, fun ws o ho hw => ?_⟩⟩
  · rcases h.cases with ⟨m', c, e1, e2, -⟩ | h | h
    · exact Or.inl ⟨m', c, e1, e2⟩
    · exact Or.inr (Or.inl h)
    · exact Or.inr (Or.inr h)
  · exact (viewVal_iff c).mpr ((h.2 m' c e).apart hw)
  · exact (viewVal_iff o).mpr ((h.2 m' c e).others ho hw)

/-- C124, `CopyConstruct`: the same, for values whose decoded parts come from decoding. -/
theorem C124_copyConstruct (v : SVal) (m : Mem) (hi : AllIn m (slicesVal v)) (hr : realVal (viewVal m v)) (hk : reusedVal v = []) :
    (∀ u, (viewVal m v).copyConstruct = .ok u ↔ ∃ m' c, v.copyConstruct m = .ok (m', c) ∧ viewVal m' c = u) ∧
    ∀ m' c, v.copyConstruct m = .ok (m', c) →
      (∀ ws, (∀ w ∈ ws, w.1 < m.length) → viewVal (writes m' ws) c = viewVal m' c) ∧
      (∀ ws o, AllIn m (slicesVal o) → (∀ w ∈ ws, ∃ t ∈ slicesVal c, covers t w.1 w.2.1) → viewVal (writes m' ws) o = viewVal m o) := by
  have h := buildVal_spec v m hi hr
  rw [hk] at h
  rcases h with ⟨m1, c1, e1, e2, e3⟩ | ⟨e1, e2⟩
  · refine ⟨fun u => ?_, fun m' c e => ?_⟩
    · rw [e1, e2]
      simp [eq_comm]
    · rw [e1] at e
      simp only [Res.ok.injEq, Prod.mk.injEq] at e
      obtain ⟨rfl, rfl⟩ := e
      exact ⟨fun ws hw => (viewVal_iff _).mpr (e3.apart hw), fun ws o ho hw => (viewVal_iff o).mpr (e3.others ho hw)⟩
  · refine ⟨fun u => ⟨fun h => absurd h (e2 u), ?_⟩, fun m' c e => absurd e (e1 _)⟩
    rintro ⟨m', c, h, -⟩
    exact absurd h (e1 _)

/-- An array of a primitive and a value decoded from a buffer with bytes around it. -/
def exC124 : SVal := .array [.prim (some ⟨0, 1, 2⟩), .std { buf := ⟨1, 1, 3⟩, kind := .prim, size := 0, content := ⟨1, 3, 1⟩ }]

def exC124m : Mem := [[9, 1, 2, 9], [9, 0x01, 1, 0x61, 9]]

theorem exC124_fits : AllIn exC124m (slicesVal exC124) ∧ keptVal exC124 = [] ∧ reusedVal exC124 = [] ∧ realVal (viewVal exC124m exC124) := by
  refine ⟨?_, by simp [exC124, keptVal, keysVal, keysVals], by simp [exC124, reusedVal, keysVal, keysVals], ?_⟩
  · intro s hs
    simp only [exC124, slicesVal, slicesVals, slicesIn, slicesStd, List.append_nil, List.mem_append, List.mem_cons, List.not_mem_nil,
      or_false] at hs
    rcases hs with rfl | rfl | rfl
    · exact ⟨_, rfl, by decide⟩
    · exact ⟨_, rfl, by decide⟩
    · exact ⟨_, rfl, by decide⟩
  · simp only [exC124, viewVal, viewVals, realVal, realVals]
    exact ⟨trivial, ⟨[0x01, 1, 0x61], 3, by decide +kernel⟩, trivial⟩

/-! ### C125 Copies of keys, records and schemes -/

/-- C125, the claim: nothing assigned to bytes that existed before changes what the copy of a key shows. -/
def KeyCopyOwnsBytes : Prop := ∀ (k c : SKeyObj) (m : Mem), AllIn m (slicesKey k) → k.copy m = .ok c →
  ∀ (a i : Nat) (b : UInt8), viewKey (m.write a i b) c = viewKey m c

/-- C125 is false, for a key with one sub key. -/
theorem C125_refuted : ¬ KeyCopyOwnsBytes := by
  intro H
  have := H (.key { encoded := false, keys := [some ⟨0, 0, 1⟩], buf := none, estBufSize := 3 })
    (.key { encoded := false, keys := [some ⟨0, 0, 1⟩], buf := none, estBufSize := 3 }) [[1]]
    (by
      intro s hs
      simp only [slicesKey, slicesIn, List.append_nil, List.mem_singleton] at hs
      subst hs
      exact ⟨_, rfl, by decide⟩) rfl 0 0 2
  revert this
  decide +kernel

/-- C125, exact, for `Copy` of keys: a byte assigned anywhere changes what the copy shows if and only if it lies in the buffer of a
decoded original, or in a sub key of a constructed one, and differs from the byte before.  A byte of the copy that is assigned changes
the original in the same way: every byte of the copy is a byte of the original. -/
theorem C125_key_partial (k c : SKeyObj) (m : Mem) (hi : AllIn m (slicesKey k)) (hc : k.copy m = .ok c) (a i : Nat) (b : UInt8) :
    (viewKey (m.write a i b) c = viewKey m c ↔ ∀ s ∈ keptKey k, covers s a i → byteAt m a i = some b) ∧
    ((∃ t ∈ slicesKey c, covers t a i) → (viewKey (m.write a i b) k = viewKey m k ↔ byteAt m a i = some b)) := by
  have h := copyKey_copied hi hc
  refine ⟨?_, fun hc => ?_⟩
  · rw [viewKey_iff]
    by_cases ha : a < m.length
    · exact h.forth ha
    · constructor
      · intro _ s hs hcov
        have := inside_lt (hi s (keptKey_sub k s hs))
        have := hcov.1
        omega
      · intro _ t ht
        refine (read_write (h.ins t ht) a i b).mpr (fun hcov => ?_)
        have := inside_lt (h.ins t ht)
        have := hcov.1
        omega
  · have ha : a < m.length := by
      obtain ⟨t, ht, hcov⟩ := hc
      rw [← hcov.1]
      exact inside_lt (h.ins t ht)
    rw [viewKey_iff, h.back (keptKey_sub k) hi hc]
    exact ⟨fun H => H ha, fun H _ => H⟩

/-- C125, exact, for `CopyConstruct` of keys: only the sub keys are shared. -/
theorem C125_keyConstruct_partial (k c : SKeyObj) (m : Mem) (hi : AllIn m (slicesKey k)) (hc : k.copyConstruct = .ok c) (a i : Nat) (b : UInt8) :
    (viewKey (m.write a i b) c = viewKey m c ↔ ∀ s ∈ subKeysOf k, covers s a i → byteAt m a i = some b) ∧
    ((∃ t ∈ slicesKey c, covers t a i) → (viewKey (m.write a i b) k = viewKey m k ↔ byteAt m a i = some b)) := by
  have h := constructKey_copied hi hc
  refine ⟨?_, fun hc => ?_⟩
  · rw [viewKey_iff]
    by_cases ha : a < m.length
    · exact h.forth ha
    · constructor
      · intro _ s hs hcov
        have := inside_lt (hi s (subKeysOf_sub k s hs))
        have := hcov.1
        omega
      · intro _ t ht
        refine (read_write (h.ins t ht) a i b).mpr (fun hcov => ?_)
        have := inside_lt (h.ins t ht)
        have := hcov.1
        omega
  · have ha : a < m.length := by
      obtain ⟨t, ht, hcov⟩ := hc
      rw [← hcov.1]
      exact inside_lt (h.ins t ht)
    rw [viewKey_iff, h.back (subKeysOf_sub k) hi hc]
    exact ⟨fun H => H ha, fun H _ => H⟩

/-- A key decoded from the middle of a buffer. -/
def exC125 : SKeyObj := .mapped { keys := [some ⟨0, 3, 1⟩], buf := ⟨0, 1, 4⟩ }

def exC125m : Mem := [[9, 1, 1, 5, 7]]

example : AllIn exC125m (slicesKey exC125) ∧ exC125.copy exC125m = .ok exC125 ∧
    exC125.copyConstruct = .ok (.key { encoded := false, keys := [some ⟨0, 3, 1⟩], buf := none, estBufSize := 3 }) := by
  refine ⟨?_, by decide +kernel, by decide +kernel⟩
  intro s hs
  simp only [exC125, slicesKey, slicesMapped, slicesIn, List.mem_append, List.mem_cons, List.not_mem_nil, or_false] at hs
  rcases hs with rfl | rfl
  · exact ⟨_, rfl, by decide⟩
  · exact ⟨_, rfl, by decide⟩

/-- C125, exact, for `Copy` of values: of what existed before, only the keys of constructed records inside are shared. -/
theorem C125_value_partial (v c : SVal) (m m' : Mem) (hi : AllIn m (slicesVal v)) (hc : v.copy m = .ok (m', c)) (a i : Nat) (b : UInt8) :
    (a < m.length → (viewVal (m'.write a i b) c = viewVal m' c ↔ ∀ s ∈ keptVal v, covers s a i → byteAt m a i = some b)) ∧
    ((∃ t ∈ slicesVal c, covers t a i) →
      (viewVal (m'.write a i b) v = viewVal m' v ↔ (a < m.length → byteAt m a i = some b))) := by
  have h := (dupVal_spec v m hi).2 m' c hc
  exact ⟨fun ha => by rw [viewVal_iff, h.forth ha], fun hc => by rw [viewVal_iff, h.back (keysVal_sub keptKey_sub v) hi hc]⟩

/-- C125, exact, for `CopyConstruct` of values. -/
theorem C125_valueConstruct_partial (v c : SVal) (m m' : Mem) (hi : AllIn m (slicesVal v)) (hr : realVal (viewVal m v))
    (hc : v.copyConstruct m = .ok (m', c)) (a i : Nat) (b : UInt8) :
    (a < m.length → (viewVal (m'.write a i b) c = viewVal m' c ↔ ∀ s ∈ reusedVal v, covers s a i → byteAt m a i = some b)) ∧
    ((∃ t ∈ slicesVal c, covers t a i) →
      (viewVal (m'.write a i b) v = viewVal m' v ↔ (a < m.length → byteAt m a i = some b))) := by
  rcases buildVal_spec v m hi hr with ⟨m1, c1, e1, -, h⟩ | ⟨e1, -⟩
  · rw [e1] at hc
    simp only [Res.ok.injEq, Prod.mk.injEq] at hc
    obtain ⟨rfl, rfl⟩ := hc
    exact ⟨fun ha => by rw [viewVal_iff, h.forth ha], fun hc => by rw [viewVal_iff, h.back (keysVal_sub subKeysOf_sub v) hi hc]⟩
  · exact absurd hc (e1 _)

/-- C125, exact, for `Copy` of records. -/
theorem C125_record_partial (r c : SRec) (m m' : Mem) (hi : AllIn m (slicesRec r)) (hc : r.copy m = .ok (m', c)) (a i : Nat) (b : UInt8) :
    (a < m.length → (viewRec (m'.write a i b) c = viewRec m' c ↔ ∀ s ∈ keptRec r, covers s a i → byteAt m a i = some b)) ∧
    ((∃ t ∈ slicesRec c, covers t a i) →
      (viewRec (m'.write a i b) r = viewRec m' r ↔ (a < m.length → byteAt m a i = some b))) := by
  have h := (dupRec_spec r m hi).2 m' c hc
  exact ⟨fun ha => by rw [viewRec_iff, h.forth ha], fun hc => by rw [viewRec_iff, h.back (keysRec_sub keptKey_sub r) hi hc]⟩

/-- C125, exact, for `CopyConstruct` of records. -/
theorem C125_recordConstruct_partial (r c : SRec) (m m' : Mem) (hi : AllIn m (slicesRec r)) (hr : realRec (viewRec m r))
    (hc : r.copyConstruct m = .ok (m', c)) (a i : Nat) (b : UInt8) :
    (a < m.length → (viewRec (m'.write a i b) c = viewRec m' c ↔ ∀ s ∈ reusedRec r, covers s a i → byteAt m a i = some b)) ∧
    ((∃ t ∈ slicesRec c, covers t a i) →
      (viewRec (m'.write a i b) r = viewRec m' r ↔ (a < m.length → byteAt m a i = some b))) := by
  rcases buildRec_spec r m hi hr with ⟨m1, c1, e1, -, h⟩ | ⟨e1, -⟩
  · rw [e1] at hc
    simp only [Res.ok.injEq, Prod.mk.injEq] at hc
    obtain ⟨rfl, rfl⟩ := hc
    exact ⟨fun ha => by rw [viewRec_iff, h.forth ha], fun hc => by rw [viewRec_iff, h.back (keysRec_sub subKeysOf_sub r) hi hc]⟩
  · exact absurd hc (e1 _)

/-- A record with a key of one sub key, a primitive and no scheme. -/
def exC125r : SRec :=
  .record (some (.key ⟨false, [some ⟨0, 0, 2⟩], none, 4⟩)) (some (.prim (some ⟨0, 2, 1⟩))) none
    none none none

def exC125n : Mem := [[1, 2, 3]]

/-- The primitive of the copy is in a new array, the sub key is where it was. -/
theorem exC125r_fits : AllIn exC125n (slicesRec exC125r) ∧ realRec (viewRec exC125n exC125r) ∧
    (exC125r.copy exC125n = .ok ([[1, 2, 3], [3]], .record (some (.key ⟨false, [some ⟨0, 0, 2⟩], none, 4⟩)) (some (.prim (some ⟨1, 0, 1⟩))) none none none none)) ∧
    exC125r.copyConstruct exC125n = exC125r.copy exC125n ∧
    keptRec exC125r = [⟨0, 0, 2⟩] ∧ reusedRec exC125r = [⟨0, 0, 2⟩] := by
  refine ⟨?_, by simp [exC125r, viewRec, realRec, viewPart, viewVal, realPart, realVal, realKey, viewKey], rfl, rfl, rfl, rfl⟩
  intro s hs
  simp only [exC125r, slicesRec, slicesKeyPart, slicesPart, slicesKey, slicesVal, slicesIn, List.append_nil, List.mem_append,
    List.mem_singleton] at hs
  rcases hs with rfl | rfl
  · exact ⟨_, rfl, by decide⟩
  · exact ⟨_, rfl, by decide⟩

theorem exC125r_list_fits : AllIn exC125n (slicesVal (.records [exC125r])) ∧ realVal (viewVal exC125n (.records [exC125r])) ∧
    ((SVal.records [exC125r]).copy exC125n = .ok ([[1, 2, 3], [3]], .records [.record (some (.key ⟨false, [some ⟨0, 0, 2⟩], none, 4⟩)) (some (.prim (some ⟨1, 0, 1⟩))) none none none none])) ∧
    (SVal.records [exC125r]).copyConstruct exC125n = (SVal.records [exC125r]).copy exC125n := by
  refine ⟨?_, by simp [exC125r, viewVal, viewRecs, realVal, realRecs, viewRec, realRec, viewPart, realPart, realKey, viewKey], rfl, rfl⟩
  intro s hs
  simp only [exC125r, slicesRec, slicesRecs, slicesKeyPart, slicesPart, slicesKey, slicesVal, slicesIn, List.append_nil, List.mem_append,
    List.mem_singleton] at hs
  rcases hs with rfl | rfl
  · exact ⟨_, rfl, by decide⟩
  · exact ⟨_, rfl, by decide⟩

/-- C125, exact, for schemes: copies share all their bytes with the original, so they show the same whatever is assigned. -/
theorem C125_scheme_partial (s : SScheme) (m : Mem) (hi : AllIn m (slicesScheme s)) (a i : Nat) (b : UInt8) :
    viewScheme m s.copy = (viewScheme m s).copy ∧
    (viewScheme (m.write a i b) s.copy = viewScheme m s.copy ↔ ∀ t ∈ slicesScheme s, covers t a i → byteAt m a i = some b) ∧
    viewScheme (m.write a i b) s.copy = viewScheme (m.write a i b) s := by
  have hs : s.copy = s := by
    obtain ⟨d, t, l⟩ := s
    cases d <;> cases t <;> cases l <;> rfl
  have hv : ∀ m : Mem, (viewScheme m s).copy = viewScheme m s := by
    intro m
    obtain ⟨d, t, l⟩ := s
    cases d <;> cases t <;> cases l <;> rfl
  rw [hs, hv]
  refine ⟨rfl, ?_, rfl⟩
  have hw : (∀ t ∈ slicesScheme s, (m.write a i b).read t = m.read t) ↔ ∀ t ∈ slicesScheme s, covers t a i → byteAt m a i = some b :=
    ⟨fun H t ht => (read_write (hi t ht) a i b).mp (H t ht), fun H t ht => (read_write (hi t ht) a i b).mpr (H t ht)⟩
  rw [← hw, slicesScheme, viewScheme, viewScheme, Scheme.mk.injEq, slicesIn_cons, get_eq_iff, get_eq_iff]
  obtain ⟨d, t, l⟩ := s
  cases l with
  | none =>
    simp only [Option.map_none, and_true, List.mem_append, or_imp, forall_and, Option.getD_none, slicesIn, List.not_mem_nil,
      IsEmpty.forall_iff]
  | some l =>
    rw [Option.map_some, Option.map_some, Option.some.injEq, map_get_iff]
    simp only [List.mem_append, or_imp, forall_and, Option.getD_some, and_assoc]

example : AllIn [[1, 2, 3]] (slicesScheme ⟨some ⟨0, 0, 1⟩, some ⟨0, 1, 1⟩, some [some ⟨0, 2, 1⟩]⟩) := by
  intro s hs
  simp only [slicesScheme, slicesIn, Option.getD_some, List.mem_append, List.mem_cons, List.not_mem_nil, or_false] at hs
  rcases hs with (rfl | rfl) | rfl
  · exact ⟨_, rfl, by decide⟩
  · exact ⟨_, rfl, by decide⟩
  · exact ⟨_, rfl, by decide⟩

/-! ### C126 The bytes of an encoded key -/

/-- C126, the claim: the bytes of an encoded key are the encoding of its sub keys, whatever bytes were assigned after it was encoded. -/
def EncodedKeyIsCurrent : Prop := ∀ (k k' : SKey) (m m' : Mem), AllIn m (slicesKey (.key k)) → k.encode m = (m', k', true) →
  ∀ ws : List (Nat × Nat × UInt8), ∃ e, (viewK (writes m' ws) k').encode = (e, true) ∧ e.getBuf = (viewK (writes m' ws) k').getBuf

/-- C126 is false: a byte of the sub key is changed. -/
theorem C126_refuted : ¬ EncodedKeyIsCurrent := by
  intro H
  obtain ⟨e, h1, h2⟩ := H { encoded := false, keys := [some ⟨0, 0, 1⟩], buf := none, estBufSize := 3 }
    ⟨true, [some ⟨0, 0, 1⟩], some ⟨1, 0, 3⟩, 3⟩ [[1]] [[1], [1, 1, 1]]
    (by
      intro s hs
      simp only [slicesKey, slicesIn, List.append_nil, List.mem_singleton] at hs
      subst hs
      exact ⟨_, rfl, by decide⟩) (by decide +kernel) [(0, 0, 2)]
  have h3 : (viewK (writes [[1], [1, 1, 1]] [(0, 0, 2)]) ⟨true, [some ⟨0, 0, 1⟩], some ⟨1, 0, 3⟩, 3⟩).encode = (⟨true, [some [2]], some [1, 1, 2], 3⟩, true) := by decide +kernel
  rw [h3] at h1
  simp only [Prod.mk.injEq, and_true] at h1
  subst h1
  revert h2
  decide +kernel

theorem encode_view (k : SKey) (m : Mem) (hi : AllIn m (slicesKey (.key k))) :
    (viewK (k.encode m).1 (k.encode m).2.1, (k.encode m).2.2) = (viewK m k).encode := by
  rw [SKey.encode, Key.encode]
  have hl : (viewK m k).keys.length = k.keys.length := by simp [viewK]
  rw [hl]
  split_ifs
  · rfl
  · have hk : (viewK m k).keys = k.keys.map m.get := rfl
    rw [hk]
    cases e : encodeSubKeys (k.keys.map m.get) (encodeUvarint64 k.keys.length) with
    | none => rfl
    | some buf =>
      have hg : k.keys.map (m.make buf).1.get = k.keys.map m.get := (map_get_iff k.keys).mpr (hi.left.same [buf])
      simp only [viewK, get_some, make_read, hg]

/-- C126, exact: encoding a key shows what encoding the shown key gives.  The bytes are new: assignments to bytes that existed before do
not change them, and they are the encoding of the sub keys if and only if these show the same bytes as when the key was encoded. -/
theorem C126_encoded_partial (k : SKey) (m : Mem) (hi : AllIn m (slicesKey (.key k))) :
    (viewK (k.encode m).1 (k.encode m).2.1, (k.encode m).2.2) = (viewK m k).encode ∧
    ∀ m' k', k.encode m = (m', k', true) → ∀ ws, (∀ w ∈ ws, w.1 < m.length) →
      (viewK (writes m' ws) k').getBuf = (viewK m' k').getBuf ∧
      ((∃ e, (viewK (writes m' ws) k').encode = (e, true) ∧ e.getBuf = (viewK (writes m' ws) k').getBuf) ↔
        (viewK (writes m' ws) k').keys = (viewK m k).keys) := by
  have hv := encode_view k m hi
  refine ⟨hv, fun m' k' e ws hw => ?_⟩
  rw [e] at hv
  simp only at hv
  have hs : ∃ buf, m' = (m.make buf).1 ∧ k' = { k with buf := some (m.make buf).2, estBufSize := buf.length, encoded := true } := by
    rw [SKey.encode] at e
    split_ifs at e
    · simp at e
    · split at e
      · simp at e
      · rename_i buf _
        simp only [Prod.mk.injEq, and_true] at e
        exact ⟨buf, e.1.symm, e.2.symm⟩
  obtain ⟨buf, rfl, rfl⟩ := hs
  have hb : (writes (m.make buf).1 ws).read (m.make buf).2 = buf := by
    rw [read_writes ws (make_inside m buf), make_read]
    intro w hws hc
    have := hc.1
    have := hw w hws
    rw [make_arr] at *
    omega
  have h1 : (viewK (writes (m.make buf).1 ws) { k with buf := some (m.make buf).2, estBufSize := buf.length, encoded := true }).getBuf =
      .ok buf := by
    rw [Key.getBuf, viewK, get_some, hb]
    rfl
  have h2 : (viewK (m.make buf).1 { k with buf := some (m.make buf).2, estBufSize := buf.length, encoded := true }).getBuf = .ok buf := by
    rw [Key.getBuf, viewK, get_some, make_read]
    rfl
  rw [h1, h2]
  refine ⟨rfl, ?_⟩
  constructor
  · rintro ⟨e', g1, g2⟩
    obtain ⟨h3, -⟩ := C09_key_encoding_prefix_free _ _ _ _ hv.symm g1 buf buf [] [] h2 g2 rfl
    have h4 : ∀ l : List (Option Sl), (l.map m.get).map Slice.bytes = (l.map (writes (m.make buf).1 ws).get).map Slice.bytes →
        l.map (writes (m.make buf).1 ws).get = l.map m.get := by
      intro l
      induction l with
      | nil => exact fun _ => rfl
      | cons s l ih =>
        intro h
        simp only [List.map_cons, List.cons.injEq] at h ⊢
        refine ⟨?_, ih h.2⟩
        cases s with
        | none => rfl
        | some s =>
          have := h.1
          rw [get_some, get_some] at this ⊢
          exact congrArg some this.symm
    exact h4 k.keys h3
  · intro h
    have h3 := key_encode_eq (viewK m k)
    have h4 := key_encode_eq (viewK (writes (m.make buf).1 ws) { k with buf := some (m.make buf).2, estBufSize := buf.length, encoded := true })
    rw [h] at h4
    rw [← hv] at h3
    split_ifs at h3 h4 with hc
    · simp only [Prod.mk.injEq, and_true] at h3
      refine ⟨_, h4, ?_⟩
      have h5 : (viewK (m.make buf).1 { k with buf := some (m.make buf).2, estBufSize := buf.length, encoded := true }).buf = some buf := by
        rw [viewK, get_some, make_read]
      rw [h3] at h5
      simp only [Option.some.injEq] at h5
      simp only [Key.getBuf, Slice.bytes, h5, if_true, Option.getD_some]
    · simp at h3

example : AllIn [[1, 2, 3]] (slicesKey (.key { encoded := false, keys := [some ⟨0, 1, 2⟩], buf := none, estBufSize := 4 })) ∧
    ({ encoded := false, keys := [some ⟨0, 1, 2⟩], buf := none, estBufSize := 4 } : SKey).encode [[1, 2, 3]] =
      ([[1, 2, 3], [1, 2, 2, 3]], { encoded := true, keys := [some ⟨0, 1, 2⟩], buf := some ⟨1, 0, 4⟩, estBufSize := 4 }, true) := by
  refine ⟨?_, by decide +kernel⟩
  intro s hs
  simp only [slicesKey, slicesIn, List.append_nil, List.mem_singleton] at hs
  subst hs
  exact ⟨_, rfl, by decide⟩

/-! ### C127 Decoded objects and the buffer they were decoded from -/

/-- C127, the claim: a decoded key shows the same after the buffer it was decoded from is used for something else. -/
def DecodedKeyOwnsBytes : Prop := ∀ (m : Mem) (s : Sl) (k : SMapped) (n : Nat), inside m s → mappedKeyAt m s = .ok (k, n) →
  ∀ (a i : Nat) (b : UInt8), k.keys.map (m.write a i b).get = k.keys.map m.get

/-- C127 is false. -/
theorem C127_refuted : ¬ DecodedKeyOwnsBytes := by
  intro H
  have := H [[1, 1, 5]] ⟨0, 0, 3⟩ { keys := [some ⟨0, 2, 1⟩], buf := ⟨0, 0, 3⟩ } 3 ⟨_, rfl, by decide⟩ (by decide +kernel) 0 2 6
  revert this
  decide +kernel

theorem view_write_iff {m : Mem} {l : List Sl} {s : Sl} (hi : inside m s) (hs : s ∈ l) (hw : ∀ t ∈ l, within t s) (a i : Nat) (b : UInt8) :
    (∀ t ∈ l, (m.write a i b).read t = m.read t) ↔ (covers s a i → byteAt m a i = some b) := by
  constructor
  · intro H
    exact (read_write hi a i b).mp (H s hs)
  · intro H t ht
    exact (read_write ((hw t ht).inside hi) a i b).mpr (fun hc => H ((hw t ht).covers hc))

/-- C127, exact, for keys: what is shown is what decoding the bytes gives, and assigning a byte changes it if and only if the byte is in
the buffer handed in, also behind the key, and differs from the byte before. -/
theorem C127_key_partial (m : Mem) (s : Sl) (hi : inside m s) (k : SMapped) (n : Nat) (h : mappedKeyAt m s = .ok (k, n)) (a i : Nat) (b : UInt8) :
    newMappedKey (m.read s) = .ok (viewMapped m k, n) ∧
    (viewMapped (m.write a i b) k = viewMapped m k ↔ (covers s a i → byteAt m a i = some b)) := by
  have hv := mappedKeyAt_view hi
  rw [h, mapR_ok] at hv
  obtain ⟨h1, h2⟩ := mappedKeyAt_within hi h
  refine ⟨hv.symm, ?_⟩
  rw [viewMapped_iff]
  refine view_write_iff hi (by simp [slicesMapped, h1]) (fun t ht => ?_) a i b
  rw [slicesMapped] at ht
  rcases List.mem_append.mp ht with ht | ht
  · exact h2 t ht
  · rw [List.mem_singleton.mp ht, h1]
    exact within.refl _

example := C127_key_partial [[9, 1, 1, 5, 7]] ⟨0, 1, 4⟩ ⟨_, rfl, by decide⟩ { keys := [some ⟨0, 3, 1⟩], buf := ⟨0, 1, 4⟩ } 3 (by decide +kernel) 0 3 8

/-- C127, exact, for values: the bytes of the value, not those behind it. -/
theorem C127_value_partial (m : Mem) (s : Sl) (hi : inside m s) (d : SStd) (n : Nat) (h : stdAt m s = .ok (d, n)) (a i : Nat) (b : UInt8) :
    decodeStd (m.read s) = .ok (viewStd m d, n) ∧
    (viewStd (m.write a i b) d = viewStd m d ↔ (covers (s.sub 0 n) a i → byteAt m a i = some b)) := by
  obtain ⟨h1, h2, h3, h4⟩ := stdAt_ok hi h
  refine ⟨h1, ?_⟩
  have hb : d.buf = s.sub 0 n := by
    rw [stdAt] at h
    obtain ⟨⟨x, k⟩, e1, e2⟩ := Res.bind_eq_ok.mp h
    simp only [Res.ok.injEq, Prod.mk.injEq] at e2
    obtain ⟨rfl, rfl⟩ := e2
    rw [(placeStd_view hi e1).2.2.1]
    rfl
  have hi' : inside m (s.sub 0 n) := (within_sub (by omega)).inside hi
  rw [viewStd_iff]
  refine view_write_iff hi' (by simp [slicesStd, hb]) (fun t ht => ?_) a i b
  simp only [slicesStd, List.mem_cons, List.not_mem_nil, or_false] at ht
  rcases ht with rfl | rfl
  · rw [hb]
    exact within.refl _
  · rw [← hb]
    rw [stdAt] at h
    obtain ⟨⟨x, k⟩, e1, e2⟩ := Res.bind_eq_ok.mp h
    simp only [Res.ok.injEq, Prod.mk.injEq] at e2
    obtain ⟨rfl, rfl⟩ := e2
    obtain ⟨rest, -, -, q⟩ := (decodeStd_ok_iff _ _ _).mp e1
    obtain ⟨q, -⟩ := stdWire_suffix q
    refine ⟨rfl, ?_, ?_⟩
    · simp only [placeStd, Sl.sub]
      omega
    · simp only [placeStd, Sl.sub]
      omega

example := C127_value_partial [[9, 0x01, 1, 0x61, 7]] ⟨0, 1, 4⟩ ⟨_, rfl, by decide⟩
  { buf := ⟨0, 1, 3⟩, kind := .prim, size := 0, content := ⟨0, 3, 1⟩ } 3 (by decide +kernel) 0 3 8

/-- C127, exact, for records: the buffer handed in, also behind the record, as that is the buffer of its key. -/
theorem C127_record_partial (m : Mem) (s : Sl) (hi : inside m s) (r : SRecInfo) (n : Nat) (h : recordAt m s = .ok (r, n)) (a i : Nat) (b : UInt8) :
    decodeRecord (m.read s) = .ok (viewInfo m r, n) ∧
    (viewInfo (m.write a i b) r = viewInfo m r ↔ (covers s a i → byteAt m a i = some b)) := by
  obtain ⟨h1, h2, h3, h4⟩ := memRecord_ok hi h
  refine ⟨h1, ?_⟩
  obtain ⟨hn, -⟩ := decodeRecord_ok h1
  rw [recordAt] at h
  obtain ⟨⟨x, j⟩, e1, e2⟩ := Res.bind_eq_ok.mp h
  obtain ⟨⟨k, j'⟩, e3, e4⟩ := Res.bind_eq_ok.mp e2
  have hk := (mappedKeyAt_within ((within_rest (by omega)).inside hi) e3).1
  have hb : r.buf = s.sub 0 n := by
    have : r.buf.off = s.off + 0 ∧ r.buf.arr = s.arr := by
      simp only [Res.ok.injEq, Prod.mk.injEq] at e4
      rw [← e4.1]
      exact ⟨rfl, rfl⟩
    rw [Sl.sub, ← this.1, ← this.2, ← h3]
  have hkb : r.key.buf = s.rest 1 := by
    simp only [Res.ok.injEq, Prod.mk.injEq] at e4
    rw [← e4.1]
    exact hk
  rw [viewInfo_iff]
  constructor
  · intro H hc
    by_cases h0 : i < s.off + 1
    · have : (m.write a i b).read r.buf = m.read r.buf := H _ (by simp [slicesInfo])
      rw [hb] at this
      exact (read_write ((within_sub (by omega)).inside hi) a i b).mp this ⟨hc.1, by simpa [Sl.sub] using hc.2.1, by simp only [Sl.sub]; omega⟩
    · have : (m.write a i b).read r.key.buf = m.read r.key.buf := H _ (by simp [slicesInfo, slicesMapped])
      rw [hkb] at this
      refine (read_write ((within_rest (by omega)).inside hi) a i b).mp this ⟨hc.1, by simp only [Sl.rest]; omega, ?_⟩
      have := hc.2.2
      simp only [Sl.rest]
      omega
  · intro H t ht
    exact (read_write ((h2 t ht).inside hi) a i b).mpr (fun hc => H ((h2 t ht).covers hc))

example := C127_record_partial [[9, 0x70, 0x00, 0x01, 1, 0x61, 0x00, 8]] ⟨0, 1, 7⟩ ⟨_, rfl, by decide⟩
  { buf := ⟨0, 1, 6⟩, key := { keys := [], buf := ⟨0, 2, 6⟩ },
    value := { buf := ⟨0, 3, 3⟩, kind := .prim, size := 0, content := ⟨0, 5, 1⟩ },
    scheme := { buf := ⟨0, 6, 1⟩, kind := .prim, size := 0, content := ⟨0, 7, 0⟩ }, timestamp := none, signature := none } 6 (by decide +kernel) 0 3 8

/-- C127, exact, for simple values: the bytes of the value, not those behind it. -/
theorem C127_simple_partial (m : Mem) (s : Sl) (hi : inside m s) (c d : Sl) (n : Nat) (h : simpleAt m s = .ok (c, d, n)) (a i : Nat) (b : UInt8) :
    decodeSimple (m.read s) = .ok (m.read c, m.read d, n) ∧
    (viewVal (m.write a i b) (.simple c d) = viewVal m (.simple c d) ↔ (covers (s.sub 0 n) a i → byteAt m a i = some b)) := by
  have hv := simpleAt_view hi
  rw [h, mapR_ok] at hv
  refine ⟨hv.symm, ?_⟩
  rw [simpleAt] at h
  obtain ⟨⟨t, k⟩, e1, e2⟩ := Res.bind_eq_ok.mp h
  simp only [Res.ok.injEq, Prod.mk.injEq] at e2
  obtain ⟨rfl, rfl, rfl⟩ := e2
  obtain ⟨h1, -, h3, h4⟩ := varcharAt_ok hi e1
  rw [viewVal_iff, slicesVal]
  refine view_write_iff ((within_sub (by omega)).inside hi) (by simp) (fun u hu => ?_) a i b
  simp only [List.mem_cons, List.not_mem_nil, or_false] at hu
  rcases hu with rfl | rfl
  · rw [varcharAt] at e1
    obtain ⟨⟨x, j⟩, e3, e4⟩ := Res.bind_eq_ok.mp e1
    simp only [Res.ok.injEq, Prod.mk.injEq] at e4
    obtain ⟨rfl, rfl⟩ := e4
    have := (decodeVarchar_window e3).1
    refine ⟨rfl, ?_, ?_⟩
    · simp only [Sl.sub]
      omega
    · simp only [Sl.sub]
      omega
  · exact within.refl _

example := C127_simple_partial [[9, 1, 0x61, 7]] ⟨0, 1, 3⟩ ⟨_, rfl, by decide⟩ ⟨0, 2, 1⟩ ⟨0, 1, 2⟩ 2 (by decide +kernel) 0 2 8

/-- C127, exact, for schemes: the bytes of the domain, the tablet and the buckets. -/
theorem C127_scheme_partial (m : Mem) (s : Sl) (hi : inside m s) (x : SScheme) (n : Nat) (h : schemeAt m s = .ok (x, n)) (a i : Nat) (b : UInt8) :
    decodeScheme (m.read s) = .ok (viewScheme m x, n) ∧ (∀ t ∈ slicesScheme x, within t s) ∧
    (viewScheme (m.write a i b) x = viewScheme m x ↔ ∀ t ∈ slicesScheme x, covers t a i → byteAt m a i = some b) := by
  have hv := schemeAt_view hi
  rw [h, mapR_ok] at hv
  have hw : ∀ t ∈ slicesScheme x, within t s := by
    rw [schemeAt] at h
    split_ifs at h with h0
    obtain ⟨⟨d, n1⟩, e1, h⟩ := Res.bind_eq_ok.mp h
    obtain ⟨⟨t, n2⟩, e2, h⟩ := Res.bind_eq_ok.mp h
    obtain ⟨⟨c, n3⟩, e3, h⟩ := Res.bind_eq_ok.mp h
    simp only at h
    split_ifs at h
    obtain ⟨⟨l, n4⟩, e4, h⟩ := Res.bind_eq_ok.mp h
    simp only [Res.ok.injEq, Prod.mk.injEq] at h
    obtain ⟨rfl, -⟩ := h
    have w1 : within (s.rest 1) s := within_rest (by omega)
    have i1 := w1.inside hi
    obtain ⟨-, a1, l1, -⟩ := varcharAt_ok i1 e1
    have w2 := (within_rest l1).trans w1
    have i2 := w2.inside hi
    obtain ⟨-, a2, l2, -⟩ := varcharAt_ok i2 e2
    have w3 := (within_rest l2).trans w2
    have i3 := w3.inside hi
    have l3 := decodeUvarint64_le e3
    rw [read_length i3] at l3
    have w4 := (within_rest l3).trans w3
    obtain ⟨a3, -⟩ := subKeysAt_within c (w4.inside hi) e4
    intro u hu
    simp only [slicesScheme, slicesIn, Option.getD_some, List.mem_append, List.mem_cons, List.not_mem_nil, or_false] at hu
    rcases hu with (rfl | rfl) | hu
    · exact a1.trans w1
    · exact a2.trans w2
    · exact (a3 u hu).trans w4
  have := (C125_scheme_partial x m (fun t ht => (hw t ht).inside hi) a i b).2.1
  have hs : x.copy = x := by
    obtain ⟨d, t, l⟩ := x
    cases d <;> cases t <;> cases l <;> rfl
  rw [hs] at this
  exact ⟨hv.symm, hw, this⟩

example : inside [[9, 1, 0x61, 7]] ⟨0, 1, 3⟩ ∧ simpleAt [[9, 1, 0x61, 7]] ⟨0, 1, 3⟩ = .ok (⟨0, 2, 1⟩, ⟨0, 1, 2⟩, 2) := by
  exact ⟨⟨_, rfl, by decide⟩, by decide +kernel⟩

example : inside [[0, 1, 0x61, 1, 0x62, 1, 1, 0x63]] ⟨0, 0, 8⟩ ∧ schemeAt [[0, 1, 0x61, 1, 0x62, 1, 1, 0x63]] ⟨0, 0, 8⟩ =
    .ok (⟨some ⟨0, 2, 1⟩, some ⟨0, 4, 1⟩, some [some ⟨0, 7, 1⟩]⟩, 8) := by
  exact ⟨⟨_, rfl, by decide⟩, by decide +kernel⟩

example : inside [[9, 1, 1, 5, 7]] ⟨0, 1, 4⟩ ∧
    mappedKeyAt [[9, 1, 1, 5, 7]] ⟨0, 1, 4⟩ = .ok ({ keys := [some ⟨0, 3, 1⟩], buf := ⟨0, 1, 4⟩ }, 3) := by
  exact ⟨⟨_, rfl, by decide⟩, by decide +kernel⟩

example : inside [[9, 0x01, 1, 0x61, 7]] ⟨0, 1, 4⟩ ∧ stdAt [[9, 0x01, 1, 0x61, 7]] ⟨0, 1, 4⟩ =
    .ok ({ buf := ⟨0, 1, 3⟩, kind := .prim, size := 0, content := ⟨0, 3, 1⟩ }, 3) := by
  exact ⟨⟨_, rfl, by decide⟩, by decide +kernel⟩

example : inside [[9, 0x70, 0x00, 0x01, 1, 0x61, 0x00, 8]] ⟨0, 1, 7⟩ ∧
    recordAt [[9, 0x70, 0x00, 0x01, 1, 0x61, 0x00, 8]] ⟨0, 1, 7⟩ =
      .ok ({ buf := ⟨0, 1, 6⟩, key := { keys := [], buf := ⟨0, 2, 6⟩ },
             value := { buf := ⟨0, 3, 3⟩, kind := .prim, size := 0, content := ⟨0, 5, 1⟩ },
             scheme := { buf := ⟨0, 6, 1⟩, kind := .prim, size := 0, content := ⟨0, 7, 0⟩ }, timestamp := none, signature := none }, 6) := by
  exact ⟨⟨_, rfl, by decide⟩, by decide +kernel⟩

example := C125_key_partial exC125 exC125 exC125m (by
  intro s hs
  simp only [exC125, slicesKey, slicesMapped, slicesIn, List.mem_append, List.mem_cons, List.not_mem_nil, or_false] at hs
  rcases hs with rfl | rfl
  · exact ⟨_, rfl, by decide⟩
  · exact ⟨_, rfl, by decide⟩) (by decide +kernel) 0 3 8

example := C124_copy exC124 exC124m exC124_fits.1 exC124_fits.2.1

example := C125_record_partial exC125r _ exC125n _ exC125r_fits.1 exC125r_fits.2.2.1 0 1 8

example := C125_value_partial (.records [exC125r]) _ exC125n _ exC125r_list_fits.1 exC125r_list_fits.2.2.1 0 1 8

example := C125_valueConstruct_partial (.records [exC125r]) _ exC125n _ exC125r_list_fits.1 exC125r_list_fits.2.1
  (exC125r_list_fits.2.2.2.trans exC125r_list_fits.2.2.1) 0 1 8

example := C124_copyConstruct exC124 exC124m exC124_fits.1 exC124_fits.2.2.2 exC124_fits.2.2.1

example := C125_recordConstruct_partial exC125r _ exC125n _ exC125r_fits.1 exC125r_fits.2.1 (exC125r_fits.2.2.2.1.trans exC125r_fits.2.2.1) 0 1 8

end Poodle.Props
