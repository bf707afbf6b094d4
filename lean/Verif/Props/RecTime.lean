import Verif.Spec.RecTime
import Verif.Props.ValueCopy

/-
Property C198: times and signatures of records are objects that records, their copies and the program share
(/repo/src/util/record_util.go).
-/

namespace Poodle.Props
open Poodle Spec

/-! ### One call -/

theorem store_nums (w : TWorld) (v : Option Int) : (w.store v).1.objs = w.objs ∧ (w.store v).1.nums = w.nums ++ v.toList := by
  cases v <;> simp [TWorld.store]

theorem store_ptr (w : TWorld) (v : Option Int) : (w.store v).2 = v.map fun _ => w.nums.length := by
  cases v <;> rfl

/-- What a decoded record adds. -/
theorem addMapped_eq (w : TWorld) (i : RecInfo) : ∃ t a b, (w.addMapped i).objs = w.objs ++ [.mapped i t a b] ∧
    (w.addMapped i).nums = w.nums ++ (i.timestamp.toList ++ ((i.signature.map Prod.fst).toList ++ (i.signature.map Prod.snd).toList)) ∧
    t = i.timestamp.map (fun _ => w.nums.length) ∧
    a = i.signature.map (fun _ => w.nums.length + i.timestamp.toList.length) ∧
    b = i.signature.map (fun _ => w.nums.length + i.timestamp.toList.length + 1) := by
  refine ⟨_, _, _, ?_, ?_, rfl, rfl, rfl⟩
  · rcases i with ⟨_, _, _, _, t, g⟩
    cases t <;> cases g <;> simp [TWorld.addMapped, TWorld.store]
  · rcases i with ⟨_, _, _, _, t, g⟩
    cases t <;> cases g <;> simp [TWorld.addMapped, TWorld.store]

/-- The numbers after a call. -/
theorem run_nums (w : TWorld) (c : TCall) :
    ∃ ext, (c.run w).1.nums = (match c with | .assign p v => w.nums.set p v | _ => w.nums) ++ ext := by
  have hset : ∀ r f, ∃ ext, (w.set r f).1.nums = w.nums ++ ext := by
    intro r f
    unfold TWorld.set
    split <;> exact ⟨[], by simp⟩
  cases c with
  | newNum v => exact ⟨[v], rfl⟩
  | assign p v => exact ⟨[], by simp [TCall.run]⟩
  | newRecord => exact ⟨[], by simp [TCall.run]⟩
  | decode buf =>
    simp only [TCall.run, TWorld.decode]
    split
    · exact ⟨_, (addMapped_eq w _).choose_spec.choose_spec.choose_spec.2.1⟩
    · exact ⟨[], by simp⟩
    · exact ⟨[], by simp⟩
  | setTimestamp r p => exact hset _ _
  | setSignature r p q => exact hset _ _
  | setKey r k => exact hset _ _
  | setValue r v => exact hset _ _
  | setScheme r v => exact hset _ _
  | encode r =>
    refine ⟨[], ?_⟩
    simp only [TCall.run, TWorld.encode]
    split
    · split <;> simp
    · simp
    · simp
  | copy r =>
    simp only [TCall.run, TWorld.copy]
    split
    · split <;> exact ⟨[], by simp⟩
    · split
      · exact ⟨_, (addMapped_eq w _).choose_spec.choose_spec.choose_spec.2.1⟩
      · exact ⟨[], by simp⟩
    · exact ⟨[], by simp⟩
  | copyConstruct r =>
    refine ⟨[], ?_⟩
    simp only [TCall.run, TWorld.copyConstruct]
    split
    · split <;> simp
    · split <;> simp
    · simp

/-- The other records keep everything, and a record keeps its pointers unless they are set. -/
theorem run_objs (w : TWorld) (c : TCall) (r : Nat) (o : TObj) (h : w.objs[r]? = some o) :
    (c.sets r = false → c.encodes r = false → (c.run w).1.objs[r]? = some o) ∧
    (c.stamps r = false → ∃ o', (c.run w).1.objs[r]? = some o' ∧ o'.time = o.time ∧ o'.signature = o.signature) ∧
    (∀ i t a b, o = .mapped i t a b → (c.run w).1.objs[r]? = some o) := by
  have hr : r < w.objs.length := (List.getElem?_eq_some_iff.mp h).1
  have same : ∀ w' : TWorld, w'.objs[r]? = some o →
      (c.sets r = false → c.encodes r = false → w'.objs[r]? = some o) ∧
      (c.stamps r = false → ∃ o', w'.objs[r]? = some o' ∧ o'.time = o.time ∧ o'.signature = o.signature) ∧
      (∀ i t a b, o = .mapped i t a b → w'.objs[r]? = some o) :=
    fun w' e => ⟨fun _ _ => e, fun _ => ⟨o, e, rfl, rfl⟩, fun _ _ _ _ _ => e⟩
  have app : ∀ x : TObj, (w.objs ++ [x])[r]? = some o := fun x => by rw [List.getElem?_append_left hr, h]
  have addM : ∀ i, (w.addMapped i).objs[r]? = some o := by
    intro i
    obtain ⟨t, a, b, e, -⟩ := addMapped_eq w i
    rw [e, app]
  have hset : ∀ r' f, (r' = r → c.sets r = true) →
      (c.stamps r = false → r' = r → ∀ x : TRec, (f x).time = x.time ∧ (f x).sigR = x.sigR ∧ (f x).sigS = x.sigS) →
      (c.sets r = false → c.encodes r = false → (w.set r' f).1.objs[r]? = some o) ∧
      (c.stamps r = false → ∃ o', (w.set r' f).1.objs[r]? = some o' ∧ o'.time = o.time ∧ o'.signature = o.signature) ∧
      (∀ i t a b, o = .mapped i t a b → (w.set r' f).1.objs[r]? = some o) := by
    intro r' f hs hst
    by_cases e : r' = r
    · subst e
      unfold TWorld.set
      rw [h]
      cases o with
      | record x =>
        refine ⟨fun h' => absurd (hs rfl) (by simp [h']), fun h' => ?_, fun i t a b h' => by simp at h'⟩
        obtain ⟨e1, e2, e3⟩ := hst h' rfl x
        refine ⟨.record { f x with encoded := false }, by simp [hr], ?_, ?_⟩
        · simpa [TObj.time] using e1
        · simp [TObj.signature, e2, e3]
      | mapped i t a b => exact same w h
    · apply same
      unfold TWorld.set
      split
      · simp only
        rw [List.getElem?_set_ne e, h]
      · exact h
  cases c with
  | newNum v => exact same _ h
  | assign p v => exact same _ h
  | newRecord => exact same _ (app _)
  | decode buf =>
    simp only [TCall.run, TWorld.decode]
    split
    · exact same _ (addM _)
    · exact same _ h
    · exact same _ h
  | setTimestamp r' p => exact hset r' _ (by simp [TCall.sets]) (by intro h1 h2; simp [TCall.stamps, h2] at h1)
  | setSignature r' p q => exact hset r' _ (by simp [TCall.sets]) (by intro h1 h2; simp [TCall.stamps, h2] at h1)
  | setKey r' k => exact hset r' _ (by simp [TCall.sets]) (fun _ _ _ => ⟨rfl, rfl, rfl⟩)
  | setValue r' v => exact hset r' _ (by simp [TCall.sets]) (fun _ _ _ => ⟨rfl, rfl, rfl⟩)
  | setScheme r' v => exact hset r' _ (by simp [TCall.sets]) (fun _ _ _ => ⟨rfl, rfl, rfl⟩)
  | encode r' =>
    simp only [TCall.run, TWorld.encode]
    by_cases e : r' = r
    · subst e
      rw [h]
      cases o with
      | record x =>
        simp only
        split
        · exact ⟨fun _ h' => by simp [TCall.encodes] at h', fun _ => ⟨_, List.getElem?_set_self hr, rfl, rfl⟩, fun i t a b h' => by simp at h'⟩
        · exact same _ h
        · exact same _ h
      | mapped i t a b => exact same _ h
    · apply same
      split
      · split
        · simp only
          rw [List.getElem?_set_ne e, h]
        · exact h
        · exact h
      · exact h
      · exact h
  | copy r' =>
    apply same
    simp only [TCall.run, TWorld.copy]
    split
    · split
      · exact app _
      · exact h
    · split
      · exact addM _
      · exact h
    · exact h
  | copyConstruct r' =>
    apply same
    simp only [TCall.run, TWorld.copyConstruct]
    split
    · split
      · exact app _
      · exact h
      · exact h
    · split
      · exact app _
      · exact h
      · exact h
    · exact h

/-! ### Programs -/

theorem tRuns_append (w : TWorld) (l m : List TCall) : TCall.runs w (l ++ m) = TCall.runs (TCall.runs w l) m := by
  simp [TCall.runs]

theorem runs_objs (l : List TCall) : ∀ (w : TWorld) (r : Nat) (o : TObj), w.objs[r]? = some o →
    ((∀ c ∈ l, c.sets r = false ∧ c.encodes r = false) → (TCall.runs w l).objs[r]? = some o) ∧
    ((∀ c ∈ l, c.stamps r = false) → ∃ o', (TCall.runs w l).objs[r]? = some o' ∧ o'.time = o.time ∧ o'.signature = o.signature) ∧
    (∀ i t a b, o = .mapped i t a b → (TCall.runs w l).objs[r]? = some o) := by
  induction l with
  | nil => intro w r o h; exact ⟨fun _ => h, fun _ => ⟨o, h, rfl, rfl⟩, fun _ _ _ _ _ => h⟩
  | cons c l ih =>
    intro w r o h
    obtain ⟨h1, h2, h3⟩ := run_objs w c r o h
    refine ⟨fun hl => ?_, fun hl => ?_, fun i t a b e => ?_⟩
    · exact (ih (c.run w).1 r o (h1 (hl c (by simp)).1 (hl c (by simp)).2)).1 fun c hc => hl c (by simp [hc])
    · obtain ⟨o', e1, e2, e3⟩ := h2 (hl c (by simp))
      obtain ⟨o'', e4, e5, e6⟩ := (ih (c.run w).1 r o' e1).2.1 fun c hc => hl c (by simp [hc])
      exact ⟨o'', e4, e5.trans e2, e6.trans e3⟩
    · exact (ih (c.run w).1 r o (h3 i t a b e)).2.2 i t a b e

/-- The number at a pointer after a program is the last one assigned. -/
theorem runs_nums (l : List TCall) : ∀ (w : TWorld) (q : Nat) (v : Int), w.nums[q]? = some v →
    (TCall.runs w l).nums[q]? = some (lastAssigned q v l) := by
  induction l with
  | nil => intro w q v h; exact h
  | cons c l ih =>
    intro w q v h
    have hq : q < w.nums.length := (List.getElem?_eq_some_iff.mp h).1
    obtain ⟨ext, e⟩ := run_nums w c
    have other : (c.run w).1.nums = w.nums ++ ext → (TCall.runs (c.run w).1 l).nums[q]? = some (lastAssigned q v l) := by
      intro e
      apply ih
      rw [e, List.getElem?_append_left hq, h]
    cases c with
    | assign p x =>
      refine ih _ q (if p = q then x else v) ?_
      simp only [TCall.run]
      split
      · next e => subst e; simp [hq]
      · next e => rw [List.getElem?_set_ne e, h]
    | _ => exact other e

/-- Every pointer of a record points to an object. -/
def PtrsIn (n : Nat) (o : TObj) : Prop :=
  (∀ q, o.time = some q → q < n) ∧ (∀ q, o.signature.1 = some q → q < n) ∧ (∀ q, o.signature.2 = some q → q < n)

theorem PtrsIn.mono {n m : Nat} {o : TObj} (h : PtrsIn n o) (hm : n ≤ m) : PtrsIn m o :=
  ⟨fun q e => Nat.lt_of_lt_of_le (h.1 q e) hm, fun q e => Nat.lt_of_lt_of_le (h.2.1 q e) hm,
    fun q e => Nat.lt_of_lt_of_le (h.2.2 q e) hm⟩

theorem ptr_lt {w : TWorld} {p : Option Nat} {q : Nat} (h : w.ptr p = some q) : q < w.nums.length := by
  unfold TWorld.ptr at h
  cases p with
  | none => simp at h
  | some x =>
    simp only [Option.bind_some] at h
    split at h
    · simp only [Option.some.injEq] at h; omega
    · simp at h

theorem addMapped_ptrs (w : TWorld) (i : RecInfo) (h : ∀ o ∈ w.objs, PtrsIn w.nums.length o) :
    ∀ o ∈ (w.addMapped i).objs, PtrsIn (w.addMapped i).nums.length o := by
  obtain ⟨t, a, b, e1, e2, rfl, rfl, rfl⟩ := addMapped_eq w i
  intro o ho
  rw [e1, List.mem_append, List.mem_singleton] at ho
  rw [e2]
  rcases ho with ho | rfl
  · exact (h o ho).mono (by simp)
  · rcases i with ⟨_, _, _, _, t, g⟩
    cases t <;> cases g <;> simp [PtrsIn, TObj.time, TObj.signature] <;> omega

theorem run_ptrs (w : TWorld) (c : TCall) (h : ∀ o ∈ w.objs, PtrsIn w.nums.length o) :
    ∀ o ∈ (c.run w).1.objs, PtrsIn (c.run w).1.nums.length o := by
  have hset : ∀ r (f : TRec → TRec), (∀ x, PtrsIn w.nums.length (.record x) → PtrsIn w.nums.length (.record (f x))) →
      ∀ o ∈ (w.set r f).1.objs, PtrsIn (w.set r f).1.nums.length o := by
    intro r f hf
    unfold TWorld.set
    split
    · next x e =>
      intro o ho
      rcases List.mem_or_eq_of_mem_set ho with ho | rfl
      · exact h o ho
      · exact hf x (h _ (List.mem_of_getElem? e))
    · exact h
  have app : ∀ x : TObj, PtrsIn w.nums.length x → ∀ o ∈ w.objs ++ [x], PtrsIn w.nums.length o := by
    intro x hx o ho
    rw [List.mem_append, List.mem_singleton] at ho
    rcases ho with ho | rfl
    · exact h o ho
    · exact hx
  cases c with
  | newNum v => exact fun o ho => (h o ho).mono (by simp [TCall.run])
  | assign p v => exact fun o ho => (h o ho).mono (by simp [TCall.run])
  | newRecord => exact app _ (by simp [PtrsIn, TObj.time, TObj.signature, TRec.new])
  | decode buf =>
    simp only [TCall.run, TWorld.decode]
    split
    · exact addMapped_ptrs w _ h
    · exact h
    · exact h
  | setTimestamp r p => exact hset r _ fun x hx => ⟨fun q e => ptr_lt e, hx.2⟩
  | setSignature r p q => exact hset r _ fun x hx => ⟨hx.1, fun q e => ptr_lt e, fun q e => ptr_lt e⟩
  | setKey r k => exact hset r _ fun x hx => hx
  | setValue r v => exact hset r _ fun x hx => hx
  | setScheme r v => exact hset r _ fun x hx => hx
  | encode r =>
    simp only [TCall.run, TWorld.encode]
    split
    · next x e =>
      split
      · intro o ho
        rcases List.mem_or_eq_of_mem_set ho with ho | rfl
        · exact h o ho
        · have := h _ (List.mem_of_getElem? e)
          exact ⟨this.1, this.2⟩
      · exact h
      · exact h
    · exact h
    · exact h
  | copy r =>
    simp only [TCall.run, TWorld.copy]
    split
    · next x e =>
      split
      · have := h _ (List.mem_of_getElem? e)
        exact app _ ⟨this.1, this.2⟩
      · exact h
    · split
      · exact addMapped_ptrs w _ h
      · exact h
    · exact h
  | copyConstruct r =>
    simp only [TCall.run, TWorld.copyConstruct]
    split
    · next x e =>
      split
      · have := h _ (List.mem_of_getElem? e)
        exact app _ ⟨this.1, this.2⟩
      · exact h
      · exact h
    · next i t a b e =>
      split
      · have := h _ (List.mem_of_getElem? e)
        exact app _ ⟨this.1, this.2⟩
      · exact h
      · exact h
    · exact h

theorem timed_ptrs (p : List TCall) : ∀ o ∈ (timed p).objs, PtrsIn (timed p).nums.length o := by
  have : ∀ (l : List TCall) (w : TWorld), (∀ o ∈ w.objs, PtrsIn w.nums.length o) →
      ∀ o ∈ (TCall.runs w l).objs, PtrsIn (TCall.runs w l).nums.length o := by
    intro l
    induction l with
    | nil => exact fun w h => h
    | cons c l ih => exact fun w h => ih _ (run_ptrs w c h)
  exact this p _ (by simp)

/-- A pointer that points to an object shows the last number assigned. -/
theorem deref_runs (w : TWorld) (l : List TCall) (p : Option Nat) (h : ∀ q, p = some q → q < w.nums.length) :
    (TCall.runs w l).deref p = lastAt w p l := by
  cases p with
  | none => rfl
  | some q =>
    have hq := h q rfl
    simp only [TWorld.deref, lastAt, Option.bind_some]
    rw [runs_nums l w q _ (List.getElem?_eq_getElem hq), List.getElem?_eq_getElem hq]
    rfl

/-! ### C198 -/

/-- Only the setters of a record change its time and signature. -/
def TimesImmutable : Prop := ∀ (p l : List TCall) (r : Nat), r < (timed p).objs.length → (∀ c ∈ l, c.stamps r = false) →
  timeOf (TCall.runs (timed p) l) r = timeOf (timed p) r ∧ sigOf (TCall.runs (timed p) l) r = sigOf (timed p) r

/-- Without a call of its setters a record keeps its pointers, and its time and signature are the numbers last assigned through them. -/
theorem C198_exact_partial (p l : List TCall) (r : Nat) (t a b : Option Nat) (hp : pointers (timed p) r = some (t, a, b))
    (hl : ∀ c ∈ l, c.stamps r = false) :
    pointers (TCall.runs (timed p) l) r = some (t, a, b) ∧ timeOf (TCall.runs (timed p) l) r = lastAt (timed p) t l ∧
      sigOf (TCall.runs (timed p) l) r = (lastAt (timed p) a l, lastAt (timed p) b l) := by
  unfold pointers at hp
  obtain ⟨o, ho, e⟩ := Option.map_eq_some_iff.mp hp
  simp only [Prod.mk.injEq] at e
  obtain ⟨rfl, rfl, rfl⟩ := e
  obtain ⟨o', h1, h2, h3⟩ := (runs_objs l _ r o ho).2.1 hl
  have hin := timed_ptrs p o (List.mem_of_getElem? ho)
  refine ⟨?_, ?_, ?_⟩
  · simp [pointers, h1, h2, h3]
  · simp only [timeOf, h1, Option.bind_some, h2]
    exact deref_runs _ _ _ hin.1
  · simp only [sigOf, h1, Option.bind_some, h3]
    rw [deref_runs _ _ _ hin.2.1, deref_runs _ _ _ hin.2.2]

/-- A program that changes no time or big integer in place leaves the times and signatures of all records that it does not set. -/
theorem C198_unassigned (p l : List TCall) (r : Nat) (hr : r < (timed p).objs.length) (hl : ∀ c ∈ l, c.stamps r = false)
    (ha : KeepsFrom 0 l) :
    timeOf (TCall.runs (timed p) l) r = timeOf (timed p) r ∧ sigOf (TCall.runs (timed p) l) r = sigOf (timed p) r := by
  have keep : ∀ (l : List TCall) (q : Nat) (v : Int), KeepsFrom 0 l → lastAssigned q v l = v := by
    intro l q
    induction l with
    | nil => exact fun v _ => rfl
    | cons c l ih =>
      intro v hk
      have hk' : KeepsFrom 0 l := fun c hc => hk c (by simp [hc])
      cases c with
      | assign p x => exact absurd (hk _ (by simp) p x rfl) (by omega)
      | _ => exact ih v hk'
  have keepAt : ∀ x : Option Nat, lastAt (timed p) x l = (timed p).deref x := by
    intro x
    cases x with
    | none => rfl
    | some q =>
      simp only [lastAt, TWorld.deref, Option.bind_some]
      cases (timed p).nums[q]? with
      | none => rfl
      | some v => simp [keep l q v ha]
  have ho := List.getElem?_eq_getElem hr
  obtain ⟨-, h2, h3⟩ := C198_exact_partial p l r (timed p).objs[r].time (timed p).objs[r].signature.1 (timed p).objs[r].signature.2
    (by simp only [pointers, ho, Option.map_some]) hl
  rw [h2, h3, keepAt, keepAt, keepAt]
  simp [timeOf, sigOf, ho]

/-- The setters keep the pointers that they are given; they work for constructed records only. -/
theorem C198_set (w : TWorld) (r : Nat) (t a b : Option Nat) (hp : pointers w r = some (t, a, b)) (p q : Option Nat)
    (hv : ∀ x, p = some x ∨ q = some x → x < w.nums.length) :
    (∀ x, w.objs[r]? = some (.record x) →
      ((TCall.setTimestamp r p).run w).2 = .ok () ∧ pointers ((TCall.setTimestamp r p).run w).1 r = some (p, a, b) ∧
      ((TCall.setSignature r p q).run w).2 = .ok () ∧ pointers ((TCall.setSignature r p q).run w).1 r = some (t, p, q)) ∧
    (∀ i t' a' b', w.objs[r]? = some (.mapped i t' a' b') →
      (TCall.setTimestamp r p).run w = (w, .panic) ∧ (TCall.setSignature r p q).run w = (w, .panic)) := by
  have hptr : ∀ o : Option Nat, (∀ x, o = some x → x < w.nums.length) → w.ptr o = o := by
    intro o ho
    cases o with
    | none => rfl
    | some x => simp [TWorld.ptr, ho x rfl]
  refine ⟨fun x hx => ?_, fun i t' a' b' h => ?_⟩
  · have hr : r < w.objs.length := (List.getElem?_eq_some_iff.mp hx).1
    simp only [pointers, hx, Option.map_some, Option.some.injEq, Prod.mk.injEq, TObj.time, TObj.signature] at hp
    obtain ⟨rfl, rfl, rfl⟩ := hp
    simp only [TCall.run, TWorld.setTimestamp, TWorld.setSignature, TWorld.set, hx,
      hptr p (fun x e => hv x (Or.inl e)), hptr q (fun x e => hv x (Or.inr e))]
    simp [pointers, hr, TObj.time, TObj.signature]
  · simp [TCall.run, TWorld.setTimestamp, TWorld.setSignature, TWorld.set, h]

/-- Every setter that works marks the record as not encoded, so that it has no bytes until it is encoded again. -/
theorem C198_marked (w : TWorld) (r : Nat) (c : TCall) (hs : c.sets r = true) (hok : (c.run w).2 = .ok ()) :
    ∃ o, (c.run w).1.objs[r]? = some o ∧ o.isEncoded = false ∧ o.buf = .panic := by
  have key : ∀ f, (w.set r f).2 = .ok () → ∃ o, (w.set r f).1.objs[r]? = some o ∧ o.isEncoded = false ∧ o.buf = .panic := by
    intro f h
    unfold TWorld.set at h ⊢
    split at h
    · next x e =>
      have hr : r < w.objs.length := (List.getElem?_eq_some_iff.mp e).1
      exact ⟨_, List.getElem?_set_self hr, rfl, rfl⟩
    · simp at h
  cases c with
  | setTimestamp r' p =>
    obtain rfl : r' = r := by simpa [TCall.sets] using hs
    exact key _ hok
  | setSignature r' p q =>
    obtain rfl : r' = r := by simpa [TCall.sets] using hs
    exact key _ hok
  | setKey r' k =>
    obtain rfl : r' = r := by simpa [TCall.sets] using hs
    exact key _ hok
  | setValue r' v =>
    obtain rfl : r' = r := by simpa [TCall.sets] using hs
    exact key _ hok
  | setScheme r' v =>
    obtain rfl : r' = r := by simpa [TCall.sets] using hs
    exact key _ hok
  | _ => simp [TCall.sets] at hs

/-- A copy of a constructed record, and the result of `CopyConstruct` of any record, have the pointers of the original. -/
theorem copy_pointers (w : TWorld) (r : Nat) (c : TCall) (o : TObj) (ho : w.objs[r]? = some o)
    (hc : c = .copyConstruct r ∨ (c = .copy r ∧ ∃ x, o = .record x)) (hok : (c.run w).2 = .ok ()) :
    (c.run w).1.objs.length = w.objs.length + 1 ∧ pointers (c.run w).1 w.objs.length = pointers w r ∧
      pointers (c.run w).1 r = pointers w r := by
  have hr : r < w.objs.length := (List.getElem?_eq_some_iff.mp ho).1
  rcases hc with rfl | ⟨rfl, x, rfl⟩
  · simp only [TCall.run, TWorld.copyConstruct, ho] at hok ⊢
    cases o with
    | record x =>
      simp only at hok ⊢
      split at hok
      · simp [pointers, ho, List.getElem?_append_left hr, TObj.time, TObj.signature]
      · simp at hok
      · simp at hok
    | mapped i t a b =>
      simp only at hok ⊢
      split at hok
      · simp [pointers, ho, List.getElem?_append_left hr, TObj.time, TObj.signature]
      · simp at hok
      · simp at hok
  · simp only [TCall.run, TWorld.copy, ho] at hok ⊢
    split at hok
    · simp [pointers, ho, List.getElem?_append_left hr, TObj.time, TObj.signature]
    · simp at hok

/-- So original and copy show the same time and signature whatever happens, until one of them is set. -/
theorem C198_shared_partial (p l : List TCall) (r : Nat) (c : TCall) (o : TObj) (ho : (timed p).objs[r]? = some o)
    (hc : c = .copyConstruct r ∨ (c = .copy r ∧ ∃ x, o = .record x)) (hok : (c.run (timed p)).2 = .ok ())
    (hl : ∀ d ∈ l, d.stamps r = false ∧ d.stamps (timed p).objs.length = false) :
    timeOf (timed (p ++ c :: l)) (timed p).objs.length = timeOf (timed (p ++ c :: l)) r ∧
      sigOf (timed (p ++ c :: l)) (timed p).objs.length = sigOf (timed (p ++ c :: l)) r ∧
      pointers (timed (p ++ c :: l)) (timed p).objs.length = pointers (timed p) r := by
  obtain ⟨-, e1, e2⟩ := copy_pointers _ r c o ho hc hok
  have e0 : timed (p ++ c :: l) = TCall.runs (timed (p ++ [c])) l := by simp [timed, TCall.runs]
  have e3 : timed (p ++ [c]) = (c.run (timed p)).1 := by simp [timed, TCall.runs]
  have hp : pointers (timed p) r = some (o.time, o.signature.1, o.signature.2) := by simp [pointers, ho]
  obtain ⟨a1, a2, a3⟩ := C198_exact_partial (p ++ [c]) l r _ _ _ (by rw [e3, e2, hp]) fun d hd => (hl d hd).1
  obtain ⟨b1, b2, b3⟩ := C198_exact_partial (p ++ [c]) l (timed p).objs.length _ _ _ (by rw [e3, e1, hp]) fun d hd => (hl d hd).2
  rw [e0, a2, a3, b1, b2, b3, hp]
  exact ⟨rfl, rfl, rfl⟩

/-- The objects of a decoded record are new ones. -/
theorem addMapped_fresh (w : TWorld) (i : RecInfo) (l : List TCall) (hk : KeepsFrom w.nums.length l) :
    timeOf (TCall.runs (w.addMapped i) l) w.objs.length = i.timestamp ∧
      sigOf (TCall.runs (w.addMapped i) l) w.objs.length = (i.signature.map Prod.fst, i.signature.map Prod.snd) := by
  obtain ⟨t, a, b, e1, e2, rfl, rfl, rfl⟩ := addMapped_eq w i
  have keep : ∀ (l : List TCall) (q : Nat) (v : Int), KeepsFrom w.nums.length l → w.nums.length ≤ q → lastAssigned q v l = v := by
    intro l q
    induction l with
    | nil => exact fun v _ _ => rfl
    | cons c l ih =>
      intro v hk hq
      have hk' : KeepsFrom w.nums.length l := fun c hc => hk c (by simp [hc])
      cases c with
      | assign p x =>
        have := hk _ (by simp) p x rfl
        simp only [lastAssigned]
        rw [if_neg (by omega)]
        exact ih v hk' hq
      | _ => exact ih v hk' hq
  have ho : (w.addMapped i).objs[w.objs.length]? = some (.mapped i (i.timestamp.map fun _ => w.nums.length)
      (i.signature.map fun _ => w.nums.length + i.timestamp.toList.length)
      (i.signature.map fun _ => w.nums.length + i.timestamp.toList.length + 1)) := by rw [e1]; simp
  have h1 := (runs_objs l _ _ _ ho).2.2 _ _ _ _ rfl
  have look : ∀ (q : Nat) (v : Int), (w.addMapped i).nums[q]? = some v → w.nums.length ≤ q →
      (TCall.runs (w.addMapped i) l).nums[q]? = some v := by
    intro q v e hq
    rw [runs_nums l _ q v e, keep l q v hk hq]
  simp only [timeOf, sigOf, h1, Option.bind_some, TObj.time, TObj.signature, TWorld.deref]
  rcases i with ⟨_, _, _, _, t, g⟩
  simp only at e2 look ⊢
  refine ⟨?_, ?_⟩
  · cases t with
    | none => rfl
    | some t => exact look _ _ (by rw [e2]; simp) (Nat.le_refl _)
  · cases g with
    | none => rfl
    | some g =>
      simp only [Option.map_some, Option.bind_some]
      rw [look (w.nums.length + t.toList.length) g.1 (by rw [e2]; cases t <;> simp) (by omega),
        look (w.nums.length + t.toList.length + 1) g.2 (by rw [e2]; cases t <;> simp [List.getElem?_append, Nat.add_assoc]) (by omega)]

/-- A decoded record shows what its bytes say as long as nobody changes its own objects, and its copies show what the bytes say even if
somebody did. -/
theorem C198_decoded (p l m : List TCall) (buf : Bytes) (hb : buf.length < 2 ^ 63) (i : RecInfo) (n : Nat)
    (hd : decodeRecord buf = .ok (i, n)) (r c : Nat) (hr : r = (timed p).objs.length)
    (hc : c = (timed (p ++ .decode buf :: l)).objs.length) :
    (KeepsFrom (timed p).nums.length l → timeOf (timed (p ++ .decode buf :: l)) r = i.timestamp ∧
      sigOf (timed (p ++ .decode buf :: l)) r = (i.signature.map Prod.fst, i.signature.map Prod.snd)) ∧
    (copyableRec i → KeepsFrom (timed (p ++ .decode buf :: l)).nums.length m →
      ((TCall.copy r).run (timed (p ++ .decode buf :: l))).2 = .ok () ∧
      timeOf (timed (p ++ .decode buf :: l ++ .copy r :: m)) c = i.timestamp ∧
      sigOf (timed (p ++ .decode buf :: l ++ .copy r :: m)) c = (i.signature.map Prod.fst, i.signature.map Prod.snd)) := by
  have e1 : timed (p ++ .decode buf :: l) = TCall.runs ((timed p).addMapped i) l := by
    simp [timed, TCall.runs, TCall.run, TWorld.decode, hd]
  subst hr
  refine ⟨fun hk => by rw [e1]; exact addMapped_fresh _ i l hk, fun hcp hk => ?_⟩
  obtain ⟨t, a, b, e2, -⟩ := addMapped_eq (timed p) i
  have ho : ((timed p).addMapped i).objs[(timed p).objs.length]? = some (.mapped i t a b) := by rw [e2]; simp
  have h1 := (runs_objs l _ _ _ ho).2.2 _ _ _ _ rfl
  rw [← e1] at h1
  obtain ⟨j, hj, -, -, -, -, j1, j2⟩ := (copyMapped_real (r := i) (by rw [realRec]; exact ⟨buf, n, hb, hd⟩)).1 hcp
  have h2 : (TCall.copy (timed p).objs.length).run (timed (p ++ .decode buf :: l)) =
      ((timed (p ++ .decode buf :: l)).addMapped j, .ok ()) := by
    simp only [TCall.run, TWorld.copy, h1, hj]
  have h3 : timed (p ++ .decode buf :: l ++ .copy (timed p).objs.length :: m) =
      TCall.runs ((timed (p ++ .decode buf :: l)).addMapped j) m := by
    rw [timed, tRuns_append]
    show TCall.runs ((TCall.copy (timed p).objs.length).run (timed (p ++ .decode buf :: l))).1 m = _
    rw [h2]
  rw [h2, h3, hc, ← j1, ← j2]
  exact ⟨rfl, addMapped_fresh _ j m hk⟩

/-- The bytes of a record end with those of its time and signature, and the rest does not depend on them. -/
theorem encode_stamp {k : Option KeyObj} {v s : Option CVal} {t a b : Option Int} {o : Bytes} (h : (CRec.record k v s t a b).encode = .ok o) :
    ∃ m pre, ∀ t a b, (CRec.record k v s t a b).encode = .ok ((m ||| (timePart t a b).1) :: (pre ++ (timePart t a b).2)) := by
  rw [CRec.encode] at h
  obtain ⟨⟨m1, b1⟩, h1, h⟩ := Res.bind_eq_ok.mp h
  obtain ⟨⟨m2, b2⟩, h2, h⟩ := Res.bind_eq_ok.mp h
  obtain ⟨⟨m3, b3⟩, h3, h⟩ := Res.bind_eq_ok.mp h
  refine ⟨0x00 ||| m1 ||| m2 ||| m3, b1 ++ b2 ++ b3, fun t a b => ?_⟩
  rw [CRec.encode, h1, Res.bind_ok]
  dsimp only
  rw [h2, Res.bind_ok]
  dsimp only
  rw [h3, Res.bind_ok]

theorem stampBytes_eq (w : TWorld) (r : Nat) (x : TRec) (h : w.objs[r]? = some (.record x)) :
    stampBytes w r = (timePart (w.deref x.time) (w.deref x.sigR) (w.deref x.sigS)).2 := by
  simp only [stampBytes, timeOf, sigOf, h, Option.bind_some, TObj.time, TObj.signature]
  cases w.deref x.time <;> cases w.deref x.sigR <;> cases w.deref x.sigS <;> simp [timePart]

theorem timePart_mask {t a b t' a' b' : Option Int} (h1 : t.isSome = t'.isSome) (h2 : a.isSome = a'.isSome) (h3 : b.isSome = b'.isSome) :
    (timePart t a b).1 = (timePart t' a' b').1 := by
  cases t <;> cases t' <;> simp at h1 <;> cases a <;> cases a' <;> simp at h2 <;> cases b <;> cases b' <;> simp at h3 <;> rfl

theorem deref_isSome (w : TWorld) (l : List TCall) (p : Option Nat) (h : ∀ q, p = some q → q < w.nums.length) :
    ((TCall.runs w l).deref p).isSome = (w.deref p).isSome := by
  rw [deref_runs w l p h]
  cases p with
  | none => rfl
  | some q => simp only [lastAt, TWorld.deref, Option.bind_some]; cases w.nums[q]? <;> rfl

/-- The bytes of an encoded record stay as they are until the record is set or encoded again; they are those of its current content
exactly if the bytes of its current time and signature are the ones it had. -/
theorem C198_stale_partial (p l : List TCall) (r : Nat) (hok : ((TCall.encode r).run (timed p)).2 = .ok ())
    (hl : ∀ c ∈ l, c.sets r = false ∧ c.encodes r = false) :
    ∃ b o, (timed (p ++ .encode r :: l)).objs[r]? = some o ∧ o.isEncoded = true ∧ o.buf = .ok b ∧ encodesTo (timed p) r b ∧
      (encodesTo (timed (p ++ .encode r :: l)) r b ↔ stampBytes (timed (p ++ .encode r :: l)) r = stampBytes (timed p) r) := by
  cases ho : (timed p).objs[r]? with
  | none => simp [TCall.run, TWorld.encode, ho] at hok
  | some o =>
    cases o with
    | mapped i t a b => simp [TCall.run, TWorld.encode, ho] at hok
    | record x =>
      have hr : r < (timed p).objs.length := (List.getElem?_eq_some_iff.mp ho).1
      simp only [TCall.run, TWorld.encode, ho] at hok
      cases he : ((timed p).toRec x).encode with
      | err => simp [he] at hok
      | panic => simp [he] at hok
      | ok b =>
        obtain ⟨w0, hw⟩ : ∃ w0, w0 = ((TCall.encode r).run (timed p)).1 := ⟨_, rfl⟩
        have hw' : w0 = { timed p with objs := (timed p).objs.set r (.record { x with buf := b, encoded := true }) } := by
          rw [hw]
          simp only [TCall.run, TWorld.encode, ho, he]
        have hn : w0.nums = (timed p).nums := by rw [hw']
        have e1 : timed (p ++ .encode r :: l) = TCall.runs w0 l := by
          rw [timed, tRuns_append, hw]
          rfl
        have h0 : w0.objs[r]? = some (.record { x with buf := b, encoded := true }) := by rw [hw']; simp [hr]
        have h1 := (runs_objs l w0 r _ h0).1 hl
        rw [← e1] at h1
        have hin := timed_ptrs p _ (List.mem_of_getElem? ho)
        rw [← hn] at hin
        simp only [PtrsIn, TObj.time, TObj.signature] at hin
        refine ⟨b, _, h1, rfl, rfl, ⟨x, ho, he⟩, ?_⟩
        rw [stampBytes_eq _ _ _ h1, stampBytes_eq _ _ _ ho]
        obtain ⟨m, pre, hf⟩ := encode_stamp he
        have hd : ∀ q, w0.deref q = (timed p).deref q := fun q => by simp only [TWorld.deref, hn]
        have hm : (timePart ((timed (p ++ .encode r :: l)).deref x.time) ((timed (p ++ .encode r :: l)).deref x.sigR)
            ((timed (p ++ .encode r :: l)).deref x.sigS)).1 =
            (timePart ((timed p).deref x.time) ((timed p).deref x.sigR) ((timed p).deref x.sigS)).1 := by
          apply timePart_mask
          · rw [e1, deref_isSome w0 l _ hin.1, hd]
          · rw [e1, deref_isSome w0 l _ hin.2.1, hd]
          · rw [e1, deref_isSome w0 l _ hin.2.2, hd]
        have hb : b = _ := Res.ok.inj (he.symm.trans (hf _ _ _))
        constructor
        · rintro ⟨y, hy, hye⟩
          rw [h1] at hy
          simp only [Option.some.injEq, TObj.record.injEq] at hy
          subst hy
          have := Res.ok.inj (hye.symm.trans (hf _ _ _))
          rw [hb] at this
          simp only [List.cons.injEq, List.append_cancel_left_eq] at this
          exact this.2.symm
        · intro e
          refine ⟨_, h1, ?_⟩
          refine (hf _ _ _).trans ?_
          rw [hb]
          dsimp only at e hm ⊢
          rw [e, hm]

/-! ### Examples -/

/-- A time 7, a record with it, its copy, and the time changed to 9. -/
def sharedTime : List TCall := [.newNum 7, .newRecord, .setTimestamp 0 (some 0), .copy 0]

/-- Copying a record and assigning to the time afterwards changes both. -/
theorem C198_refuted : ¬ TimesImmutable := by
  intro h
  have := (h sharedTime [.assign 0 9] 1 (by decide +kernel) (by simp [TCall.stamps])).1
  revert this
  decide +kernel

example : timeOf (timed sharedTime) 0 = some 7 ∧ timeOf (timed sharedTime) 1 = some 7 ∧
    timeOf (timed (sharedTime ++ [.assign 0 9])) 0 = some 9 ∧ timeOf (timed (sharedTime ++ [.assign 0 9])) 1 = some 9 := by decide +kernel

example : pointers (timed sharedTime) 1 = some (some 0, none, none) := by decide +kernel

example : lastAt (timed sharedTime) (some 0) [.assign 0 8, .encode 0, .assign 0 9] = some 9 := by decide +kernel

/-- `C198_unassigned` for a program that sets the other record, encodes and copies. -/
example : timeOf (TCall.runs (timed sharedTime) [.newNum 3, .setTimestamp 0 (some 1), .encode 0, .copy 1]) 1 = some 7 := by
  rw [(C198_unassigned sharedTime _ 1 (by decide +kernel) (by simp [TCall.stamps]) (by simp [KeepsFrom])).1]
  decide +kernel

/-- A call of a setter on a constructed record: its pointer is the one of the program. -/
example : pointers ((TCall.setTimestamp 1 (some 0)).run (timed sharedTime)).1 1 = some (some 0, none, none) ∧
    pointers ((TCall.setSignature 1 (some 0) none).run (timed sharedTime)).1 1 = some (some 0, some 0, none) := by decide +kernel

/-- An encoded record is set. -/
example : ((timed (sharedTime ++ [.encode 0])).objs[0]?.map TObj.isEncoded) = some true ∧
    ((TCall.setTimestamp 0 none).run (timed (sharedTime ++ [.encode 0]))).2 = .ok () := by decide +kernel

/-- `C198_shared_partial` for the first record and the result of `CopyConstruct`. -/
example : timeOf (timed (sharedTime ++ .copyConstruct 0 :: [.assign 0 9])) 2 = timeOf (timed (sharedTime ++ .copyConstruct 0 :: [.assign 0 9])) 0 := by
  have h : (timed sharedTime).objs.length = 2 := by decide +kernel
  have := (C198_shared_partial sharedTime [.assign 0 9] 0 (.copyConstruct 0) _
    (List.getElem?_eq_getElem (by rw [h]; omega)) (Or.inl rfl) (by decide +kernel) (by simp [TCall.stamps])).1
  rwa [h] at this

/-- A record without sub keys, with the value "a" and the time 5. -/
def timedBytes : Bytes := [0x74, 0, 1, 1, 0x61, 0, 0, 0, 0, 0, 0, 0, 0, 5]

example : ∃ i, decodeRecord timedBytes = .ok (i, 14) ∧ i.timestamp = some 5 ∧ i.buf = timedBytes ∧ copyableRec i :=
  ⟨⟨timedBytes, ⟨[], timedBytes.drop 1⟩, ⟨[0x01, 1, 0x61], .prim, 0, [0x61]⟩, ⟨[0x00], .prim, 0, []⟩, some 5, none⟩, by decide +kernel, rfl, rfl,
    [0], [1, 1, 0x61, 0, 0, 0, 0, 0, 0, 0, 0, 5], rfl, .last 0 (by decide), by decide⟩

/-- The time of a decoded record is changed; its copy has the one of the bytes, the result of `CopyConstruct` the changed one. -/
example : timeOf (timed [.decode timedBytes, .assign 0 6, .copy 0, .copyConstruct 0]) 0 = some 6 ∧
    timeOf (timed [.decode timedBytes, .assign 0 6, .copy 0, .copyConstruct 0]) 1 = some 5 ∧
    timeOf (timed [.decode timedBytes, .assign 0 6, .copy 0, .copyConstruct 0]) 2 = some 6 := by decide +kernel

/-- A record is encoded; then its time is changed, and later set to the old one. -/
example : ((TCall.encode 0).run (timed sharedTime)).2 = .ok () ∧
    stampBytes (timed (sharedTime ++ .encode 0 :: [.assign 0 9])) 0 ≠ stampBytes (timed sharedTime) 0 ∧
    stampBytes (timed (sharedTime ++ .encode 0 :: [.assign 0 9, .assign 0 7])) 0 = stampBytes (timed sharedTime) 0 := by decide +kernel

example := C198_exact_partial sharedTime [.assign 0 8, .encode 0, .assign 0 9] 1 (some 0) none none (by decide +kernel) (by simp [TCall.stamps])

example := C198_set (timed sharedTime) 1 (some 0) none none (by decide +kernel) (some 0) none (by
  have h : 0 < (timed sharedTime).nums.length := by decide +kernel
  rintro x (hx | hx)
  · cases hx; exact h
  · cases hx)

example := C198_marked (timed (sharedTime ++ [.encode 0])) 0 (.setTimestamp 0 none) rfl (by decide +kernel)

example := C198_decoded sharedTime [.assign 0 6] [.assign 0 7] timedBytes (by decide +kernel)
  ⟨timedBytes, ⟨[], timedBytes.drop 1⟩, ⟨[0x01, 1, 0x61], .prim, 0, [0x61]⟩, ⟨[0x00], .prim, 0, []⟩, some 5, none⟩ 14 (by decide +kernel) _ _ rfl rfl

example := C198_stale_partial sharedTime [.assign 0 9] 0 (by decide +kernel) (by simp [TCall.sets, TCall.encodes])

end Poodle.Props
