import Verif.Model.KeyMap
import Verif.Props.SortedIter
import Verif.Props.HashLoad

/-
Properties C155-C157: hash maps and sorted maps with composite keys (/repo/src/util/key_util.go, /repo/src/collection).
A composite key is meant to stand for the sequence of its sub keys; the specification is a finite map from such sequences.
-/

namespace Poodle.Props
open Poodle Poodle.Spec

variable {V : Type}

/-- A call, with the key replaced by the sequence of its sub keys. -/
def onSub : MapOp KeyObj V → MapOp (List Slice) V
  | .put k v => .put k.subKeys v
  | .remove k => .remove k.subKeys

/-- Sequences of sub keys are identified if they are the same. -/
def sameSub (a b : List Slice) : Bool := decide (a = b)

theorem keyHashOps_equal (seed : UInt32) (a b : KeyObj) : (keyHashOps seed).equal a b = sameSub a.subKeys b.subKeys := by
  simp only [keyHashOps, KeyObj.equal?_eq, sameSub, Option.getD_some]

theorem keyHashOps_lawful (seed : UInt32) : LawfulHash (keyHashOps seed) := by
  refine ⟨?_, ?_, ?_, ?_⟩
  · intro a; simp [keyHashOps_equal, sameSub]
  · intro a b; simp only [keyHashOps_equal, sameSub, decide_eq_true_eq]; exact Eq.symm
  · intro a b c; simp only [keyHashOps_equal, sameSub, decide_eq_true_eq]; exact Eq.trans
  · intro a b h
    refine C14_equal_keys_hash_equal a b _ ?_
    rw [(C12_key_equal_iff a b).1]
    simpa only [keyHashOps_equal, sameSub, decide_eq_true_eq] using h

theorem runE_sub (seed : UInt32) (os : List (MapOp KeyObj V)) (m : List Slice → Option V) :
    runE (keyHashOps seed).equal (fun k => m k.subKeys) os =
      (fun k => (runE sameSub m (os.map onSub)).1 k.subKeys, (runE sameSub m (os.map onSub)).2) := by
  induction os generalizing m with
  | nil => rfl
  | cons o os ih =>
    cases o with
    | put k v =>
      simp only [runE, List.map_cons, onSub]
      have e : (fun x : KeyObj => if (keyHashOps seed).equal x k = true then some v else m x.subKeys) =
          fun x => (fun y : List Slice => if sameSub y k.subKeys = true then some v else m y) x.subKeys := by
        funext x; simp only [keyHashOps_equal]
      rw [e, ih (fun y : List Slice => if sameSub y k.subKeys = true then some v else m y)]
    | remove k =>
      simp only [runE, List.map_cons, onSub]
      have e : (fun x : KeyObj => if (keyHashOps seed).equal x k = true then none else m x.subKeys) =
          fun x => (fun y : List Slice => if sameSub y k.subKeys = true then none else m y) x.subKeys := by
        funext x; simp only [keyHashOps_equal]
      rw [e, ih (fun y : List Slice => if sameSub y k.subKeys = true then none else m y)]

/-! ### C155 Hash maps with composite keys -/

/-- C155: whatever the seed, a hash map whose keys are composite keys (constructed, decoded and empty ones in any mixture) is a finite map
from sequences of sub keys: no call panics, and every call returns what the finite map returns. -/
theorem C155_map {pol : ResizePolicy} (seed : UInt32) (cap : Int) (hc : cap < 2 ^ 32) (os : List (MapOp KeyObj V)) (hpol : Modest pol os.length) :
    ∃ h, runHash (keyHashOps seed) pol (HashTab.new cap) os = some (h, (runE sameSub (fun _ => none) (os.map onSub)).2) ∧
      (∀ k, h.get (keyHashOps seed) k = some ((runE sameSub (fun _ => none) (os.map onSub)).1 k.subKeys)) := by
  obtain ⟨h, h1, h2, -⟩ := C28_hashMap_refines (keyHashOps_lawful seed) cap hc os hpol
  have e := runE_sub seed os (fun _ => (none : Option V))
  rw [e] at h1 h2
  exact ⟨h, h1, h2⟩

example := C155_map (pol := wildPolicy) 7 10 (by decide)
  [.put (.key (newSimpleKey (some [97]))) 1, .put (.key (newSimpleKey (some [98]))) 2, .remove (.key (newSimpleKey (some [97])))] (wildPolicy_modest _)

/-- C155 for default hash maps, whose resizing is modelled exactly. -/
theorem C155_default (seed : UInt32) (os : List (MapOp KeyObj V)) (hos : os.length ≤ 2 ^ 30) :
    ∃ h, runHash (keyHashOps seed) floatPolicy (HashTab.new 10) os = some (h, (runE sameSub (fun _ => none) (os.map onSub)).2) ∧
      (∀ k, h.get (keyHashOps seed) k = some ((runE sameSub (fun _ => none) (os.map onSub)).1 k.subKeys)) :=
  C155_map seed 10 (by norm_num) os fun s len c h0 hs hlen h => floatPolicy_modest s len c h0 (by push_cast; omega) hlen h

/-- A constructed and a decoded key with the same sub keys are the same key of the map; one with more sub keys is not. -/
example : ((runHash (keyHashOps 7) floatPolicy (HashTab.new 10)
    [.put (.key (newSimpleKey (some [97]))) 1, .put (.mapped ⟨[some [97]], [1, 1, 97]⟩) 2,
      .put (.mapped ⟨[some [97], some [98]], [2, 1, 97, 1, 98]⟩) 3, .remove .empty, .remove (.key (newSimpleKey (some [97])))]).map Prod.snd) =
    some [none, some 1, none, none, some (2 : Nat)] := by decide +kernel

/-! ### C156 Sorted maps with composite keys -/

/-- The full claim of C156: a sorted map with composite keys is a finite map from sequences of sub keys, and no call panics. -/
def KeyMapIsFiniteMap : Prop :=
  ∀ (V : Type) (os : List (MapOp KeyObj V)),
    (runMap compositeKeyOps SortedMap.new os).2 = (FMap.run compare FMap.empty (os.map onSub)).2.map some ∧
      ∀ k, ((runMap compositeKeyOps SortedMap.new os).1).get compositeKeyOps k =
        some ((FMap.run compare FMap.empty (os.map onSub)).1 k.subKeys)

/-- C156 is refuted: after a key was put, putting the key without its last sub key panics. -/
theorem C156_refuted : ¬ KeyMapIsFiniteMap := by
  intro h
  have := (h Unit [.put (.key ⟨false, [some [97], some [98]], none, 5⟩) (), .put (.key (newSimpleKey (some [97]))) ()]).1
  have h2 : (runMap compositeKeyOps (SortedMap.new : SortedMap KeyObj Unit)
      [.put (.key ⟨false, [some [97], some [98]], none, 5⟩) (), .put (.key (newSimpleKey (some [97]))) ()]).2 = [some none, none] := by
    decide +kernel
  rw [h2] at this
  simp [FMap.run, onSub] at this

/-- The sequence `e` continues `k`, or at the first difference its sub key continues that of `k`. -/
def BlockedBy (k e : List Slice) : Prop :=
  (k <+: e ∧ k ≠ e) ∨ ∃ c u w a b, e = c ++ some u :: a ∧ k = c ++ some w :: b ∧ w <+: u ∧ w ≠ u

theorem compare_none_iff (a b : KeyObj) : compositeKeyOps.compare a b = none ↔ BlockedBy b.subKeys a.subKeys := by
  have h1 : compositeKeyOps.compare a b = none ↔ a.compare b = .panic := by
    simp only [compositeKeyOps]
    rcases h : a.compare b with c | - | -
    · simp
    · rw [KeyObj.compare_eq] at h; exact absurd h (keyCmpRec_not_err _ _)
    · simp
  rw [h1, C13_key_compare_panics_iff_partial]
  constructor
  · rintro (⟨x, a', h⟩ | ⟨c, u, w, a', b', h⟩)
    · exact .inl ⟨⟨_, h.symm⟩, fun e => by rw [← e] at h; have := congrArg List.length h; simp at this⟩
    · exact .inr ⟨c, u, w, a', b', h⟩
  · rintro (⟨⟨t, h⟩, hne⟩ | ⟨c, u, w, a', b', h⟩)
    · cases t with
      | nil => exact absurd (by simpa using h) hne
      | cons x t => exact .inl ⟨x, t, h.symm⟩
    · exact .inr ⟨c, u, w, a', b', h⟩

theorem runs_sub {m m' : FMap KeyObj V} {os : List (MapOp KeyObj V)} {rs : List (Option (Option V))}
    (h : FMap.Runs compositeCmp m os rs m') (f : FMap (List Slice) V) (hf : m = fun k => f k.subKeys) :
    ∃ f', FMap.Runs compare f (os.map onSub) rs f' ∧ m' = fun k => f' k.subKeys := by
  induction h generalizing f with
  | nil m => exact ⟨f, .nil _, hf⟩
  | crash m op ops rs m' _ ih =>
    obtain ⟨f', h1, h2⟩ := ih f hf
    exact ⟨f', .crash _ _ _ _ _ h1, h2⟩
  | put m k v ops rs m' _ ih =>
    obtain ⟨f', h1, h2⟩ := ih (f.put compare k.subKeys v) (by subst hf; funext x; rfl)
    refine ⟨f', ?_, h2⟩
    subst hf
    exact .put _ _ _ _ _ _ h1
  | remove m k ops rs m' _ ih =>
    obtain ⟨f', h1, h2⟩ := ih (f.remove compare k.subKeys) (by subst hf; funext x; rfl)
    refine ⟨f', ?_, h2⟩
    subst hf
    exact .remove _ _ _ _ _ h1

/-- C156, what holds of all keys: a call returns what the finite map returns, or it panics and has no effect, and it panics only if its key
is blocked by a key in the map. -/
theorem C156_blocked_partial (os : List (MapOp KeyObj V)) :
    let m := (runMap compositeKeyOps SortedMap.new os).1
    ∃ f : FMap (List Slice) V, FMap.Runs compare FMap.empty (os.map onSub) (runMap compositeKeyOps SortedMap.new os).2 f ∧
      (∀ k, m.get compositeKeyOps k = some (f k.subKeys) ∨
        m.get compositeKeyOps k = none ∧ ∃ e, (f e).isSome ∧ BlockedBy k.subKeys e) ∧
      (∀ k v, (m.put compositeKeyOps k v).2 = some (f k.subKeys) ∨
        m.put compositeKeyOps k v = (m, none) ∧ ∃ e, (f e).isSome ∧ BlockedBy k.subKeys e) ∧
      (∀ k, (m.remove compositeKeyOps k).2 = some (f k.subKeys) ∨
        m.remove compositeKeyOps k = (m, none) ∧ ∃ e, (f e).isSome ∧ BlockedBy k.subKeys e) := by
  obtain ⟨hl, hg⟩ := C24_composite_keys
  obtain ⟨hm, hr⟩ := runMap_runs hl hg os SortedMap.new (new_good (cmp := compositeCmp))
  rw [contents_new] at hr
  obtain ⟨f, hf, hc⟩ := runs_sub hr FMap.empty rfl
  have key : ∀ k, (∃ e ∈ entries (runMap compositeKeyOps (SortedMap.new : SortedMap KeyObj V) os).1.root,
      compositeKeyOps.compare e.1 k = none) → ∃ e, (f e).isSome ∧ BlockedBy k.subKeys e := by
    rintro k ⟨e, he, h⟩
    refine ⟨e.1.subKeys, ?_, (compare_none_iff _ _).mp h⟩
    have : (contents compositeCmp (runMap compositeKeyOps (SortedMap.new : SortedMap KeyObj V) os).1 e.1).isSome := by
      unfold contents lookL
      rw [Option.isSome_map, findL_isSome_iff]
      exact ⟨e, he, Std.ReflCmp.compare_self⟩
    rw [hc] at this
    exact this
  refine ⟨f, hf, fun k => ?_, fun k v => ?_, fun k => ?_⟩
  · rcases get_step hl _ hm k with ⟨h1, h⟩ | h
    · exact .inr ⟨h, key k h1⟩
    · left; rw [h, hc]
  · rcases put_step hl _ hm k v with ⟨h1, h⟩ | ⟨m', h, -⟩
    · exact .inr ⟨h, key k h1⟩
    · left; rw [h, hc]
  · rcases remove_step hl hg _ hm k with ⟨h1, h⟩ | ⟨m', h, -⟩
    · exact .inr ⟨h, key k h1⟩
    · left; rw [h, hc]

example : (runMap compositeKeyOps SortedMap.new [.put (.key ⟨false, [some [97], some [98]], none, 5⟩) 1, .put (.key (newSimpleKey (some [97]))) 2,
    .put (.mapped ⟨[some [98]], [1, 1, 98]⟩) 3, .put .empty 4, .remove (.mapped ⟨[some [97], some [98]], [2, 1, 97, 1, 98]⟩)]).2
    = [some none, none, some none, none, some (some (1 : Nat))] := by decide +kernel

theorem run_sub (os : List (MapOp KeyObj V)) (f : FMap (List Slice) V) :
    FMap.run compositeCmp (fun k => f k.subKeys) os =
      (fun k => (FMap.run compare f (os.map onSub)).1 k.subKeys, (FMap.run compare f (os.map onSub)).2) := by
  induction os generalizing f with
  | nil => rfl
  | cons o os ih =>
    cases o with
    | put k v =>
      simp only [FMap.run, List.map_cons, onSub]
      rw [show FMap.put compositeCmp (fun k => f k.subKeys) k v = fun x => (f.put compare k.subKeys v) x.subKeys from rfl, ih]
    | remove k =>
      simp only [FMap.run, List.map_cons, onSub]
      rw [show FMap.remove compositeCmp (fun k => f k.subKeys) k = fun x => (f.remove compare k.subKeys) x.subKeys from rfl, ih]

/-- C156 for keys of which none blocks another: the map is a finite map from sequences of sub keys. -/
theorem C156_unblocked_partial (P : KeyObj → Prop) (hP : ∀ a b, P a → P b → ¬ BlockedBy a.subKeys b.subKeys)
    (os : List (MapOp KeyObj V)) (hos : ∀ o ∈ os, P (opKey o)) :
    (runMap compositeKeyOps SortedMap.new os).2 = (FMap.run compare FMap.empty (os.map onSub)).2.map some ∧
      ∀ k, P k → ((runMap compositeKeyOps SortedMap.new os).1).get compositeKeyOps k =
        some ((FMap.run compare FMap.empty (os.map onSub)).1 k.subKeys) := by
  obtain ⟨hl, -⟩ := C24_composite_keys
  have hP' : ∀ a b, P a → P b → compositeKeyOps.compare a b ≠ none := fun a b ha hb h => hP b a hb ha ((compare_none_iff a b).mp h)
  obtain ⟨h1, h2, h3, h4⟩ := runs_keys (cmp := compositeCmp) hl P os hos hP' SortedMap.new new_good (by simp [SortedMap.new, entries])
  have e := run_sub os (FMap.empty : FMap (List Slice) V)
  have e0 : contents compositeCmp (SortedMap.new : SortedMap KeyObj V) = fun k => FMap.empty k.subKeys := contents_new
  rw [e0, e] at h1 h2
  refine ⟨h1, fun k hk => ?_⟩
  rcases get_step hl _ h3 k with ⟨⟨e, he, h⟩, -⟩ | h
  · exact absurd h (hP' _ _ (h4 e he) hk)
  · rw [h, h2]

/-- Sub keys of which none is a prefix of another one. -/
example := C156_unblocked_partial (fun k => k = .key (newSimpleKey (some [97])) ∨ k = .key (newSimpleKey (some [98])))
  (by
    intro a b ha hb hab
    rw [← compare_none_iff] at hab
    revert hab
    rcases ha with rfl | rfl <;> rcases hb with rfl | rfl <;> decide +kernel)
  [.put (.key (newSimpleKey (some [98]))) 1, .put (.key (newSimpleKey (some [97]))) 2, .remove (.key (newSimpleKey (some [98])))]
  (by simp [opKey])

/-- Sub keys of the same lengths. -/
def widths (k : List Slice) : List Nat := k.map fun s => s.bytes.length

theorem not_blocked_of_widths {a b : List Slice} (h : widths a = widths b) : ¬ BlockedBy a b := by
  rintro (⟨h1, h2⟩ | ⟨c, u, w, x, y, rfl, rfl, h1, h2⟩)
  · exact h2 (h1.eq_of_length (by simpa [widths] using congrArg List.length h))
  · simp only [widths, List.map_append, List.map_cons] at h
    have := List.append_cancel_left h
    simp only [List.cons.injEq] at this
    exact h2 (h1.eq_of_length (by simpa [Slice.bytes] using this.1))

/-- C156 for keys of a fixed format, with as many sub keys of the same lengths: the map is a finite map. -/
theorem C156_fixed_format_partial (ws : List Nat) (os : List (MapOp KeyObj V)) (hos : ∀ o ∈ os, widths (opKey o).subKeys = ws) :
    (runMap compositeKeyOps SortedMap.new os).2 = (FMap.run compare FMap.empty (os.map onSub)).2.map some ∧
      ∀ k, widths k.subKeys = ws → ((runMap compositeKeyOps SortedMap.new os).1).get compositeKeyOps k =
        some ((FMap.run compare FMap.empty (os.map onSub)).1 k.subKeys) :=
  C156_unblocked_partial (fun k => widths k.subKeys = ws) (fun _ _ ha hb => not_blocked_of_widths (ha.trans hb.symm)) os hos

example : ∀ o ∈ ([.put (.key ⟨false, [some [97], some [98, 99]], none, 6⟩) 1, .remove (.mapped ⟨[some [1], some [2, 3]], [2, 1, 1, 2, 2, 3]⟩)]
    : List (MapOp KeyObj Nat)), widths (opKey o).subKeys = [1, 2] := by decide +kernel

/-- Without bounds an iterator compares no keys. -/
theorem sortedCall_unbounded {K : Type} (ops ops' : KeyOps K) (it : AvlIter K V) (h1 : it.start = none) (h2 : it.stop = none) (c : IterCall) :
    it.sortedCall ops c = it.sortedCall ops' c ∧ (it.sortedCall ops c).1.start = none ∧ (it.sortedCall ops c).1.stop = none := by
  have hb : ∀ (ops : KeyOps K) (p : List (Tree K V)) (c : Tree K V) (q : Nat), AvlIter.bounds ops ⟨p, c, q, none, none⟩ = some ⟨p, c, q, none, none⟩ :=
    fun _ _ _ _ => rfl
  have hs : ∀ (it : AvlIter K V), it.start = none → it.stop = none → AvlIter.step ops it = AvlIter.step ops' it ∧
      ∀ it', AvlIter.step ops it = some it' → it'.start = none ∧ it'.stop = none := by
    intro it h1 h2
    obtain ⟨p, cu, pos, st, en⟩ := it
    simp only at h1 h2
    subst h1 h2
    unfold AvlIter.step
    match pos with
    | 0 =>
      simp only [hb]
      exact ⟨trivial, fun it' h => by simp only [Option.some.injEq] at h; subst h; exact ⟨rfl, rfl⟩⟩
    | 1 =>
      cases cu with
      | nil => simp
      | node k v b l r =>
        cases r with
        | nil =>
          cases p with
          | nil => exact ⟨rfl, fun it' h => by simp only [Option.some.injEq] at h; subst h; exact ⟨rfl, rfl⟩⟩
          | cons q ps =>
            simp only [hb]
            exact ⟨trivial, fun it' h => by simp only [Option.some.injEq] at h; subst h; exact ⟨rfl, rfl⟩⟩
        | node k' v' b' l' r' =>
          simp only [hb]
          exact ⟨trivial, fun it' h => by simp only [Option.some.injEq] at h; subst h; exact ⟨rfl, rfl⟩⟩
    | n + 2 => simp
  have ha : AvlIter.advance ops it = AvlIter.advance ops' it ∧
      ∀ it', AvlIter.advance ops it = some it' → it'.start = none ∧ it'.stop = none := by
    unfold AvlIter.advance
    split
    · exact ⟨rfl, fun it' h => by simp only [Option.some.injEq] at h; subst h; exact ⟨h1, h2⟩⟩
    · exact hs _ h1 h2
    · exact hs _ h1 h2
  refine ⟨?_, ?_⟩
  · simp only [AvlIter.sortedCall, AvlIter.call, AvlIter.next, AvlIter.hasNext, AvlIter.peek, ha.1]
  · rcases had : AvlIter.advance ops it with - | it'
    · cases c <;> simp [AvlIter.sortedCall, AvlIter.call, AvlIter.next, AvlIter.hasNext, AvlIter.peek, had, h1, h2]
    · obtain ⟨h3, h4⟩ := ha.2 it' had
      obtain ⟨p, cu, pos, st, en⟩ := it'
      simp only at h3 h4
      subst h3 h4
      cases c <;> cases cu <;> cases p <;>
        simp [AvlIter.sortedCall, AvlIter.call, AvlIter.next, AvlIter.hasNext, AvlIter.peek, had, h1, h2]

theorem runIter_unbounded {K : Type} (ops ops' : KeyOps K) (cs : List IterCall) (it : AvlIter K V) (h1 : it.start = none) (h2 : it.stop = none) :
    runIter ops it cs = runIter ops' it cs := by
  unfold runIter
  induction cs generalizing it with
  | nil => rfl
  | cons c cs ih =>
    obtain ⟨e1, e2, e3⟩ := sortedCall_unbounded ops ops' it h1 h2 c
    simp only [runCalls]
    rw [ih _ e2 e3, e1]

/-- A total comparison with the order of composite keys. -/
def totalKeyOps : KeyOps KeyObj := ⟨fun a b => compositeCmp a b == .eq, fun a b => some (ordInt (compositeCmp a b))⟩

theorem totalKeyOps_lawful : LawfulKeys totalKeyOps compositeCmp ∧ TotalKeys totalKeyOps := by
  refine ⟨⟨inferInstance, fun a b => by simp [totalKeyOps], fun a b c h => ?_⟩, fun a b => by simp [totalKeyOps]⟩
  simp only [totalKeyOps, Option.some.injEq] at h
  subst h
  exact ordInt_sign _

/-- C156, iteration: whatever calls were made before, and even if some of them panicked, an iterator over the whole map never panics before
the end and returns the entries in the lexicographic order of their sub keys, each once. -/
theorem C156_iteration (os : List (MapOp KeyObj V)) :
    ∃ f : FMap (List Slice) V, FMap.Runs compare FMap.empty (os.map onSub) (runMap compositeKeyOps SortedMap.new os).2 f ∧
      ∃ it l, (runMap compositeKeyOps SortedMap.new os).1.iterator compositeKeyOps = some it ∧
        l.Pairwise (fun a b => compare a.1.subKeys b.1.subKeys = .lt) ∧
        (∀ s v, f s = some v ↔ ∃ k, (k, v) ∈ l ∧ k.subKeys = s) ∧
        ∀ cs, runIter compositeKeyOps it cs = runCalls (listCall .crash) l cs := by
  obtain ⟨hl, hg⟩ := C24_composite_keys
  obtain ⟨hm, hr⟩ := runMap_runs hl hg os SortedMap.new (new_good (cmp := compositeCmp))
  rw [contents_new] at hr
  obtain ⟨f, hf, hc⟩ := runs_sub hr FMap.empty rfl
  obtain ⟨it, hit⟩ := (rangeIterator_ok (ops := compositeKeyOps) (runMap compositeKeyOps (SortedMap.new : SortedMap KeyObj V) os).1 none none).mpr
    (by simp)
  obtain ⟨hw, ho⟩ := new_spec (ops := compositeKeyOps) (cmp := compositeCmp) _ none none hm.increasing it hit
  have hn : it.start = none ∧ it.stop = none := by
    simp only [SortedMap.rangeIterator, AvlIter.new, Option.some.injEq] at hit
    subst hit
    exact ⟨rfl, rfl⟩
  obtain ⟨hi, hv⟩ := lists_entries _ hm
  refine ⟨f, hf, it, entries (runMap compositeKeyOps (SortedMap.new : SortedMap KeyObj V) os).1.root, hit, hi, fun s v => ?_, fun cs => ?_⟩
  · have := hv (.key ⟨false, s, none, 0⟩) v
    rw [hc] at this
    refine this.trans (exists_congr fun k => and_congr_right fun _ => ?_)
    simp only [compositeCmp, Std.LawfulEqCmp.compare_eq_iff_eq]
    exact eq_comm
  · rw [runIter_unbounded compositeKeyOps totalKeyOps cs it hn.1 hn.2]
    have := runCalls_sortedCall totalKeyOps_lawful.1 totalKeyOps_lawful.2 cs it hw
    rw [ho] at this
    exact this

/-- Two keys of which one blocks the other, put in an order that works, and iteration over them. -/
example : let m := (runMap compositeKeyOps SortedMap.new
      [.put (.key (newSimpleKey (some [97]))) 1, .put (.mapped ⟨[some [97], some [98]], [2, 1, 97, 1, 98]⟩) (2 : Nat)]).1
    (m.iterator compositeKeyOps).map (fun it => runIter compositeKeyOps it [.hasNext, .next, .next, .hasNext]) =
      some [.bool true, .yield (.key (newSimpleKey (some [97])), 1), .yield (.mapped ⟨[some [97], some [98]], [2, 1, 97, 1, 98]⟩, 2), .bool false] := by
  decide +kernel

/-! ### C157 Using key objects that are in a map -/

/-- What a program does: a call on the map, or methods of key objects that are in the map, which replace every key object `k` in the map by
`g k`. -/
inductive KeyEvent (V : Type) where
  | call (o : MapOp KeyObj V)
  | touch (g : KeyObj → KeyObj)

/-- The calls among the events. -/
def callsOf : List (KeyEvent V) → List (MapOp KeyObj V)
  | [] => []
  | .call o :: es => o :: callsOf es
  | .touch _ :: es => callsOf es

/-- A program with a hash map (`none`: some call panicked). -/
def runHashEvents (ops : HashOps KeyObj) (pol : ResizePolicy) (h : HashTab KeyObj V) : List (KeyEvent V) → Option (HashTab KeyObj V × List (Option V))
  | [] => some (h, [])
  | .touch g :: es => runHashEvents ops pol (h.touch g) es
  | .call o :: es => match runHash ops pol h [o] with
    | none => none
    | some (h1, r) => match runHashEvents ops pol h1 es with
      | none => none
      | some (h2, rs) => some (h2, r ++ rs)

/-- A program with a sorted map. -/
def runMapEvents (ops : KeyOps KeyObj) (m : SortedMap KeyObj V) : List (KeyEvent V) → SortedMap KeyObj V × List (Option (Option V))
  | [] => (m, [])
  | .touch g :: es => runMapEvents ops (m.touch g) es
  | .call o :: es =>
    let (m1, r) := runMap ops m [o]
    let (m2, rs) := runMapEvents ops m1 es
    (m2, r ++ rs)

/-- The full claim of C157, for hash maps: whatever is done with the key objects (a sub key may be added), every call returns what the finite map
of the calls returns. -/
def KeysMayChange : Prop :=
  ∀ (seed : UInt32) (es : List (KeyEvent Nat)), (∀ g, .touch g ∈ es → ∀ k, g k = k ∨ ∃ j j' s, k = .key j ∧ j.add s = .ok j' ∧ g k = .key j') →
    es.length ≤ 2 ^ 30 → ∃ h, runHashEvents (keyHashOps seed) floatPolicy (HashTab.new 10) es =
      some (h, (runE sameSub (fun _ => none) ((callsOf es).map onSub)).2)

/-- The methods of key objects that keep the sub keys: all but `Add`. -/
def KeepsSub (g : KeyObj → KeyObj) : Prop := ∀ k, (g k).subKeys = k.subKeys

/-- `Encode` keeps the sub keys. -/
theorem encode_keepsSub : KeepsSub fun k => k.encode.1 := by
  intro k
  cases k with
  | empty => rfl
  | mapped m => rfl
  | key k =>
    simp only [KeyObj.encode, Key.encode]
    split
    · rfl
    · split <;> rfl

theorem touch_all (g : KeyObj → KeyObj) (h : HashTab KeyObj V) : (h.touch g).all = h.all.map fun e => (g e.1, e.2) := by
  simp [HashTab.all, HashTab.touch, List.map_flatten]

theorem touch_good (seed : UInt32) {g : KeyObj → KeyObj} (hk : KeepsSub g) {h : HashTab KeyObj V} (hg : GoodTab (keyHashOps seed) h) :
    GoodTab (keyHashOps seed) (h.touch g) ∧ valE (keyHashOps seed) (h.touch g).all = valE (keyHashOps seed) h.all := by
  have hk' : ∀ k, (g k).subKeys = k.subKeys := hk
  have heq : ∀ a b, (keyHashOps seed).equal (g a) b = (keyHashOps seed).equal a b := by
    intro a b; rw [keyHashOps_equal, keyHashOps_equal, hk]
  have hh : ∀ a, (keyHashOps seed).hash (g a) = (keyHashOps seed).hash a := by
    intro a
    exact (keyHashOps_lawful seed).hash _ _ (by rw [keyHashOps_equal, hk]; simp [sameSub])
  refine ⟨⟨by simpa [HashTab.touch] using hg.floor, by simpa [HashTab.touch] using hg.mod, ?_, ?_, ?_⟩, ?_⟩
  · intro i c hc e he
    simp only [HashTab.touch, List.getElem?_map, Option.map_eq_some_iff, List.length_map] at hc ⊢
    obtain ⟨c', hc', rfl⟩ := hc
    simp only [List.mem_map] at he
    obtain ⟨e', he', rfl⟩ := he
    have := hg.placed i c' hc' e' he'
    simpa only [HashTab.index, hh] using this
  · rw [touch_all]
    unfold Distinct
    rw [List.pairwise_map]
    refine hg.distinct.imp ?_
    intro a b hab
    simp only [keyHashOps_equal, hk'] at hab ⊢
    exact hab
  · rw [touch_all, List.length_map]; exact hg.size
  · rw [touch_all]
    funext x
    induction h.all with
    | nil => rfl
    | cons e l ih => rw [List.map_cons, valE_cons, valE_cons, heq, ih]

/-- C157 for hash maps: if the sub keys are kept, using the key objects in the map has no effect: every call returns what the finite map
from sequences of sub keys returns. -/
theorem C157_hash_partial {pol : ResizePolicy} (seed : UInt32) (cap : Int) (hc : cap < 2 ^ 32) (es : List (KeyEvent V))
    (hes : ∀ g, .touch g ∈ es → KeepsSub g) (hpol : Modest pol (callsOf es).length) :
    ∃ h, runHashEvents (keyHashOps seed) pol (HashTab.new cap) es = some (h, (runE sameSub (fun _ => none) ((callsOf es).map onSub)).2) ∧
      ∀ k, h.get (keyHashOps seed) k = some ((runE sameSub (fun _ => none) ((callsOf es).map onSub)).1 k.subKeys) := by
  have hl := keyHashOps_lawful seed
  suffices H : ∀ (es : List (KeyEvent V)) (h : HashTab KeyObj V) (m : List Slice → Option V), (∀ g, .touch g ∈ es → KeepsSub g) →
      GoodTab (keyHashOps seed) h → h.size + (callsOf es).length ≤ (callsOf es).length + h.size →
      ∀ n : Nat, h.size + (callsOf es).length ≤ n → Modest pol n → valE (keyHashOps seed) h.all = (fun k => m k.subKeys) →
      ∃ h', runHashEvents (keyHashOps seed) pol h es = some (h', (runE sameSub m ((callsOf es).map onSub)).2) ∧
        ∀ k, h'.get (keyHashOps seed) k = some ((runE sameSub m ((callsOf es).map onSub)).1 k.subKeys) by
    refine H es (HashTab.new cap) (fun _ => none) hes (new_hash_good cap hc) (by omega) _ (by simp [HashTab.new]) hpol ?_
    rw [all_new]; rfl
  intro es
  induction es with
  | nil =>
    intro h m _ hg _ n _ _ hv
    refine ⟨h, rfl, fun k => ?_⟩
    rw [HashTab.get, getNode_spec hl h hg]
    simp only [Option.map_some, callsOf, List.map_nil, runE, Option.some.injEq]
    exact congrFun hv k
  | cons e es ih =>
    intro h m hes hg _ n hn hpol hv
    have hes' : ∀ g, .touch g ∈ es → KeepsSub g := fun g hm => hes g (by simp [hm])
    cases e with
    | touch g =>
      obtain ⟨g1, g2⟩ := touch_good seed (hes g (by simp)) hg
      simp only [callsOf] at hn ⊢
      exact ih (h.touch g) m hes' g1 (by omega) n hn hpol (by rw [g2, hv])
    | call o =>
      simp only [callsOf, List.length_cons] at hn
      have h0 : 0 ≤ h.size := by rw [hg.size]; omega
      cases o with
      | put k v =>
        obtain ⟨h1, e1, g1, s1, v1⟩ := put_hash_step hl pol h hg k v
          (fun m len c h0 hm hlen hc => hpol m len c h0 (by omega) hlen (.inl hc))
        obtain ⟨h2, e2, g2⟩ := ih h1 (fun x => if sameSub x k.subKeys then some v else m x) hes' g1 (by omega) n (by omega) hpol (by
          rw [v1, hv]; funext x; simp only [keyHashOps_equal])
        have hv' : (lookE (keyHashOps seed) k h.all).map Prod.snd = m k.subKeys := congrFun hv k
        refine ⟨h2, ?_, ?_⟩
        · simp [runHashEvents, runHash, HashTab.put, e1, e2, callsOf, onSub, runE, hv']
        · simpa [callsOf, onSub, runE] using g2
      | remove k =>
        obtain ⟨h1, e1, g1, s1, v1⟩ := remove_hash_step hl pol h hg k
          (fun m len c h0 hm hlen hc => hpol m len c h0 (by omega) hlen (.inr hc))
        obtain ⟨h2, e2, g2⟩ := ih h1 (fun x => if sameSub x k.subKeys then none else m x) hes' g1 (by omega) n (by omega) hpol (by
          rw [v1, hv]; funext x; simp only [keyHashOps_equal])
        have hv' : (lookE (keyHashOps seed) k h.all).map Prod.snd = m k.subKeys := congrFun hv k
        refine ⟨h2, ?_, ?_⟩
        · simp [runHashEvents, runHash, HashTab.remove, e1, e2, callsOf, onSub, runE, hv']
        · simpa [callsOf, onSub, runE] using g2

example : ((runHashEvents (keyHashOps 7) floatPolicy (HashTab.new 10)
    [.call (.put (.key (newSimpleKey (some [97]))) 1), .touch (fun k => k.encode.1), .call (.remove (.key (newSimpleKey (some [97]))))]).map Prod.snd) =
    some [none, some (1 : Nat)] := by decide +kernel

theorem entries_touch (g : KeyObj → KeyObj) (t : Tree KeyObj V) : entries (t.touch g) = (entries t).map fun e => (g e.1, e.2) := by
  induction t with
  | nil => rfl
  | node k v b l r ihl ihr => simp [Tree.touch, entries, ihl, ihr]

theorem height_touch (g : KeyObj → KeyObj) (t : Tree KeyObj V) : height (t.touch g) = height t := by
  induction t with
  | nil => rfl
  | node k v b l r ihl ihr => simp [Tree.touch, height, ihl, ihr]

theorem balanced_touch (g : KeyObj → KeyObj) (t : Tree KeyObj V) (h : Balanced t) : Balanced (t.touch g) := by
  induction t with
  | nil => trivial
  | node k v b l r ihl ihr =>
    simp only [Balanced, Tree.touch, height_touch] at h ⊢
    exact ⟨h.1, h.2.1, h.2.2.1, ihl h.2.2.2.1, ihr h.2.2.2.2⟩

theorem touch_goodMap {g : KeyObj → KeyObj} (hk : KeepsSub g) {m : SortedMap KeyObj V} (hm : GoodMap compositeCmp m) :
    GoodMap compositeCmp (m.touch g) ∧ contents compositeCmp (m.touch g) = contents compositeCmp m := by
  have hk' : ∀ k, (g k).subKeys = k.subKeys := hk
  refine ⟨⟨balanced_touch g _ hm.balanced, ?_, ?_⟩, ?_⟩
  · have := hm.increasing
    simp only [Increasing, SortedMap.touch, entries_touch, List.pairwise_map, compositeCmp, hk'] at this ⊢
    exact this
  · simp only [SortedMap.touch, entries_touch, List.length_map]; exact hm.size
  · funext x
    simp only [contents, lookL, findL, SortedMap.touch, entries_touch, compositeCmp]
    induction entries m.root with
    | nil => rfl
    | cons e l ih =>
      simp only [List.map_cons, List.find?_cons, hk']
      by_cases hd : compare e.1.subKeys x.subKeys = Ordering.eq
      · simp only [hd, decide_true]; rfl
      · simp only [hd, decide_false]; exact ih

/-- C157 for sorted maps: if the sub keys are kept, using the key objects in the map has no effect: every call returns what the finite map
from sequences of sub keys returns, or panics without effect as in C156. -/
theorem C157_sorted_partial (es : List (KeyEvent V)) (hes : ∀ g, .touch g ∈ es → KeepsSub g) :
    ∃ f : FMap (List Slice) V, FMap.Runs compare FMap.empty ((callsOf es).map onSub) (runMapEvents compositeKeyOps SortedMap.new es).2 f ∧
      ∀ k, (runMapEvents compositeKeyOps SortedMap.new es).1.get compositeKeyOps k = some (f k.subKeys) ∨
        (runMapEvents compositeKeyOps SortedMap.new es).1.get compositeKeyOps k = none ∧ ∃ e, (f e).isSome ∧ BlockedBy k.subKeys e := by
  obtain ⟨hl, hg⟩ := C24_composite_keys
  suffices H : ∀ (es : List (KeyEvent V)) (m : SortedMap KeyObj V) (f : FMap (List Slice) V), (∀ g, .touch g ∈ es → KeepsSub g) →
      GoodMap compositeCmp m → contents compositeCmp m = (fun k => f k.subKeys) →
      ∃ f' : FMap (List Slice) V, FMap.Runs compare f ((callsOf es).map onSub) (runMapEvents compositeKeyOps m es).2 f' ∧
        GoodMap compositeCmp (runMapEvents compositeKeyOps m es).1 ∧
        contents compositeCmp (runMapEvents compositeKeyOps m es).1 = fun k => f' k.subKeys by
    obtain ⟨f, h1, h2, h3⟩ := H es SortedMap.new FMap.empty hes new_good contents_new
    refine ⟨f, h1, fun k => ?_⟩
    rcases get_step hl _ h2 k with ⟨⟨e, he, h⟩, h'⟩ | h
    · refine .inr ⟨h', e.1.subKeys, ?_, (compare_none_iff _ _).mp h⟩
      have : (contents compositeCmp (runMapEvents compositeKeyOps (SortedMap.new : SortedMap KeyObj V) es).1 e.1).isSome := by
        unfold contents lookL
        rw [Option.isSome_map, findL_isSome_iff]
        exact ⟨e, he, Std.ReflCmp.compare_self⟩
      rw [h3] at this
      exact this
    · left; rw [h, h3]
  intro es
  induction es with
  | nil => intro m f _ hm hc; exact ⟨f, .nil _, hm, hc⟩
  | cons e es ih =>
    intro m f hes hm hc
    have hes' : ∀ g, .touch g ∈ es → KeepsSub g := fun g hm => hes g (by simp [hm])
    cases e with
    | touch g =>
      obtain ⟨g1, g2⟩ := touch_goodMap (hes g (by simp)) hm
      exact ih (m.touch g) f hes' g1 (by rw [g2, hc])
    | call o =>
      obtain ⟨h1, h2⟩ := runMap_runs hl hg [o] m hm
      obtain ⟨f1, h3, h4⟩ := runs_sub h2 f hc
      obtain ⟨f2, h5, h6, h7⟩ := ih _ f1 hes' h1 h4
      refine ⟨f2, ?_, h6, h7⟩
      simp only [runMapEvents, callsOf, List.map_cons, List.map_nil] at h3 ⊢
      have : ∀ (r : List (Option (Option V))) (x : FMap (List Slice) V), FMap.Runs compare f [onSub o] r x →
          ∀ {os rs y}, FMap.Runs compare x os rs y → FMap.Runs compare f (onSub o :: os) (r ++ rs) y := by
        intro r x hr os rs y hy
        cases o with
        | put k v => cases hr with
          | crash _ _ _ _ _ h => cases h; exact .crash _ _ _ _ _ hy
          | put _ _ _ _ _ _ h => cases h; exact .put _ _ _ _ _ _ hy
        | remove k => cases hr with
          | crash _ _ _ _ _ h => cases h; exact .crash _ _ _ _ _ hy
          | remove _ _ _ _ _ h => cases h; exact .remove _ _ _ _ _ hy
      exact this _ _ h3 h5

example : ∀ g, KeyEvent.touch g ∈ ([.call (.put (.key (newSimpleKey (some [97]))) 1), .touch (fun k => k.encode.1)] : List (KeyEvent Nat)) → KeepsSub g := by
  intro g h
  simp only [List.mem_cons, reduceCtorEq, KeyEvent.touch.injEq, List.not_mem_nil, or_false, false_or] at h
  subst h
  exact encode_keepsSub

/-- Adding the sub key "b" to a constructed key, as `g` of a `touch`. -/
def addB : KeyObj → KeyObj
  | .key j => match j.add (some [98]) with
    | .ok j' => .key j'
    | _ => .key j
  | k => k

/-- C157 is refuted: a sub key added to a key object makes its entry unreachable, under its old and under its new sub keys, though it is
still counted. -/
theorem C157_refuted : ¬ KeysMayChange := by
  intro h
  have hs := h 7 [.call (.put (.key (newSimpleKey (some [97]))) 1), .touch addB, .call (.remove (.key (newSimpleKey (some [97]))))] (by
    intro g hg k
    simp only [List.mem_cons, reduceCtorEq, KeyEvent.touch.injEq, List.not_mem_nil, or_false, false_or] at hg
    subst hg
    cases k with
    | empty => exact .inl rfl
    | mapped m => exact .inl rfl
    | key j => exact .inr ⟨j, _, some [98], rfl, rfl, rfl⟩) (by simp)
  obtain ⟨t, ht⟩ := hs
  have : (runHashEvents (keyHashOps 7) floatPolicy (HashTab.new 10)
      [.call (.put (.key (newSimpleKey (some [97]))) 1), .touch addB, .call (.remove (.key (newSimpleKey (some [97]))))]).map Prod.snd =
      some [none, none] := by decide +kernel
  rw [ht] at this
  simp [callsOf, onSub, runE, sameSub] at this

/-- C157, what becomes of the entry: Get finds it neither under its old nor under its new sub keys, though Size still counts it. -/
theorem C157_lost_partial : (runHashEvents (keyHashOps 7) floatPolicy (HashTab.new 10)
      [.call (.put (.key (newSimpleKey (some [97]))) (1 : Nat)), .touch addB]).map (fun r =>
        (r.1.size, r.1.get (keyHashOps 7) (.key (newSimpleKey (some [97]))), r.1.get (keyHashOps 7) (.key ⟨false, [some [97], some [98]], none, 5⟩))) =
    some (1, some none, some none) := by decide +kernel

end Poodle.Props
