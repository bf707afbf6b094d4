import Verif.Lemmas.HashHeap
import Verif.Props.HashLoad

/-
Properties C230-C232: several hash maps and iterators in one program, on nodes that are changed in place
(/repo/src/collection/hash.go:41-254, hash_map.go).
-/

namespace Poodle.Props
open Poodle Poodle.Spec

variable {K V : Type}

/-- The maps of a program and their tables. -/
structure HRep (w : HWorld K V) (ts : List (HashTab K V)) (own : Owner) : Prop where
  len : w.maps.length = ts.length
  maps : ∀ i m t, w.maps[i]? = some m → ts[i]? = some t → MapRep w.heap own i m t

theorem HRep.get {w : HWorld K V} {ts : List (HashTab K V)} {own : Owner} (r : HRep w ts own) (i : Nat) :
    (w.maps[i]? = none ∧ ts[i]? = none) ∨ ∃ m t, w.maps[i]? = some m ∧ ts[i]? = some t ∧ MapRep w.heap own i m t := by
  rcases lt_or_ge i w.maps.length with hj | hj
  · right
    have h1 : w.maps[i]? = some w.maps[i] := List.getElem?_eq_getElem hj
    have h2 : ts[i]? = some (ts[i]'(r.len ▸ hj)) := List.getElem?_eq_getElem _
    exact ⟨_, _, h1, h2, r.maps i _ _ h1 h2⟩
  · left
    exact ⟨List.getElem?_eq_none hj, List.getElem?_eq_none (r.len ▸ hj)⟩

/-- A call on separate tables. -/
def tabsExec (ops : Nat → HashOps K) (pol : Nat → ResizePolicy) (ts : List (HashTab K V)) : HCmd K V → Option (List (HashTab K V) × Out K V)
  | .newMap cap => some (ts ++ [HashTab.new cap], .done)
  | .get i k => match ts[i]? with
    | none => some (ts, .bad)
    | some t => match t.getNode (ops i) k with
      | none => none
      | some r => some (ts, .val (r.map Prod.snd))
  | .put i k v => match ts[i]? with
    | none => some (ts, .bad)
    | some t => match t.putNode (ops i) (pol i) k v with
      | none => none
      | some (t', o) => some (ts.set i t', .val (o.map Prod.snd))
  | .remove i k => match ts[i]? with
    | none => some (ts, .bad)
    | some t => match t.removeNode (ops i) (pol i) k with
      | none => none
      | some (t', o) => some (ts.set i t', .val (o.map Prod.snd))
  | .size i => match ts[i]? with
    | none => some (ts, .bad)
    | some t => some (ts, .size t.size)
  | .iter _ => some (ts, .done)
  | .call _ _ => some (ts, .done)

/-- The nodes do what the tables do. -/
def Same (c : HCmd K V) : Option (HWorld K V × Out K V) → Option (List (HashTab K V) × Out K V) → Prop
  | none, none => True
  | some (w', o), some (ts', o') => (OnHash c → o = o') ∧ ∃ own', HRep w' ts' own'
  | _, _ => False

theorem hrep_set {w : HWorld K V} {ts : List (HashTab K V)} {own own' : Owner} (r : HRep w ts own) {i : Nat} {h' : HHeap K V} {m' : HHash}
    {t' : HashTab K V} (y : Only w.heap own i h' own') (r' : MapRep h' own' i m' t') (its : List HHIter) :
    HRep ⟨h', w.maps.set i m', its⟩ (ts.set i t') own' := by
  refine ⟨by simpa using r.len, fun i' m t h1 h2 => ?_⟩
  simp only [List.getElem?_set] at h1 h2
  by_cases hi : i = i'
  · subst hi
    rw [if_pos rfl] at h1 h2
    split at h1 <;> [skip; simp at h1]
    split at h2 <;> [skip; simp at h2]
    simp only [Option.some.injEq] at h1 h2
    subst h1 h2
    exact r'
  · rw [if_neg hi] at h1 h2
    exact y.keep i' m t (fun e => hi e.symm) (r.maps i' m t h1 h2)

theorem exec_same (ops : Nat → HashOps K) (pol : Nat → ResizePolicy) {w : HWorld K V} {ts : List (HashTab K V)} {own : Owner}
    (r : HRep w ts own) (c : HCmd K V) : Same c (w.exec ops pol c) (tabsExec ops pol ts c) := by
  cases c with
  | newMap cap =>
    refine ⟨fun _ => rfl, own, by simp [r.len], fun i m t h1 h2 => ?_⟩
    simp only [List.getElem?_append] at h1 h2
    rw [← r.len] at h2
    split at h1
    · rw [if_pos (by assumption)] at h2
      exact r.maps i m t h1 h2
    · rw [if_neg (by assumption)] at h2
      have e1 := List.mem_singleton.mp (List.mem_of_getElem? h1)
      have e2 := List.mem_singleton.mp (List.mem_of_getElem? h2)
      rw [e1, e2]
      exact mapRep_new ..
  | get i k =>
    simp only [HWorld.exec, tabsExec]
    rcases r.get i with ⟨h1, h2⟩ | ⟨m, t, h1, h2, mr⟩
    · simp only [h1, h2]; exact ⟨fun _ => rfl, own, r⟩
    · simp only [h1, h2, getNode_rep mr]
      cases t.getNode (ops i) k with
      | none => trivial
      | some o => exact ⟨fun _ => rfl, own, r⟩
  | put i k v =>
    simp only [HWorld.exec, tabsExec]
    rcases r.get i with ⟨h1, h2⟩ | ⟨m, t, h1, h2, mr⟩
    · simp only [h1, h2]; exact ⟨fun _ => rfl, own, r⟩
    · simp only [h1, h2]
      have u := putNode_rep (ops := ops i) (pol i) mr k v
      cases e1 : m.putNode (ops i) (pol i) w.heap k v <;> cases e2 : t.putNode (ops i) (pol i) k v <;> rw [e1, e2] at u
      · trivial
      · exact u.elim
      · exact u.elim
      · obtain ⟨eo, own', y, r'⟩ := u
        exact ⟨fun _ => by rw [eo], own', hrep_set r y r' _⟩
  | remove i k =>
    simp only [HWorld.exec, tabsExec]
    rcases r.get i with ⟨h1, h2⟩ | ⟨m, t, h1, h2, mr⟩
    · simp only [h1, h2]; exact ⟨fun _ => rfl, own, r⟩
    · simp only [h1, h2]
      have u := removeNode_rep (ops := ops i) (pol i) mr k
      cases e1 : m.removeNode (ops i) (pol i) w.heap k <;> cases e2 : t.removeNode (ops i) (pol i) k <;> rw [e1, e2] at u
      · trivial
      · exact u.elim
      · exact u.elim
      · obtain ⟨eo, own', y, r'⟩ := u
        exact ⟨fun _ => by rw [eo], own', hrep_set r y r' _⟩
  | size i =>
    simp only [HWorld.exec, tabsExec]
    rcases r.get i with ⟨h1, h2⟩ | ⟨m, t, h1, h2, mr⟩
    · simp only [h1, h2]; exact ⟨fun _ => rfl, own, r⟩
    · simp only [h1, h2]; exact ⟨fun _ => by rw [mr.size], own, r⟩
  | iter i =>
    simp only [HWorld.exec, tabsExec]
    split <;> exact ⟨fun h => h.elim, own, r.len, r.maps⟩
  | call j c =>
    simp only [HWorld.exec, tabsExec]
    split <;> [skip; split] <;> exact ⟨fun h => h.elim, own, r.len, r.maps⟩

theorem hrep_new : HRep (HWorld.new : HWorld K V) [] (fun _ => none) := ⟨rfl, by simp [HWorld.new]⟩

/-! ### C230 Hash maps are independent of each other -/

/-- The tables are good ones of these finite maps, with at most `b` entries. -/
structure TabsAre (ops : Nat → HashOps K) (b : Int) (ts : List (HashTab K V)) (ms : EMaps K V) : Prop where
  len : ts.length = ms.length
  each : ∀ i t x, ts[i]? = some t → ms[i]? = some x → GoodTab (ops i) t ∧ x.1 = valE (ops i) t.all ∧ t.size = x.2 ∧ t.size ≤ b

theorem TabsAre.get {ops : Nat → HashOps K} {b : Int} {ts : List (HashTab K V)} {ms : EMaps K V} (r : TabsAre ops b ts ms) (i : Nat) :
    (ts[i]? = none ∧ ms[i]? = none) ∨ ∃ t x, ts[i]? = some t ∧ ms[i]? = some x ∧ GoodTab (ops i) t ∧ x.1 = valE (ops i) t.all ∧
      t.size = x.2 ∧ t.size ≤ b := by
  rcases lt_or_ge i ts.length with hj | hj
  · right
    have h1 : ts[i]? = some ts[i] := List.getElem?_eq_getElem hj
    have h2 : ms[i]? = some (ms[i]'(r.len ▸ hj)) := List.getElem?_eq_getElem _
    exact ⟨_, _, h1, h2, r.each i _ _ h1 h2⟩
  · left
    exact ⟨List.getElem?_eq_none hj, List.getElem?_eq_none (r.len ▸ hj)⟩

theorem tabsAre_set {ops : Nat → HashOps K} {b b' : Int} (hb : b ≤ b') {ts : List (HashTab K V)} {ms : EMaps K V} (r : TabsAre ops b ts ms)
    (i : Nat) {t : HashTab K V} {x : (K → Option V) × Nat} (h : GoodTab (ops i) t ∧ x.1 = valE (ops i) t.all ∧ t.size = x.2 ∧ t.size ≤ b') :
    TabsAre ops b' (ts.set i t) (ms.set i x) := by
  refine ⟨by simpa using r.len, fun i' t' x' h1 h2 => ?_⟩
  simp only [List.getElem?_set] at h1 h2
  by_cases hi : i = i'
  · subst hi
    rw [if_pos rfl] at h1 h2
    split at h1 <;> [skip; simp at h1]
    split at h2 <;> [skip; simp at h2]
    simp only [Option.some.injEq] at h1 h2
    subst h1 h2
    exact h
  · rw [if_neg hi] at h1 h2
    obtain ⟨a1, a2, a3, a4⟩ := r.each i' t' x' h1 h2
    exact ⟨a1, a2, a3, by omega⟩

theorem TabsAre.mono {ops : Nat → HashOps K} {b b' : Int} (hb : b ≤ b') {ts : List (HashTab K V)} {ms : EMaps K V} (r : TabsAre ops b ts ms) :
    TabsAre ops b' ts ms :=
  ⟨r.len, fun i t x h1 h2 => by obtain ⟨a1, a2, a3, a4⟩ := r.each i t x h1 h2; exact ⟨a1, a2, a3, by omega⟩⟩

theorem tabs_step {ops : Nat → HashOps K} {pol : Nat → ResizePolicy} (hl : ∀ i, LawfulHash (ops i)) {b : Nat} (hpol : ∀ i, Modest (pol i) (b + 1))
    {ts : List (HashTab K V)} {ms : EMaps K V} (r : TabsAre ops b ts ms) (c : HCmd K V) (hc : SmallNew c) :
    ∃ ts' o, tabsExec ops pol ts c = some (ts', o) ∧ TabsAre ops (b + 1 : Nat) ts' (ms.exec (fun i => (ops i).equal) c).1 ∧
      (OnHash c → o = (ms.exec (fun i => (ops i).equal) c).2) := by
  have hb : (b : Int) ≤ (b + 1 : Nat) := by omega
  cases c with
  | newMap cap =>
    refine ⟨_, _, rfl, ⟨by simp [EMaps.exec, r.len], fun i t x h1 h2 => ?_⟩, fun _ => rfl⟩
    simp only [EMaps.exec, List.getElem?_append] at h1 h2
    rw [← r.len] at h2
    split at h1
    · rw [if_pos (by assumption)] at h2
      obtain ⟨a1, a2, a3, a4⟩ := r.each i t x h1 h2
      exact ⟨a1, a2, a3, by omega⟩
    · rw [if_neg (by assumption)] at h2
      have e1 := List.mem_singleton.mp (List.mem_of_getElem? h1)
      have e2 := List.mem_singleton.mp (List.mem_of_getElem? h2)
      rw [e1, e2]
      refine ⟨new_hash_good cap hc, by rw [all_new]; rfl, rfl, ?_⟩
      show (0 : Int) ≤ _
      omega
  | get i k =>
    simp only [tabsExec, EMaps.exec]
    rcases r.get i with ⟨h1, h2⟩ | ⟨t, x, h1, h2, g, e, -, -⟩
    · simp only [h1, h2]; exact ⟨_, _, rfl, r.mono hb, fun _ => rfl⟩
    · simp only [h1, h2, getNode_spec (hl i) t g k]
      exact ⟨_, _, rfl, r.mono hb, fun _ => by rw [e]; rfl⟩
  | put i k v =>
    simp only [tabsExec, EMaps.exec]
    rcases r.get i with ⟨h1, h2⟩ | ⟨t, x, h1, h2, g, e, s, n⟩
    · simp only [h1, h2]; exact ⟨_, _, rfl, r.mono hb, fun _ => rfl⟩
    · have hp : ∀ n len c, 0 ≤ n → n ≤ t.size + 1 → len < 2 ^ 32 → (pol i).grow n len = some c → c < 2 ^ 32 :=
        fun m len c a1 a2 a3 a4 => hpol i m len c a1 (by push_cast; omega) a3 (.inl a4)
      obtain ⟨t', p1, p2, p3⟩ := putNode_hash_spec (hl i) (pol i) t g k v hp
      obtain ⟨t'', q1, -, q3, q4⟩ := put_hash_step (hl i) (pol i) t g k v hp
      obtain rfl : t'' = t' := by rw [p1] at q1; simpa using q1.symm
      simp only [h1, h2, p1]
      refine ⟨_, _, rfl, tabsAre_set hb r i ⟨p2, by rw [q4, e], ?_, by push_cast; omega⟩, fun _ => by rw [e]; rfl⟩
      have ek : x.1 k = (lookE (ops i) k t.all).map Prod.snd := by rw [e]; rfl
      rw [p2.size]
      rw [g.size] at s
      rcases p3 with ⟨l1, l2⟩ | ⟨old, R, l1, l2, l3⟩
      · simp only [ek, l1, l2.length_eq]; simp; omega
      · rw [l2.length_eq] at s
        simp only [ek, l1, l3.length_eq]; simp at s ⊢; omega
  | remove i k =>
    simp only [tabsExec, EMaps.exec]
    rcases r.get i with ⟨h1, h2⟩ | ⟨t, x, h1, h2, g, e, s, n⟩
    · simp only [h1, h2]; exact ⟨_, _, rfl, r.mono hb, fun _ => rfl⟩
    · have hp : ∀ n len c, 0 ≤ n → n ≤ t.size → len < 2 ^ 32 → (pol i).shrink n len = some c → c < 2 ^ 32 :=
        fun m len c a1 a2 a3 a4 => hpol i m len c a1 (by push_cast; omega) a3 (.inr a4)
      obtain ⟨t', p1, p2, p3⟩ := removeNode_hash_spec (hl i) (pol i) t g k hp
      obtain ⟨t'', q1, -, q3, q4⟩ := remove_hash_step (hl i) (pol i) t g k hp
      obtain rfl : t'' = t' := by rw [p1] at q1; simpa using q1.symm
      simp only [h1, h2, p1]
      refine ⟨_, _, rfl, tabsAre_set hb r i ⟨p2, by rw [q4, e], ?_, by push_cast; omega⟩, fun _ => by rw [e]; rfl⟩
      have ek : x.1 k = (lookE (ops i) k t.all).map Prod.snd := by rw [e]; rfl
      rw [p2.size]
      rw [g.size] at s
      rcases p3 with ⟨l1, rfl⟩ | ⟨old, l1, l2⟩
      · simp only [ek, l1]; simpa using s
      · rw [l2.length_eq] at s
        simp only [ek, l1]; simp at s ⊢; omega
  | size i =>
    simp only [tabsExec, EMaps.exec]
    rcases r.get i with ⟨h1, h2⟩ | ⟨t, x, h1, h2, g, e, s, -⟩
    · simp only [h1, h2]; exact ⟨_, _, rfl, r.mono hb, fun _ => rfl⟩
    · simp only [h1, h2]; exact ⟨_, _, rfl, r.mono hb, fun _ => by rw [s]⟩
  | iter i => exact ⟨_, _, rfl, r.mono hb, fun h => h.elim⟩
  | call j c => exact ⟨_, _, rfl, r.mono hb, fun h => h.elim⟩

theorem modest_le {pol : ResizePolicy} {a b : Nat} (h : Modest pol b) (hab : a ≤ b) : Modest pol a :=
  fun s len c h1 h2 h3 h4 => h s len c h1 (by omega) h3 h4

theorem hash_outs {ops : Nat → HashOps K} {pol : Nat → ResizePolicy} (hl : ∀ i, LawfulHash (ops i)) (cs : List (HCmd K V))
    (hcs : ∀ c ∈ cs, SmallNew c) {b : Nat} (hpol : ∀ i, Modest (pol i) (b + cs.length)) {w : HWorld K V} {ts : List (HashTab K V)} {own : Owner}
    {ms : EMaps K V} (r : HRep w ts own) (t : TabsAre ops b ts ms) :
    ∃ w' os, HWorld.run ops pol w cs = some (w', os) ∧ ∀ (i : Nat) (c : HCmd K V), cs[i]? = some c → OnHash c →
      os[i]? = (EMaps.outs (fun i => (ops i).equal) ms cs)[i]? := by
  induction cs generalizing b w ts own ms with
  | nil => exact ⟨w, [], rfl, by simp⟩
  | cons c cs ih =>
    rw [List.length_cons] at hpol
    obtain ⟨ts', o, e1, t1, o1⟩ := tabs_step hl (fun i => modest_le (hpol i) (by omega)) t c (hcs c List.mem_cons_self)
    have sm := exec_same ops pol r c
    rw [e1] at sm
    cases e2 : w.exec ops pol c with
    | none => rw [e2] at sm; exact sm.elim
    | some z =>
      rw [e2] at sm
      obtain ⟨o2, own', r'⟩ := sm
      obtain ⟨w', os, e3, h3⟩ := ih (fun c h => hcs c (List.mem_cons_of_mem _ h)) (b := b + 1)
        (fun i => modest_le (hpol i) (by omega)) r' t1
      refine ⟨w', z.2 :: os, by simp only [HWorld.run, e2, e3], fun i d hd hm => ?_⟩
      cases i with
      | zero =>
        simp only [List.getElem?_cons_zero, Option.some.injEq] at hd
        subst hd
        simp only [EMaps.outs, List.getElem?_cons_zero, o2 hm, o1 hm]
      | succ i =>
        simp only [List.getElem?_cons_succ] at hd
        simp only [EMaps.outs, List.getElem?_cons_succ]
        exact h3 i d hd hm

/-- C230.  In every program, no call panics or runs forever, and each call on a map returns what it returns if the maps are separate finite
maps: calls on other maps, and the creation and use of iterators, make no difference.  Each map has its own seed and its own way to resize. -/
theorem C230_maps_independent {ops : Nat → HashOps K} {pol : Nat → ResizePolicy} (hl : ∀ i, LawfulHash (ops i)) (cs : List (HCmd K V))
    (hcs : ∀ c ∈ cs, SmallNew c) (hpol : ∀ i, Modest (pol i) cs.length) :
    ∃ w os, HWorld.run ops pol HWorld.new cs = some (w, os) ∧ ∀ (i : Nat) (c : HCmd K V), cs[i]? = some c → OnHash c →
      os[i]? = (EMaps.outs (fun i => (ops i).equal) [] cs)[i]? :=
  hash_outs hl cs hcs (b := 0) (by simpa using hpol) hrep_new ⟨rfl, by simp⟩

/-- C230 for maps with the default settings, in the float arithmetic of the code, and programs of at most 2^30 calls. -/
theorem C230_default {ops : Nat → HashOps K} (hl : ∀ i, LawfulHash (ops i)) (cs : List (HCmd K V)) (hcs : ∀ c ∈ cs, SmallNew c)
    (hn : cs.length ≤ 2 ^ 30) :
    ∃ w os, HWorld.run ops (fun _ => floatPolicy) HWorld.new cs = some (w, os) ∧ ∀ (i : Nat) (c : HCmd K V), cs[i]? = some c → OnHash c →
      os[i]? = (EMaps.outs (fun i => (ops i).equal) [] cs)[i]? :=
  C230_maps_independent hl cs hcs fun _ => modest_le floatPolicy_modest hn

/-- Two maps, with collisions and resizing. -/
def twoHashes : List (HCmd Nat Nat) :=
  [.newMap 0, .newMap 12] ++ (List.range 9).map (fun n => .put 0 n (n + 10)) ++ [.put 1 3 7, .iter 0, .remove 0 3, .get 0 3, .get 1 3, .call 0 .hasNext,
    .put 0 6 0, .get 0 6, .remove 0 0, .get 0 9, .size 0, .size 1]

/-- Growing by a half at three quarters, and shrinking. -/
def roughPolicy : ResizePolicy := ⟨fun s len => if 4 * s ≥ 3 * len ∧ len < 1000 then some (len + len / 2) else none,
  fun s len => if 6 * s < len then some (len / 2) else none⟩

theorem roughPolicy_modest (n : Nat) : Modest roughPolicy n := by
  intro s len c h0 hs hlen hc
  rcases hc with hc | hc <;> simp only [roughPolicy] at hc <;> split at hc <;> simp at hc <;> omega

example : (∀ _ : Nat, LawfulHash natHash) ∧ (∀ c ∈ twoHashes, SmallNew c) ∧ twoHashes.length ≤ 2 ^ 30 ∧
    ∀ _ : Nat, Modest roughPolicy twoHashes.length :=
  ⟨fun _ => natHash_lawful, by
    intro c hc
    simp only [twoHashes, List.mem_append, List.mem_map, List.mem_cons, List.not_mem_nil, or_false] at hc
    rcases hc with ((rfl | rfl) | ⟨n, -, rfl⟩) | rfl | rfl | rfl | rfl | rfl | rfl | rfl | rfl | rfl | rfl | rfl | rfl <;>
      simp [SmallNew], by decide, fun _ => roughPolicy_modest _⟩

example : (HWorld.run (fun _ => natHash) (fun _ => roughPolicy) HWorld.new twoHashes).map (fun r => (r.2.drop 11, r.1.maps.map fun m => m.array.length)) =
    some ([.val none, .done, .val (some 13), .val none, .val (some 7), .iter (.bool false), .val (some 16), .val (some 0), .val (some 10), .val none,
      .size 7, .size 1], [15, 12]) := by decide +kernel

/-! ### C30 in programs with several maps -/

theorem advLoop_none (i len : Nat) (fuel pos : Nat) (hf : len - pos ≤ fuel) :
    ∃ pos', HHIter.advLoop len ⟨i, pos, none⟩ fuel = (⟨i, pos', none⟩, false) ∧ len ≤ pos' := by
  induction fuel generalizing pos with
  | zero => exact ⟨pos, rfl, by omega⟩
  | succ n ih =>
    simp only [HHIter.advLoop]
    split
    · obtain ⟨pos', h1, h2⟩ := ih (pos + 1) (by omega)
      exact ⟨pos', by simpa using h1, h2⟩
    · exact ⟨pos, rfl, by omega⟩

theorem call_none (h : HHeap K V) (m : HHash) (i pos : Nat) (c : IterCall) :
    ∃ pos', HHIter.call h m ⟨i, pos, none⟩ c = (⟨i, pos', none⟩, if c = .hasNext then .bool false else .crash) := by
  obtain ⟨pos', h1, h2⟩ := advLoop_none i m.array.length (m.array.length - pos) pos (Nat.le_refl _)
  have e : HHIter.advance m ⟨i, pos, none⟩ = ⟨i, pos', none⟩ := by
    simp only [HHIter.advance, h1]
    rw [if_neg (by omega)]
  refine ⟨pos', ?_⟩
  cases c <;> simp [HHIter.call, e, h2]

theorem iters_none {ops : Nat → HashOps K} {pol : Nat → ResizePolicy} {w : HWorld K V} (hw : ∀ it ∈ w.iters, it.curr = none) {c : HCmd K V}
    {r : HWorld K V × Out K V} (e : w.exec ops pol c = some r) :
    (∀ it ∈ r.1.iters, it.curr = none) ∧ ∀ j d, c = .call j d → r.2 = .bad ∨ r.2 = .iter (if d = .hasNext then .bool false else .crash) := by
  have same : r.1.iters = w.iters → (∀ j d, c ≠ .call j d) → (∀ it ∈ r.1.iters, it.curr = none) ∧
      ∀ j d, c = .call j d → r.2 = .bad ∨ r.2 = .iter (if d = .hasNext then .bool false else .crash) :=
    fun h1 h2 => ⟨h1 ▸ hw, fun j d h => (h2 j d h).elim⟩
  cases c with
  | newMap cap => simp only [HWorld.exec, Option.some.injEq] at e; exact same (by rw [← e]) (by simp)
  | get i k =>
    simp only [HWorld.exec] at e
    split at e <;> [skip; split at e] <;> simp only [Option.some.injEq, reduceCtorEq] at e <;> exact same (by rw [← e]) (by simp)
  | put i k v =>
    simp only [HWorld.exec] at e
    split at e <;> [skip; split at e] <;> simp only [Option.some.injEq, reduceCtorEq] at e <;> exact same (by rw [← e]) (by simp)
  | remove i k =>
    simp only [HWorld.exec] at e
    split at e <;> [skip; split at e] <;> simp only [Option.some.injEq, reduceCtorEq] at e <;> exact same (by rw [← e]) (by simp)
  | size i => simp only [HWorld.exec] at e; split at e <;> simp only [Option.some.injEq] at e <;> exact same (by rw [← e]) (by simp)
  | iter i =>
    simp only [HWorld.exec] at e
    split at e <;> simp only [Option.some.injEq] at e
    · exact same (by rw [← e]) (by simp)
    · refine ⟨?_, by simp⟩
      rw [← e]
      intro it hm
      rcases List.mem_append.mp hm with hm | hm
      · exact hw it hm
      · rw [List.mem_singleton.mp hm]
  | call j d =>
    simp only [HWorld.exec] at e
    split at e
    · simp only [Option.some.injEq] at e; rw [← e]; exact ⟨hw, fun _ _ _ => .inl rfl⟩
    · next it hit =>
      split at e
      · simp only [Option.some.injEq] at e; rw [← e]; exact ⟨hw, fun _ _ _ => .inl rfl⟩
      · next m hm =>
        simp only [Option.some.injEq] at e
        obtain ⟨i, pos, curr⟩ := it
        have hc := hw _ (List.mem_of_getElem? hit)
        simp only at hc
        subst hc
        obtain ⟨pos', e2⟩ := call_none w.heap m i pos d
        rw [← e, e2]
        refine ⟨fun x hx => ?_, fun j' d' h => ?_⟩
        · rcases List.mem_or_eq_of_mem_set hx with hx | rfl
          · exact hw x hx
          · rfl
        · cases h; exact .inr rfl

/-- C30 in every program with several maps and iterators, whatever is changed in between: no iterator ever delivers an entry; it says that there
is none, and `Next` and `Peek` panic. -/
theorem C30_program_partial (ops : Nat → HashOps K) (pol : Nat → ResizePolicy) (cs : List (HCmd K V)) (w : HWorld K V) (os : List (Out K V))
    (e : HWorld.run ops pol HWorld.new cs = some (w, os)) (i j : Nat) (d : IterCall) (hc : cs[i]? = some (.call j d)) :
    os[i]? = some .bad ∨ os[i]? = some (.iter (if d = .hasNext then .bool false else .crash)) := by
  suffices H : ∀ (cs : List (HCmd K V)) (w0 w : HWorld K V) (os : List (Out K V)) (i : Nat), (∀ it ∈ w0.iters, it.curr = none) →
      HWorld.run ops pol w0 cs = some (w, os) → cs[i]? = some (.call j d) →
      os[i]? = some .bad ∨ os[i]? = some (.iter (if d = .hasNext then .bool false else .crash)) from
    H cs HWorld.new w os i (by simp [HWorld.new]) e hc
  clear e hc
  intro cs
  induction cs with
  | nil => intro w0 w os i _ _ hc; simp at hc
  | cons c cs ih =>
    intro w0 w os i hw e hc
    simp only [HWorld.run] at e
    split at e
    · simp at e
    · next w1 o e1 =>
      obtain ⟨k1, k2⟩ := iters_none hw e1
      split at e
      · simp at e
      · next w2 os2 e2 =>
        simp only [Option.some.injEq, Prod.mk.injEq] at e
        rw [← e.2]
        cases i with
        | zero =>
          simp only [List.getElem?_cons_zero, Option.some.injEq] at hc ⊢
          exact k2 j d hc
        | succ i =>
          simp only [List.getElem?_cons_succ] at hc ⊢
          exact ih w1 w2 os2 i k1 e2 hc

example : twoHashes[16]? = some (.call 0 .hasNext) ∧
    ((HWorld.run (fun _ => natHash) (fun _ => roughPolicy) HWorld.new twoHashes).map fun r => r.2[16]?) = some (some (.iter (.bool false))) := by
  decide +kernel

/-! ### C231 No key can damage the structure of a hash map -/

/-- Programs in which the keys answer differently in each call. -/
def runAnyH (w : HWorld K V) : List ((Nat → HashOps K) × (Nat → ResizePolicy) × HCmd K V) → Option (HWorld K V)
  | [] => some w
  | c :: cs => match w.exec c.1 c.2.1 c.2.2 with
    | none => none
    | some r => runAnyH r.1 cs

theorem tabs_counted {ops : Nat → HashOps K} {pol : Nat → ResizePolicy} {ts ts' : List (HashTab K V)} {c : HCmd K V} {o : Out K V}
    (h : ∀ t ∈ ts, Counted t) (e : tabsExec ops pol ts c = some (ts', o)) : ∀ t ∈ ts', Counted t := by
  have hset : ∀ i t', Counted t' → ∀ t ∈ ts.set i t', Counted t := by
    intro i t' ht t hm
    rcases List.mem_or_eq_of_mem_set hm with hm | rfl
    · exact h t hm
    · exact ht
  cases c with
  | newMap cap =>
    simp only [tabsExec, Option.some.injEq, Prod.mk.injEq] at e
    rw [← e.1]
    intro t hm
    rcases List.mem_append.mp hm with hm | hm
    · exact h t hm
    · rw [List.mem_singleton.mp hm]; simp [Counted, HashTab.new]
  | get i k =>
    simp only [tabsExec] at e
    split at e <;> [skip; split at e] <;> simp only [Option.some.injEq, Prod.mk.injEq, reduceCtorEq] at e <;> rw [← e.1] <;> exact h
  | put i k v =>
    simp only [tabsExec] at e
    split at e
    · simp only [Option.some.injEq, Prod.mk.injEq] at e; rw [← e.1]; exact h
    · next t ht =>
      split at e
      · simp at e
      · next t' o' e2 =>
        simp only [Option.some.injEq, Prod.mk.injEq] at e
        rw [← e.1]
        exact hset i t' (putNode_length (h t (List.mem_of_getElem? ht)) e2).1
  | remove i k =>
    simp only [tabsExec] at e
    split at e
    · simp only [Option.some.injEq, Prod.mk.injEq] at e; rw [← e.1]; exact h
    · next t ht =>
      split at e
      · simp at e
      · next t' o' e2 =>
        simp only [Option.some.injEq, Prod.mk.injEq] at e
        rw [← e.1]
        exact hset i t' (removeNode_length (h t (List.mem_of_getElem? ht)) e2).1
  | size i =>
    simp only [tabsExec] at e
    split at e <;> simp only [Option.some.injEq, Prod.mk.injEq] at e <;> rw [← e.1] <;> exact h
  | iter i => simp only [tabsExec, Option.some.injEq, Prod.mk.injEq] at e; rw [← e.1]; exact h
  | call j c => simp only [tabsExec, Option.some.injEq, Prod.mk.injEq] at e; rw [← e.1]; exact h

theorem runAnyH_rep (cs : List ((Nat → HashOps K) × (Nat → ResizePolicy) × HCmd K V)) {w w' : HWorld K V} {ts : List (HashTab K V)} {own : Owner}
    (r : HRep w ts own) (hc : ∀ t ∈ ts, Counted t) (e : runAnyH w cs = some w') : ∃ ts' own', HRep w' ts' own' ∧ ∀ t ∈ ts', Counted t := by
  induction cs generalizing w ts own with
  | nil => simp only [runAnyH, Option.some.injEq] at e; subst e; exact ⟨ts, own, r, hc⟩
  | cons c cs ih =>
    simp only [runAnyH] at e
    have sm := exec_same c.1 c.2.1 r c.2.2
    cases e1 : w.exec c.1 c.2.1 c.2.2 with
    | none => rw [e1] at e; simp at e
    | some z =>
      rw [e1] at e sm
      cases e2 : tabsExec c.1 c.2.1 ts c.2.2 with
      | none => rw [e2] at sm; exact sm.elim
      | some y =>
        rw [e2] at sm
        obtain ⟨-, own', r'⟩ := sm
        exact ih r' (tabs_counted hc e2) e

/-- C231.  Whatever keys answer when they are compared and hashed, and however maps are resized: after every program each bucket is a list of
nodes that ends, no node is in two buckets or in two maps, and the size of each map is the number of its nodes. -/
theorem C231_links_survive (cs : List ((Nat → HashOps K) × (Nat → ResizePolicy) × HCmd K V)) (w : HWorld K V)
    (e : runAnyH HWorld.new cs = some w) :
    ∃ own : Owner, ∀ (i : Nat) (m : HHash), w.maps[i]? = some m → ∃ ls : List (List (K × V)), ls.length = m.array.length ∧ m.size = ls.flatten.length ∧
      ∀ (j : Nat) p l, m.array[j]? = some p → ls[j]? = some l → Bucket w.heap own (i, j) p l := by
  obtain ⟨ts, own, r, hc⟩ := runAnyH_rep cs hrep_new (by simp) e
  refine ⟨own, fun i m hm => ?_⟩
  rcases r.get i with ⟨h1, -⟩ | ⟨m', t, h1, h2, mr⟩
  · rw [h1] at hm; simp at hm
  · obtain rfl : m' = m := by rw [h1] at hm; simpa using hm
    exact ⟨t.array, mr.arr.len.symm, mr.size.trans (hc t (List.mem_of_getElem? h2)), mr.arr.buckets⟩

/-- C231.  After every program, every call returns as long as the arrays have fewer than 2^32 buckets: no loop runs forever, whatever
keys answer. -/
theorem C231_returns (cs : List ((Nat → HashOps K) × (Nat → ResizePolicy) × HCmd K V)) (w : HWorld K V)
    (e : runAnyH HWorld.new cs = some w) (hw : ∀ m ∈ w.maps, 0 < m.array.length ∧ m.array.length < 2 ^ 32) (n : Nat)
    (hn : ∀ m ∈ w.maps, m.size < n) (ops : Nat → HashOps K) (pol : Nat → ResizePolicy) (hpol : ∀ i, Modest (pol i) n) (c : HCmd K V) :
    (w.exec ops pol c).isSome := by
  obtain ⟨ts, own, r, hc⟩ := runAnyH_rep cs hrep_new (by simp) e
  have sm := exec_same ops pol r c
  have key : (tabsExec ops pol ts c).isSome := by
    have tab : ∀ (i : Nat) (t : HashTab K V), ts[i]? = some t → 0 < t.array.length ∧ t.array.length < 2 ^ 32 ∧ t.size < n ∧ 0 ≤ t.size := by
      intro i t ht
      rcases r.get i with ⟨-, h2⟩ | ⟨m, t', h1, h2, mr⟩
      · rw [h2] at ht; simp at ht
      · obtain rfl : t' = t := by rw [h2] at ht; simpa using ht
        have a := hw m (List.mem_of_getElem? h1)
        have b := hn m (List.mem_of_getElem? h1)
        have c : t'.size = _ := hc t' (List.mem_of_getElem? h2)
        have := mr.arr.len
        have := mr.size
        omega
    cases c with
    | newMap | iter | call => rfl
    | size i => simp only [tabsExec]; split <;> rfl
    | get i k =>
      simp only [tabsExec]
      split
      · rfl
      · next t ht =>
        obtain ⟨a1, a2, -⟩ := tab i t ht
        obtain ⟨j, c, h1, h2⟩ := index_ok (ops i) t.array a1 a2 k
        simp only [HashTab.getNode, h1, h2, Option.isSome_some]
    | put i k v =>
      simp only [tabsExec]
      split
      · rfl
      · next t ht =>
        obtain ⟨a1, a2, a3, a4⟩ := tab i t ht
        obtain ⟨j, c, h1, h2⟩ := index_ok (ops i) t.array a1 a2 k
        have hs : (t.putNode (ops i) (pol i) k v).isSome := by
          simp only [HashTab.putNode, h1, h2]
          split
          · rfl
          · have := resizeIf_total (ops := ops i) (⟨t.array.set j ((k, v) :: c), t.size + 1⟩ : HashTab K V)
              ((pol i).grow (t.size + 1) (t.array.set j ((k, v) :: c)).length) (fun n hn =>
                hpol i _ _ _ (by omega) (by omega) (by simpa using a2) (.inl hn))
            obtain ⟨x, hx⟩ := Option.isSome_iff_exists.mp this
            rw [hx]
            rfl
        obtain ⟨x, hx⟩ := Option.isSome_iff_exists.mp hs
        rw [hx]
        rfl
    | remove i k =>
      simp only [tabsExec]
      split
      · rfl
      · next t ht =>
        obtain ⟨a1, a2, a3, a4⟩ := tab i t ht
        obtain ⟨j, c, h1, h2⟩ := index_ok (ops i) t.array a1 a2 k
        have hs : (t.removeNode (ops i) (pol i) k).isSome := by
          simp only [HashTab.removeNode, h1, h2]
          rcases chainRemove_spec (ops := ops i) k c with ⟨e, -⟩ | ⟨old, A, B, e, e2, -⟩
          · rw [e]; rfl
          · rw [e]
            have hpos : 0 ≤ t.size - 1 := by
              have : 0 < t.array.flatten.length := by
                refine List.length_pos_of_mem (a := old) (List.mem_flatten.mpr ⟨c, List.mem_of_getElem? h2, ?_⟩)
                rw [e2]; simp
              have hc' : t.size = _ := hc t (List.mem_of_getElem? ht)
              omega
            have := resizeIf_total (ops := ops i) (⟨t.array.set j (A ++ B), t.size - 1⟩ : HashTab K V)
              ((pol i).shrink (t.size - 1) (t.array.set j (A ++ B)).length) (fun n hn =>
                hpol i _ _ _ (by omega) (by omega) (by simpa using a2) (.inr hn))
            obtain ⟨x, hx⟩ := Option.isSome_iff_exists.mp this
            simp only
            rw [hx]
            rfl
        obtain ⟨x, hx⟩ := Option.isSome_iff_exists.mp hs
        rw [hx]
        rfl
  obtain ⟨z, hz⟩ := Option.isSome_iff_exists.mp key
  rw [hz] at sm
  cases e1 : w.exec ops pol c with
  | none => rw [e1] at sm; exact sm.elim
  | some _ => rfl

/-- Keys that are equal to nothing, then to everything, with hashes that change in between. -/
def wildCalls : List ((Nat → HashOps Nat) × (Nat → ResizePolicy) × HCmd Nat Nat) :=
  [(fun _ => natHash, fun _ => roughPolicy, .newMap 10), (fun _ => ⟨fun _ _ => false, fun _ => 3⟩, fun _ => roughPolicy, .put 0 1 10),
   (fun _ => ⟨fun _ _ => false, fun _ => 3⟩, fun _ => roughPolicy, .put 0 1 11), (fun _ => ⟨fun _ _ => false, fun _ => 4⟩, fun _ => roughPolicy, .put 0 1 12),
   (fun _ => ⟨fun a _ => a == 1, fun _ => 3⟩, fun _ => roughPolicy, .remove 0 5)]

example : (runAnyH HWorld.new wildCalls).map (fun w => (w.heap, w.maps.map fun m => (m.array.take 6, m.size))) =
    some ([⟨1, 10, none⟩, ⟨1, 11, some 0⟩, ⟨1, 12, none⟩], [([none, none, none, some 0, some 2, none], 2)]) := by decide +kernel

example (ops : Nat → HashOps Nat) (c : HCmd Nat Nat) :
    (HWorld.exec ops (fun _ => roughPolicy) ⟨[⟨1, 10, none⟩, ⟨1, 11, some 0⟩, ⟨1, 12, none⟩], [⟨[none, none, none, some 0, some 2, none, none, none, none, none], 2⟩], []⟩ c).isSome :=
  C231_returns wildCalls _ (by decide +kernel) (by simp) 3 (by simp) ops _ (fun _ => roughPolicy_modest 3) c

/-! ### C232 Several goroutines may read hash maps at once -/

/-- Calls that only read maps; an iterator is changed, but belongs to the goroutine that made it. -/
def HashReads : HCmd K V → Prop
  | .get .. | .size _ | .iter .. | .call .. => True
  | .newMap _ | .put .. | .remove .. => False

/-- Goroutines that share maps: the nodes and the maps, and the iterators of each goroutine. -/
structure HShared (K V : Type) where
  heap : HHeap K V
  maps : List HHash
  iters : Nat → List HHIter

/-- What a goroutine sees: all maps and its own iterators. -/
def HShared.view (s : HShared K V) (g : Nat) : HWorld K V := ⟨s.heap, s.maps, s.iters g⟩

/-- A call by goroutine `g`. -/
def HShared.exec (s : HShared K V) (g : Nat) (ops : Nat → HashOps K) (pol : Nat → ResizePolicy) (c : HCmd K V) : Option (HShared K V × Out K V) :=
  ((s.view g).exec ops pol c).map fun r => (⟨r.1.heap, r.1.maps, fun g' => if g' = g then r.1.iters else s.iters g'⟩, r.2)

/-- An interleaving of the calls of goroutines, with their results (`none`: a call panicked). -/
def HShared.run (ops : Nat → HashOps K) (pol : Nat → ResizePolicy) (s : HShared K V) :
    List (Nat × HCmd K V) → Option (HShared K V × List (Nat × Out K V))
  | [] => some (s, [])
  | (g, c) :: l => match s.exec g ops pol c with
    | none => none
    | some r => (HShared.run ops pol r.1 l).map fun z => (z.1, (g, r.2) :: z.2)

/-- The calls or results of goroutine `g`. -/
def byGoroutine {α : Type} (g : Nat) (l : List (Nat × α)) : List α := l.filterMap fun x => if x.1 = g then some x.2 else none

theorem hash_reads {ops : Nat → HashOps K} {pol : Nat → ResizePolicy} {w : HWorld K V} {c : HCmd K V} (hc : HashReads c)
    {r : HWorld K V × Out K V} (e : w.exec ops pol c = some r) : r.1.heap = w.heap ∧ r.1.maps = w.maps := by
  cases c with
  | newMap | put | remove => exact hc.elim
  | get i k =>
    simp only [HWorld.exec] at e
    split at e <;> [skip; split at e] <;> simp only [Option.some.injEq, reduceCtorEq] at e <;> rw [← e] <;> exact ⟨rfl, rfl⟩
  | size i => simp only [HWorld.exec] at e; split at e <;> simp only [Option.some.injEq] at e <;> rw [← e] <;> exact ⟨rfl, rfl⟩
  | iter i => simp only [HWorld.exec] at e; split at e <;> simp only [Option.some.injEq] at e <;> rw [← e] <;> exact ⟨rfl, rfl⟩
  | call j c =>
    simp only [HWorld.exec] at e
    split at e <;> [skip; split at e] <;> simp only [Option.some.injEq] at e <;> rw [← e] <;> exact ⟨rfl, rfl⟩

/-- C232: in every interleaving of calls that read, no node and no map is changed, every goroutine gets the results it gets if it is alone,
and its iterators are where they are then.  In every state of the maps, whatever keys answer. -/
theorem C232_readers (ops : Nat → HashOps K) (pol : Nat → ResizePolicy) (s s' : HShared K V) (l : List (Nat × HCmd K V))
    (hl : ∀ x ∈ l, HashReads x.2) (os : List (Nat × Out K V)) (e : s.run ops pol l = some (s', os)) :
    s'.heap = s.heap ∧ s'.maps = s.maps ∧ ∀ g,
      HWorld.run ops pol (s.view g) (byGoroutine g l) = some (s'.view g, byGoroutine g os) := by
  induction l generalizing s os with
  | nil =>
    simp only [HShared.run, Option.some.injEq, Prod.mk.injEq] at e
    obtain ⟨rfl, rfl⟩ := e
    exact ⟨rfl, rfl, fun g => rfl⟩
  | cons x l ih =>
    obtain ⟨g0, c⟩ := x
    simp only [HShared.run] at e
    cases e1 : (s.view g0).exec ops pol c with
    | none => simp [HShared.exec, e1] at e
    | some r =>
      obtain ⟨k1, k2⟩ := hash_reads (hl _ List.mem_cons_self) e1
      simp only [HShared.exec, e1, Option.map_some] at e
      rw [Option.map_eq_some_iff] at e
      obtain ⟨z, e2, e3⟩ := e
      simp only [Prod.mk.injEq] at e3
      obtain ⟨rfl, rfl⟩ := e3
      obtain ⟨i1, i2, i3⟩ := ih _ (fun x hx => hl x (List.mem_cons_of_mem _ hx)) z.2 e2
      refine ⟨i1.trans k1, i2.trans k2, fun g => ?_⟩
      have j := i3 g
      by_cases hg : g0 = g
      · subst hg
        simp only [HShared.view, if_true] at j
        simp only [byGoroutine, List.filterMap_cons, if_true, HWorld.run, e1]
        simp only [byGoroutine] at j
        rw [j]
        rfl
      · have hg' : ¬ g = g0 := fun h => hg h.symm
        simp only [HShared.view, hg', if_false, k1, k2] at j
        simp only [byGoroutine, List.filterMap_cons, hg, if_false]
        simp only [HShared.view] at j ⊢
        exact j

/-- C232: a call panics or runs forever in an interleaving exactly if it does in the state at the start: readers cannot disturb each other. -/
theorem C232_ends (ops : Nat → HashOps K) (pol : Nat → ResizePolicy) (s : HShared K V) (l : List (Nat × HCmd K V))
    (hl : ∀ x ∈ l, HashReads x.2) : (s.run ops pol l).isSome ↔ ∀ x ∈ l, ∀ i k, x.2 = .get i k →
      ∀ m, s.maps[i]? = some m → (m.getNode (ops i) s.heap k).isSome := by
  induction l generalizing s with
  | nil => simp [HShared.run]
  | cons x l ih =>
    obtain ⟨g0, c⟩ := x
    have step : ((s.view g0).exec ops pol c).isSome ↔ ∀ i k, c = .get i k → ∀ m, s.maps[i]? = some m → (m.getNode (ops i) s.heap k).isSome := by
      have hc := hl _ List.mem_cons_self
      cases c with
      | newMap | put | remove => exact hc.elim
      | get i k =>
        simp only [HWorld.exec, HShared.view, HCmd.get.injEq]
        constructor
        · rintro h i' k' ⟨rfl, rfl⟩ m hm
          rw [hm] at h
          simp only at h
          cases e : m.getNode (ops i) s.heap k <;> rw [e] at h <;> simp at h ⊢
        · intro h
          cases e : s.maps[i]? with
          | none => rfl
          | some m =>
            obtain ⟨y, hy⟩ := Option.isSome_iff_exists.mp (h i k ⟨rfl, rfl⟩ m e)
            simp only [hy, Option.isSome_some]
      | size i => simp only [HWorld.exec]; constructor <;> [(intro _ _ _ h; cases h); (intro _; split <;> rfl)]
      | iter i => simp only [HWorld.exec]; constructor <;> [(intro _ _ _ h; cases h); (intro _; split <;> rfl)]
      | call j c => simp only [HWorld.exec]; constructor <;> [(intro _ _ _ h; cases h); (intro _; split <;> [skip; split] <;> rfl)]
    rw [List.forall_mem_cons, ← step]
    simp only [HShared.run]
    cases e1 : (s.view g0).exec ops pol c with
    | none => simp [HShared.exec, e1]
    | some r =>
      obtain ⟨k1, k2⟩ := hash_reads (hl _ List.mem_cons_self) e1
      simp only [HShared.exec, e1, Option.map_some, Option.isSome_map, Option.isSome_some, true_and]
      rw [ih _ (fun x hx => hl x (List.mem_cons_of_mem _ hx))]
      simp only [k1, k2, HShared.view]

/-- Two goroutines look up keys at the same time. -/
def hashReadEvents : List (Nat × HCmd Nat Nat) :=
  [(0, .get 0 1), (1, .iter 0), (1, .call 0 .hasNext), (0, .get 0 4), (1, .get 0 1), (0, .size 0)]

/-- Three entries, two of them in one bucket. -/
def hashReadStart : HShared Nat Nat := ⟨[⟨1, 10, none⟩, ⟨4, 40, some 0⟩, ⟨2, 20, none⟩], [⟨[none, some 1, some 2], 3⟩], fun _ => []⟩

example : (∀ x ∈ hashReadEvents, HashReads x.2) ∧
    (hashReadStart.run (fun _ => natHash) (fun _ => roughPolicy) hashReadEvents).map (fun r => r.2) =
      some [(0, .val (some 10)), (1, .done), (1, .iter (.bool false)), (0, .val (some 40)), (1, .val (some 10)), (0, .size 3)] :=
  ⟨by simp [hashReadEvents, HashReads], by decide +kernel⟩

end Poodle.Props
