import Verif.Lemmas.AvlWorldIter

/-
Properties C128-C130: several sorted maps and iterators in one program, on nodes that are changed in place
(/repo/src/collection/avl.go, sorted_map.go).
-/

namespace Poodle.Props
open Poodle Poodle.Spec

variable {K V : Type} {ops : KeyOps K} {cmp : K → K → Ordering}

theorem links_new : Links ([] : AHeap K V) [] [] := ⟨rfl, by simp, by simp, by simp⟩

/-! ### C128 Sorted maps are independent of each other -/

theorem outs_maps (hops : LawfulKeys ops cmp) (ht : TotalKeys ops) (cs : List (Cmd K V)) (w : World K V) (Ss : List (PTree K V × Int))
    (L : Links w.heap w.maps Ss) (hg : ∀ m ∈ Ss.map plain, GoodMap cmp m) (i : Nat) (c : Cmd K V) (hc : cs[i]? = some c) (hm : OnMaps c) :
    (World.run ops w cs).2[i]? = (FMaps.outs cmp ((Ss.map plain).map (asFMap cmp)) cs)[i]? := by
  induction cs generalizing w Ss i with
  | nil => simp at hc
  | cons d cs ih =>
    obtain ⟨Ss', L', e1, e2, -⟩ := exec_links (ops := ops) w L d
    obtain ⟨g1, g2, g3⟩ := maps_refine hops ht (Ss.map plain) hg d
    cases i with
    | zero =>
      simp only [List.getElem?_cons_zero, Option.some.injEq] at hc
      subst hc
      simp only [World.run, FMaps.outs, List.getElem?_cons_zero, e2 hm, g3]
    | succ i =>
      simp only [List.getElem?_cons_succ] at hc
      have := ih (w.exec ops d).1 Ss' L' (by rw [e1]; exact g1) i hc
      simp only [World.run, FMaps.outs, List.getElem?_cons_succ]
      rw [this, e1, g2]

/-- C128.  In every program, each call on a map returns what it returns if the maps are separate finite maps: calls on other maps,
and the creation and use of iterators, make no difference. -/
theorem C128_maps_independent (hops : LawfulKeys ops cmp) (ht : TotalKeys ops) (cs : List (Cmd K V)) (i : Nat) (c : Cmd K V)
    (hc : cs[i]? = some c) (hm : OnMaps c) : (World.run ops World.new cs).2[i]? = (FMaps.outs cmp [] cs)[i]? :=
  outs_maps hops ht cs World.new [] links_new (by simp) i c hc hm

/-- Two maps and an iterator. -/
def twoMaps : List (Cmd Int Int) :=
  [.newMap, .newMap, .put 0 1 10, .put 1 1 11, .iter 0 none none, .put 0 2 20, .put 0 3 30, .call 0 .next, .remove 1 1, .get 0 1, .get 1 1,
   .size 0, .size 1]

example : LawfulKeys intOps compare ∧ TotalKeys intOps ∧ twoMaps[9]? = some (.get 0 1) ∧ OnMaps (.get 0 1 : Cmd Int Int) :=
  ⟨intOps_lawful.1, intOps_lawful.2, rfl, trivial⟩

example : (World.run intOps World.new twoMaps).2 = [.done, .done, .val none, .val none, .done, .val none, .val none, .iter (.yield (1, 10)),
    .val (some 11), .val (some 10), .val none, .size 3, .size 0] := by decide +kernel

/-! ### C129 No comparison can damage the structure -/

/-- Programs in which the key operations may be different in each call. -/
def runWith (w : World K V) : List (KeyOps K × Cmd K V) → World K V × List (Out K V)
  | [] => (w, [])
  | c :: cs => ((runWith (w.exec c.1 c.2).1 cs).1, (w.exec c.1 c.2).2 :: (runWith (w.exec c.1 c.2).1 cs).2)

theorem runWith_links (cs : List (KeyOps K × Cmd K V)) (w : World K V) (Ss : List (PTree K V × Int)) (L : Links w.heap w.maps Ss) :
    ∃ Ss', Links (runWith w cs).1.heap (runWith w cs).1.maps Ss' := by
  induction cs generalizing w Ss with
  | nil => exact ⟨Ss, L⟩
  | cons c cs ih =>
    obtain ⟨Ss', L', -⟩ := exec_links (ops := c.1) w L c.2
    exact ih _ Ss' L'

/-- C129.  Whatever the comparisons of keys answer, and whenever they panic: after every program, the nodes reached from each map form
a tree that is balanced, and no node is reached twice, in one map or from two maps. -/
theorem C129_links_survive (cs : List (KeyOps K × Cmd K V)) :
    ∃ Ps : List (PTree K V), Ps.length = (runWith World.new cs).1.maps.length ∧ (Ps.flatMap PTree.addrs).Nodup ∧
      ∀ (i : Nat) (m : HMap) (P : PTree K V), (runWith World.new cs).1.maps[i]? = some m → Ps[i]? = some P →
        IsTree (runWith World.new cs).1.heap m.root P ∧ Balanced P.erase := by
  obtain ⟨Ss, L⟩ := runWith_links cs World.new [] links_new
  refine ⟨Ss.map Prod.fst, by rw [L.maps]; simp, by rw [List.flatMap_map]; exact L.nodup, fun i m P hm hP => ?_⟩
  rw [L.maps, List.getElem?_map] at hm
  rw [List.getElem?_map] at hP
  rcases hs : Ss[i]? with - | s
  · simp [hs] at hP
  · simp only [hs, Option.map_some, Option.some.injEq] at hm hP
    subst hP hm
    obtain ⟨o1, o2, o3⟩ := L.one (List.mem_of_getElem? hs)
    exact ⟨⟨rfl, o1, o2⟩, o3⟩

theorem outOf_crash {r : Option (Option V)} (h : (outOf r : Out K V) = .crash) : r = none := by
  cases r <;> simp [outOf] at h ⊢

theorem mapOut_total {ms : List (SortedMap K V)} (hb : ∀ m ∈ ms, Balanced m.root) (ht : TotalKeys ops) (c : Cmd K V) :
    mapOut ops ms c ≠ .crash := by
  cases c with
  | newMap => simp [mapOut]
  | get i k =>
    simp only [mapOut]
    rcases hm : ms[i]? with - | m
    · simp
    · intro h
      have := outOf_crash h
      simp only [SortedMap.get, SortedMap.getNode, Option.map_eq_none_iff] at this
      exact getR_total ht k _ this
  | put i k v =>
    simp only [mapOut]
    rcases hm : ms[i]? with - | ⟨t, n⟩
    · simp
    · intro h
      have := outOf_crash h
      have hbt : Balanced t := hb _ (List.mem_of_getElem? hm)
      simp only [SortedMap.put, Option.map_eq_none_iff] at this
      cases t with
      | nil => simp [SortedMap.putNode] at this
      | node k0 v0 b l r =>
        have hp := putR_total ht k v _ hbt
        rcases hx : (Tree.node k0 v0 b l r).putR ops k v with ⟨T, - | ⟨old, d⟩⟩
        · exact hp (by rw [hx])
        · simp [SortedMap.putNode, hx] at this
  | remove i k =>
    simp only [mapOut]
    rcases hm : ms[i]? with - | ⟨t, n⟩
    · simp
    · intro h
      have := outOf_crash h
      have hbt : Balanced t := hb _ (List.mem_of_getElem? hm)
      simp only [SortedMap.remove, Option.map_eq_none_iff] at this
      have hp := removeR_total ht k _ hbt
      rcases hx : t.removeR ops k with ⟨T, - | ⟨old, d⟩⟩
      · exact hp (by rw [hx])
      · simp [SortedMap.removeNode, hx] at this
  | size i =>
    simp only [mapOut]
    rcases ms[i]? with - | m <;> simp
  | iter i s e => simp [mapOut]
  | call j c => simp [mapOut]

/-- C129.  A call on a map panics only if a comparison made with the key operations of that call panics. -/
theorem C129_only_comparisons_panic (cs : List (KeyOps K × Cmd K V)) (i : Nat) (kops : KeyOps K) (c : Cmd K V)
    (hc : cs[i]? = some (kops, c)) (hm : OnMaps c) (ho : (runWith World.new cs).2[i]? = some .crash) : ∃ a b, kops.compare a b = none := by
  suffices h : ∀ (w : World K V) (Ss : List (PTree K V × Int)), Links w.heap w.maps Ss → (runWith w cs).2[i]? = some .crash →
      ∃ a b, kops.compare a b = none from h _ _ links_new ho
  clear ho
  induction cs generalizing i with
  | nil => simp at hc
  | cons d cs ih =>
    intro w Ss L ho
    cases i with
    | zero =>
      simp only [List.getElem?_cons_zero, Option.some.injEq] at hc
      subst hc
      obtain ⟨Ss', L', -, e2, -⟩ := exec_links (ops := kops) w L c
      simp only [runWith, List.getElem?_cons_zero, Option.some.injEq, e2 hm] at ho
      by_contra hcon
      simp only [not_exists] at hcon
      refine mapOut_total ?_ (fun a b => hcon a b) c ho
      intro m hmem
      simp only [List.mem_map] at hmem
      obtain ⟨s, hs, rfl⟩ := hmem
      exact L.balanced s hs
    | succ i =>
      simp only [List.getElem?_cons_succ] at hc
      obtain ⟨Ss', L', -⟩ := exec_links (ops := d.1) w L d.2
      exact ih i hc _ Ss' L' (by simpa only [runWith, List.getElem?_cons_succ] using ho)

/-- A comparison that changes its mind, and one that panics. -/
def wildOps (n : Int) : KeyOps Int := ⟨fun a b => a == b + n, fun a b => if a + b = 5 then none else some (n - a)⟩

def wildProgram : List (KeyOps Int × Cmd Int Int) :=
  [(wildOps 0, .newMap), (wildOps 0, .newMap), (wildOps 1, .put 0 1 10), (wildOps 3, .put 0 2 20), (wildOps 0, .put 0 2 30),
   (wildOps 0, .put 0 3 30), (wildOps (-7), .put 1 3 30), (wildOps 9, .put 0 1 1), (wildOps 9, .remove 0 2), (wildOps 0, .remove 0 2)]

example : (runWith World.new wildProgram).2 = [.done, .done, .val none, .val none, .val none, .crash, .val none, .val none,
    .val none, .val (some 30)] := by decide +kernel

example : ((runWith World.new wildProgram).1.maps.map (·.root)) = [some 1, some 3] ∧
    (runWith World.new wildProgram).1.heap.length = 5 := by decide +kernel

example : wildProgram[5]? = some (wildOps 0, .put 0 3 30) ∧ OnMaps (.put 0 3 30 : Cmd Int Int) ∧
    (runWith World.new wildProgram).2[5]? = some .crash := ⟨by rfl, trivial, by decide +kernel⟩

/-! ### C130 Iterating over a map that is changed -/

/-- The keys returned by `Next` on iterator `j`. -/
def nextKeys (j : Nat) : List (Cmd K V) → List (Out K V) → List K
  | .call j' .next :: cs, .iter (.yield e) :: os => if j' = j then e.1 :: nextKeys j cs os else nextKeys j cs os
  | _ :: cs, _ :: os => nextKeys j cs os
  | _, _ => []

/-- First claim of C130 (false of the code): no iterator returns a key twice, if keys are only added. -/
def NoKeyTwice : Prop := ∀ (ops : KeyOps Int), LawfulKeys ops compare → TotalKeys ops → ∀ (cs : List (Cmd Int Int)),
  (∀ i k, .remove i k ∉ cs) → ∀ j, (nextKeys j cs (World.run ops World.new cs).2).Nodup

/-- The program that removes each key after it was returned: the keys `ks` are added in the order `ks'`. -/
def drainProgram (ks' ks : List Int) : List (Cmd Int Int) :=
  .newMap :: ks'.map (fun k => .put 0 k k) ++ .iter 0 none none :: ks.flatMap fun k => [.call 0 .next, .remove 0 k]

/-- Second claim of C130 (false of the code): removing each key once it was returned, an iterator returns all keys. -/
def DrainReturnsAll : Prop := ∀ (ops : KeyOps Int), LawfulKeys ops compare → TotalKeys ops → ∀ (ks ks' : List Int),
  ks.Pairwise (· < ·) → ks'.Perm ks → nextKeys 0 (drainProgram ks' ks) (World.run ops World.new (drainProgram ks' ks)).2 = ks

def twiceProgram : List (Cmd Int Int) :=
  [.newMap, .put 0 3 30, .put 0 2 20, .iter 0 none none, .call 0 .next, .put 0 1 10, .call 0 .next, .call 0 .next]

/-- A key is returned twice: 2, 3, 3, after 1 was added. -/
theorem C130_twice_refuted : ¬ NoKeyTwice := by
  intro h
  have := h intOps intOps_lawful.1 intOps_lawful.2 twiceProgram (by intro i k; simp [twiceProgram]) 0
  revert this
  decide +kernel

/-- Keys are left out: with the keys 1, 2, 3, 4 only 1 and 2 are returned. -/
theorem C130_drain_refuted : ¬ DrainReturnsAll := by
  intro h
  have := h intOps intOps_lawful.1 intOps_lawful.2 [1, 2, 3, 4] [1, 2, 3, 4] (by decide) (List.Perm.refl _)
  revert this
  decide +kernel

theorem agree_new : Agree cmp (World.new : World K V) ⟨[], []⟩ [] :=
  ⟨links_new, by simp, rfl, rfl, by simp⟩

theorem agree_run (hops : LawfulKeys ops cmp) (ht : TotalKeys ops) (cs : List (Cmd K V)) (w : World K V) (S : IWorld K V)
    (Ss : List (PTree K V × Int)) (A : Agree cmp w S Ss) : ∃ S', IWorld.Runs cmp S cs (World.run ops w cs).2 S' := by
  have := hops.trans
  induction cs generalizing w S Ss with
  | nil => exact ⟨S, .nil S⟩
  | cons c cs ih =>
    obtain ⟨S1, Ss1, h1, h2⟩ := agree_step hops ht A c
    obtain ⟨S2, h3⟩ := ih _ S1 Ss1 h2
    exact ⟨S2, .cons _ _ _ _ _ _ _ h1 h3⟩

/-- C130, what holds: an iterator made without a start key returns the keys that its map had when it was made, in increasing order,
each with the value that the map has at the time of the call, as long as no key was added to the map and none was removed: values may
be changed, keys that are absent removed, other maps changed, other iterators used.  Missing: iterators after the keys of their map
have changed (the claims above are false of them). -/
theorem C130_iteration_partial (hops : LawfulKeys ops cmp) (ht : TotalKeys ops) (cs : List (Cmd K V)) :
    ∃ S, IWorld.Runs cmp ⟨[], []⟩ cs (World.run ops World.new cs).2 S :=
  agree_run hops ht cs _ _ _ agree_new

example := C130_iteration_partial intOps_lawful.1 intOps_lawful.2 twoMaps

/-! The common case: a loop that changes the values. -/

theorem keysOf_unique [Std.TransCmp cmp] {f : FMap K V} {a b : List K} (ha : KeysOf cmp f a) (hb : KeysOf cmp f b) :
    List.Forall₂ (fun x y => cmp x y = .eq) a b := by
  obtain ⟨a1, a2⟩ := ha
  obtain ⟨b1, b2⟩ := hb
  have hab : ∀ k, (∃ k' ∈ a, cmp k k' = .eq) ↔ ∃ k' ∈ b, cmp k k' = .eq := fun k => by rw [← a2, b2]
  clear a2 b2
  induction a generalizing b with
  | nil =>
    cases b with
    | nil => exact .nil
    | cons y b =>
      obtain ⟨k', h, -⟩ := (hab y).mpr ⟨y, by simp, Std.ReflCmp.compare_self⟩
      simp at h
  | cons x a ih =>
    rw [List.pairwise_cons] at a1
    cases b with
    | nil =>
      obtain ⟨k', h, -⟩ := (hab x).mp ⟨x, by simp, Std.ReflCmp.compare_self⟩
      simp at h
    | cons y b =>
      rw [List.pairwise_cons] at b1
      have hxy : cmp x y = .eq := by
        obtain ⟨y', hy, ey⟩ := (hab x).mp ⟨x, by simp, Std.ReflCmp.compare_self⟩
        obtain ⟨x', hx, ex⟩ := (hab y).mpr ⟨y, by simp, Std.ReflCmp.compare_self⟩
        simp only [List.mem_cons] at hy hx
        rcases hy with rfl | hy
        · exact ey
        · rcases hx with rfl | hx
          · exact cmp_eq_symm.mp ex
          · have h1 := b1.1 y' hy
            have h2 := a1.1 x' hx
            have h3 := cmp_lt_eq h2 (cmp_eq_symm.mp ex)
            have h4 := cmp_lt_eq h1 (cmp_eq_symm.mp ey)
            have := cmp_lt_trans h3 h4
            simp [Std.ReflCmp.compare_self] at this
      refine .cons hxy (ih a1.2 b1.2 fun k => ?_)
      constructor
      · rintro ⟨k', h1, h2⟩
        obtain ⟨k'', h3, h4⟩ := (hab k).mp ⟨k', by simp [h1], h2⟩
        simp only [List.mem_cons] at h3
        rcases h3 with rfl | h3
        · have h5 := cmp_lt_eq (a1.1 k' h1) (cmp_eq_symm.mp h2)
          have h6 := cmp_lt_eq h5 h4
          rw [hxy] at h6
          simp at h6
        · exact ⟨k'', h3, h4⟩
      · rintro ⟨k', h1, h2⟩
        obtain ⟨k'', h3, h4⟩ := (hab k).mpr ⟨k', by simp [h1], h2⟩
        simp only [List.mem_cons] at h3
        rcases h3 with rfl | h3
        · have h5 := cmp_lt_eq (b1.1 k' h1) (cmp_eq_symm.mp h2)
          have h6 := cmp_lt_eq h5 h4
          rw [cmp_eq_symm.mp hxy] at h6
          simp at h6
        · exact ⟨k'', h3, h4⟩

/-- The maps after calls on maps. -/
def mapsAt (cmp : K → K → Ordering) (cs : List (Cmd K V)) : FMaps K V := cs.foldl (fun ms c => (ms.exec cmp c).1) []

theorem runs_onMaps {cs rest : List (Cmd K V)} (hcs : ∀ c ∈ cs, OnMaps c) {ms : FMaps K V} {os : List (Out K V)} {S : IWorld K V}
    (h : IWorld.Runs cmp ⟨ms, []⟩ (cs ++ rest) os S) (j : Nat) :
    ∃ os', IWorld.Runs cmp ⟨cs.foldl (fun ms c => (ms.exec cmp c).1) ms, []⟩ rest os' S ∧ nextKeys j (cs ++ rest) os = nextKeys j rest os' := by
  induction cs generalizing ms os with
  | nil => exact ⟨os, h, rfl⟩
  | cons c cs ih =>
    have hc := hcs c (by simp)
    obtain ⟨w1, o, os1, rfl, h1, h2⟩ : ∃ w1 o os1, os = o :: os1 ∧ IWorld.Step cmp ⟨ms, []⟩ c o w1 ∧ IWorld.Runs cmp w1 (cs ++ rest) os1 S := by
      cases h with
      | cons _ w1 _ _ _ o os h1 h2 => exact ⟨w1, o, os, rfl, h1, h2⟩
    have hw : w1 = ⟨(ms.exec cmp c).1, []⟩ := by
      cases h1 with
      | onMap _ _ =>
        have : (⟨ms, []⟩ : IWorld K V).given c = [] := by simp only [IWorld.given]; split <;> simp
        rw [this]
      | _ => exact absurd hc (by simp [OnMaps])
    subst hw
    obtain ⟨os', h3, h4⟩ := ih (fun c hc => hcs c (by simp [hc])) h2
    refine ⟨os', h3, ?_⟩
    rw [← h4, List.cons_append]
    cases c with
    | call j c => exact absurd hc (by simp [OnMaps])
    | _ => rfl

theorem runs_update [Std.TransCmp cmp] (g : K → V) {ks ks' : List K} (hk : List.Forall₂ (fun x y => cmp x y = .eq) ks ks') {f : FMap K V} {n : Nat}
    {ms : FMaps K V} (hms : ms[0]? = some (f, n)) (hf : ∀ k ∈ ks, (f k).isSome) {os : List (Out K V)} {S : IWorld K V}
    (h : IWorld.Runs cmp ⟨ms, [some (0, ks')]⟩ (ks.flatMap fun k => [.call 0 .next, .put 0 k (g k)]) os S) :
    List.Forall₂ (fun x y => cmp x y = .eq) (nextKeys 0 (ks.flatMap fun k => [.call 0 .next, .put 0 k (g k)]) os) ks := by
  induction hk generalizing f n ms os with
  | nil => simp [nextKeys]
  | @cons k k' ks ks' hkk hks ih =>
    simp only [List.flatMap_cons, List.cons_append, List.nil_append] at h ⊢
    obtain ⟨w1, o, os1, rfl, h1, h2⟩ : ∃ w1 o os1, os = o :: os1 ∧ IWorld.Step cmp ⟨ms, [some (0, k' :: ks')]⟩ (.call 0 .next) o w1 ∧
        IWorld.Runs cmp w1 (.put 0 k (g k) :: ks.flatMap fun k => [.call 0 .next, .put 0 k (g k)]) os1 S := by
      cases h with
      | cons _ w1 _ _ _ o os h1 h2 => exact ⟨w1, o, os, rfl, h1, h2⟩
    obtain ⟨w2, o2, os2, rfl, h3, h4⟩ : ∃ w2 o2 os2, os1 = o2 :: os2 ∧ IWorld.Step cmp w1 (.put 0 k (g k)) o2 w2 ∧
        IWorld.Runs cmp w2 (ks.flatMap fun k => [.call 0 .next, .put 0 k (g k)]) os2 S := by
      cases h2 with
      | cons _ w1 _ _ _ o os h1 h2 => exact ⟨w1, o, os, rfl, h1, h2⟩
    obtain ⟨k2, v, ho, hw, h5⟩ : ∃ k2 v, o = .iter (.yield (k2, v)) ∧ w1 = ⟨ms, [some (0, ks')]⟩ ∧ cmp k' k2 = .eq := by
      cases h1 with
      | onMap _ _ => exact (‹OnMaps (Cmd.call 0 .next : Cmd K V)› : False).elim
      | noIter _ _ h1 => simp at h1
      | given _ _ _ h1 => simp at h1
      | next _ i k0 k2 ks0 f n v h1 h2 h3 h4 =>
        simp only [List.getElem?_cons_zero, Option.some.injEq, Prod.mk.injEq, List.cons.injEq] at h1
        obtain ⟨rfl, rfl, rfl⟩ := h1
        exact ⟨k2, v, rfl, rfl, h4⟩
      | atEnd _ i _ h1 h2 => simp at h1
    subst ho hw
    have hfk := hf k (by simp)
    have hw2 : w2 = ⟨ms.set 0 (f.put cmp k (g k), n), [some (0, ks')]⟩ := by
      cases h3 with
      | onMap _ h => simp [FMaps.exec, IWorld.given, IWorld.changed, hms, hfk]
    subst hw2
    have hlt := (List.getElem?_eq_some_iff.mp hms).1
    have := ih (f := f.put cmp k (g k)) (n := n) (by simp [hlt]) (by
      intro k3 hk3
      have := hf k3 (by simp [hk3])
      simp only [FMap.put]
      split <;> simp [this]) h4
    simp only [nextKeys, if_true]
    refine .cons ?_ this
    rw [cmp_eq_symm]
    exact Std.TransCmp.eq_trans hkk h5

/-- C130, what holds: a loop that gives every key a new value returns each key of the map once, in increasing order, whatever the calls
on maps before. -/
theorem C130_update_loop_partial (hops : LawfulKeys ops cmp) (ht : TotalKeys ops) (cs : List (Cmd K V)) (hcs : ∀ c ∈ cs, OnMaps c)
    (f : FMap K V) (n : Nat) (hf : (mapsAt cmp cs)[0]? = some (f, n)) (ks : List K) (hks : KeysOf cmp f ks) (g : K → V) :
    List.Forall₂ (fun x y => cmp x y = .eq)
      (nextKeys 0 (cs ++ .iter 0 none none :: ks.flatMap fun k => [.call 0 .next, .put 0 k (g k)])
        (World.run ops World.new (cs ++ .iter 0 none none :: ks.flatMap fun k => [.call 0 .next, .put 0 k (g k)])).2) ks := by
  have := hops.trans
  obtain ⟨S, hS⟩ := C130_iteration_partial hops ht (cs ++ .iter 0 none none :: ks.flatMap fun k => [.call 0 .next, .put 0 k (g k)])
  obtain ⟨os, h1, h2⟩ := runs_onMaps hcs hS 0
  rw [h2]
  obtain ⟨w1, o, os1, rfl, h3, h4⟩ : ∃ w1 o os1, os = o :: os1 ∧ IWorld.Step cmp ⟨mapsAt cmp cs, []⟩ (.iter 0 none none) o w1 ∧
      IWorld.Runs cmp w1 (ks.flatMap fun k => [.call 0 .next, .put 0 k (g k)]) os1 S := by
    cases h1 with
    | cons _ w1 _ _ _ o os h1 h2 => exact ⟨w1, o, os, rfl, h1, h2⟩
  simp only [nextKeys]
  cases h3 with
  | onMap _ h => exact absurd h (by simp [OnMaps])
  | noMap _ _ _ h => rw [hf] at h; simp at h
  | iter _ _ f' n' ks' e1 e2 =>
    rw [hf] at e1
    simp only [Option.some.injEq, Prod.mk.injEq] at e1
    obtain ⟨rfl, rfl⟩ := e1
    have hall : ks'.filter (fun k => InRange cmp none none k) = ks' := by simp [InRange]
    rw [hall] at h4
    refine runs_update g (keysOf_unique hks e2) hf (fun k hk => ?_) h4
    exact (hks.2 k).mpr ⟨k, hk, Std.ReflCmp.compare_self⟩

example : LawfulKeys intOps compare ∧ TotalKeys intOps := intOps_lawful

example : ∃ f n, (mapsAt compare [.newMap, .put 0 2 20, .put 0 1 10, .put 0 3 30, .remove 0 3] : FMaps Int Int)[0]? = some (f, n) ∧
    KeysOf compare f [1, 2] := by
  refine ⟨_, _, rfl, by decide, fun k => ?_⟩
  simp only [FMap.put, FMap.remove, FMap.empty, List.mem_cons, List.not_mem_nil, or_false, compare_eq_iff_eq]
  grind

/-- Values are changed and another map is changed, while iterating. -/
def safeProgram : List (Cmd Int Int) :=
  [.newMap, .newMap, .put 0 2 20, .put 0 1 10, .put 0 3 30, .iter 0 none none, .call 0 .next, .put 0 2 21, .put 1 7 7, .remove 0 9,
   .call 0 .peek, .put 0 2 22, .call 0 .next, .call 0 .next, .call 0 .hasNext, .call 0 .next]

example : (World.run intOps World.new safeProgram).2 = [.done, .done, .val none, .val none, .val none, .done, .iter (.yield (1, 10)),
    .val (some 20), .val none, .val none, .iter (.yield (2, 21)), .val (some 21), .iter (.yield (2, 22)), .iter (.yield (3, 30)),
    .iter (.bool false), .crash] := by decide +kernel

example := C129_links_survive wildProgram

end Poodle.Props
