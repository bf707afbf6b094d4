import Verif.Lemmas.AvlHeapOver

namespace Poodle
open Poodle.Spec Poodle.Props

set_option linter.unusedSimpArgs false

variable {K V : Type} {ops : KeyOps K} {cmp : K → K → Ordering}

open PTree

/-- `Put` on a key that is there. -/
theorem put_present (k : K) (v : V) (P : PTree K V) (n : Int) (h : AHeap K V) (hp : Owns h P) (hn : P.addrs.Nodup) {old : V}
    (hr : ((⟨P.erase, n⟩ : SortedMap K V).put ops k v).2 = some (some old)) :
    ∃ a nd, h[a]? = some nd ∧ ops.equal nd.key k = true ∧
      HMap.put ops (hmap P n) k v h = (h.set a { nd with key := k, val := v }, hmap P n, some (some old)) := by
  cases P with
  | nil => simp [SortedMap.put, SortedMap.putNode, PTree.erase] at hr
  | node a0 k0 v0 b l r =>
    rcases hR : (PTree.node a0 k0 v0 b l r).erase.putR ops k v with ⟨T, - | ⟨- | e, d⟩⟩
    · simp only [PTree.erase] at hr hR; simp [SortedMap.put, SortedMap.putNode, hR] at hr
    · simp only [PTree.erase] at hr hR; simp [SortedMap.put, SortedMap.putNode, hR] at hr
    · obtain ⟨rfl, a, nd, -, h2, h3, h4, h5⟩ := putR_over k v _ h hp hn _ (height_lt_fuel hp hn) hR
      have he : e.2 = old := by
        simp only [PTree.erase] at hr hR; simpa [SortedMap.put, SortedMap.putNode, hR] using hr
      refine ⟨a, nd, h2, h4, ?_⟩
      simp only [ptr] at h5
      simp [HMap.put, hmap, ptr, h5, he]

/-- `Remove` on a key that is not there. -/
theorem remove_absent (k : K) (P : PTree K V) (n : Int) (h : AHeap K V) (hp : Owns h P) (hn : P.addrs.Nodup)
    (hr : ((⟨P.erase, n⟩ : SortedMap K V).remove ops k).2 = some none) :
    HMap.remove ops (hmap P n) k h = (h, hmap P n, some none) := by
  rcases hR : P.erase.removeR ops k with ⟨T, - | ⟨- | e, d⟩⟩
  · simp [SortedMap.remove, SortedMap.removeNode, hR] at hr
  · obtain ⟨rfl, h2⟩ := removeR_absent k P h hp _ (height_lt_fuel hp hn) hR
    simp [HMap.remove, hmap, h2]
  · simp [SortedMap.remove, SortedMap.removeNode, hR] at hr

/-- A world and its specification. -/
structure Agree (cmp : K → K → Ordering) (w : World K V) (S : IWorld K V) (Ss : List (PTree K V × Int)) : Prop where
  links : Links w.heap w.maps Ss
  good : ∀ s ∈ Ss, GoodMap cmp (plain s)
  maps : S.maps = (Ss.map plain).map (asFMap cmp)
  length : S.iters.length = w.iters.length
  live : ∀ (j i : Nat) (ks : List K) (it : HIter K), S.iters[j]? = some (some (i, ks)) → w.iters[j]? = some it →
    ∃ P n, Ss[i]? = some (P, n) ∧ Live cmp w.heap P it ks

theorem exec_heap (w : World K V) (c : Cmd K V) (hc : OnMaps c) : (w.exec ops c).1.iters = w.iters := by
  cases c with
  | newMap => rfl
  | get i k => simp only [World.exec]; split <;> [rfl; (split <;> rfl)]
  | put i k v => simp only [World.exec]; split <;> [rfl; (split <;> rfl)]
  | remove i k => simp only [World.exec]; split <;> [rfl; (split <;> rfl)]
  | size i => simp only [World.exec]; split <;> rfl
  | iter i s e => exact hc.elim
  | call j c => exact hc.elim

theorem Agree.look {w : World K V} {S : IWorld K V} {Ss : List (PTree K V × Int)} (A : Agree cmp w S Ss) (i : Nat) :
    S.maps[i]? = Ss[i]?.map fun s => asFMap cmp (plain s) := by
  rw [A.maps, List.getElem?_map, List.getElem?_map, Option.map_map]
  rfl

section
variable [Std.TransCmp cmp]

/-- One call on a map. -/
theorem agree_onMap (hops : LawfulKeys ops cmp) (ht : TotalKeys ops) {w : World K V} {S : IWorld K V} {Ss : List (PTree K V × Int)}
    (A : Agree cmp w S Ss) (c : Cmd K V) (hc : OnMaps c) :
    (w.exec ops c).2 = (S.maps.exec cmp c).2 ∧
      ∃ Ss', Agree cmp (w.exec ops c).1 ⟨(S.maps.exec cmp c).1, S.given c⟩ Ss' := by
  obtain ⟨Ss0, L0, l1, l2, l3⟩ := exec_links (ops := ops) w A.links c
  have hg0 : ∀ m ∈ Ss.map plain, GoodMap cmp m := by
    intro m hm
    obtain ⟨s, h1, rfl⟩ := List.mem_map.mp hm
    exact A.good s h1
  obtain ⟨r1, r2, r3⟩ := maps_refine hops ht (Ss.map plain) hg0 c
  have hmaps := A.maps
  rw [← hmaps] at r2 r3
  refine ⟨by rw [l2 hc, r3], ?_⟩
  have hgood : ∀ s ∈ Ss0, GoodMap cmp (plain s) := by
    intro s hs
    exact r1 _ (by rw [← l1]; exact List.mem_map.mpr ⟨s, hs, rfl⟩)
  refine ⟨Ss0, L0, hgood, ?_, ?_, ?_⟩
  · rw [← r2, l1]
  · rw [exec_heap w c hc, ← A.length]
    simp only [IWorld.given]
    split <;> simp
  · rw [exec_heap w c hc]
    intro j i ks it hS hI
    -- the iterator has not been given up
    have hgiven : S.iters[j]? = some (some (i, ks)) ∧ S.changed c ≠ some i := by
      simp only [IWorld.given] at hS
      rcases hch : S.changed c with - | i'
      · rw [hch] at hS
        exact ⟨hS, by simp⟩
      · rw [hch] at hS
        simp only [List.getElem?_map] at hS
        rcases hx : S.iters[j]? with - | x
        · simp [hx] at hS
        · simp only [hx, Option.map_some, Option.some.injEq, Option.filter_eq_some_iff, bne_iff_ne, ne_eq] at hS
          exact ⟨by rw [hS.1], fun h => hS.2 (Option.some.inj h).symm⟩
    obtain ⟨hS', hnc⟩ := hgiven
    obtain ⟨P, n, hP, hL⟩ := A.live j i ks it hS' hI
    obtain ⟨o1, o2, o3⟩ := A.links.one (List.mem_of_getElem? hP)
    by_cases hT : Touches c i
    · have hm : w.maps[i]? = some (hmap P n) := by rw [A.links.maps, List.getElem?_map, hP]; rfl
      have hSm : S.maps[i]? = some (asFMap cmp ⟨P.erase, n⟩) := by rw [A.look, hP]; rfl
      have hgP := A.good _ (List.mem_of_getElem? hP)
      -- the new tree of the map
      have hnew : ∀ R : PTree K V, Owns (w.exec ops c).1.heap R → (w.exec ops c).1.maps[i]? = some (hmap R n) →
          ∃ n', Ss0[i]? = some (R, n') := by
        intro R hR hmR
        rw [L0.maps, List.getElem?_map] at hmR
        rcases hs0 : Ss0[i]? with - | ⟨R', n'⟩
        · simp [hs0] at hmR
        · simp only [hs0, Option.map_some, Option.some.injEq, hmap, HMap.mk.injEq] at hmR
          have := owns_unique R' R (L0.owns _ (List.mem_of_getElem? hs0)) hR hmR.1
          subst this
          exact ⟨n', rfl⟩
      rcases hT with ⟨k, v, rfl⟩ | ⟨k, rfl⟩
      · obtain ⟨p1, -, -, -⟩ := put_asFMap hops ht _ hgP k v
        simp only [IWorld.changed, hSm, asFMap] at hnc
        rcases hv : contents cmp (⟨P.erase, n⟩ : SortedMap K V) k with - | old
        · simp [hv] at hnc
        · simp only [plain] at p1
          rw [hv] at p1
          obtain ⟨a, nd, q1, q2, q3⟩ := put_present k v P n w.heap o1 o2 p1
          have hex : (w.exec ops (.put i k v)).1 = { w with heap := w.heap.set a { nd with key := k, val := v }, maps := w.maps.set i (hmap P n) } := by
            simp only [World.exec, hm, q3]
          have hR := over_owns k v q1 P o1
          obtain ⟨n', hn'⟩ := hnew (over a k v P) (by rw [hex]; exact hR) (by
            rw [hex]
            simp only [List.getElem?_set, (List.getElem?_eq_some_iff.mp hm).1, if_true]
            simp [hmap, over_ptr])
          refine ⟨_, n', hn', ?_⟩
          rw [hex]
          exact hL.over v q1 ((hops.equal_iff _ _).mp q2)
      · obtain ⟨p1, -, -, -⟩ := remove_asFMap hops ht _ hgP k
        simp only [IWorld.changed, hSm, asFMap] at hnc
        rcases hv : contents cmp (⟨P.erase, n⟩ : SortedMap K V) k with - | old
        · simp only [plain] at p1
          rw [hv] at p1
          have q3 := remove_absent k P n w.heap o1 o2 p1
          have hex : (w.exec ops (.remove i k)).1 = { w with heap := w.heap, maps := w.maps.set i (hmap P n) } := by
            simp only [World.exec, hm, q3]
          obtain ⟨n', hn'⟩ := hnew P (by rw [hex]; exact o1) (by
            rw [hex]
            simp only [List.getElem?_set, (List.getElem?_eq_some_iff.mp hm).1, if_true])
          refine ⟨_, n', hn', ?_⟩
          rw [hex]
          exact hL
        · simp [hv] at hnc
    · obtain ⟨k1, X, k2, k3⟩ := l3 i _ hP hT
      exact ⟨P, n, k1, hL.framed k2 k3⟩

theorem lookL_of_mem {l : List (K × V)} (h : Increasing cmp l) {e : K × V} (he : e ∈ l) {k : K} (hk : cmp k e.1 = .eq) :
    lookL cmp l k = some e.2 := by
  have : findL cmp k l = some e := (findL_eq_some_iff h).mpr ⟨he, cmp_eq_symm.mp hk⟩
  simp [lookL, this]

theorem keysOf_entries {l : List (K × V)} (h : Increasing cmp l) : KeysOf cmp (lookL cmp l) (l.map Prod.fst) := by
  refine ⟨by rw [List.pairwise_map]; exact h, fun k => ?_⟩
  simp only [lookL, Option.isSome_map, findL_isSome_iff, List.mem_map]
  constructor
  · rintro ⟨e, h1, h2⟩
    exact ⟨e.1, ⟨e, h1, rfl⟩, cmp_eq_symm.mp h2⟩
  · rintro ⟨k', ⟨e, h1, rfl⟩, h2⟩
    exact ⟨e, h1, cmp_eq_symm.mp h2⟩

/-- One call. -/
theorem agree_step (hops : LawfulKeys ops cmp) (ht : TotalKeys ops) {w : World K V} {S : IWorld K V} {Ss : List (PTree K V × Int)}
    (A : Agree cmp w S Ss) (c : Cmd K V) :
    ∃ S' Ss', IWorld.Step cmp S c (w.exec ops c).2 S' ∧ Agree cmp (w.exec ops c).1 S' Ss' := by
  by_cases hc : OnMaps c
  · obtain ⟨h1, Ss', h2⟩ := agree_onMap hops ht A c hc
    exact ⟨_, Ss', by rw [h1]; exact .onMap S c hc, h2⟩
  · cases c with
    | newMap => exact absurd trivial hc
    | get i k => exact absurd trivial hc
    | put i k v => exact absurd trivial hc
    | remove i k => exact absurd trivial hc
    | size i => exact absurd trivial hc
    | iter i start stop =>
      rcases hP : Ss[i]? with - | ⟨P, n⟩
      · have hm : w.maps[i]? = none := by rw [A.links.maps, List.getElem?_map, hP]; rfl
        have hSm : S.maps[i]? = none := by rw [A.look, hP]; rfl
        refine ⟨S, Ss, ?_, ?_⟩
        · simp only [World.exec, hm]
          exact .noMap S i start stop hSm
        · simpa only [World.exec, hm] using A
      · have hm : w.maps[i]? = some (hmap P n) := by rw [A.links.maps, List.getElem?_map, hP]; rfl
        have hSm : S.maps[i]? = some (asFMap cmp ⟨P.erase, n⟩) := by rw [A.look, hP]; rfl
        obtain ⟨o1, o2, o3⟩ := A.links.one (List.mem_of_getElem? hP)
        have hgP := A.good _ (List.mem_of_getElem? hP)
        have hAdd : ∀ (it : HIter K) (x : Option (Nat × List K)),
            (∀ i ks, x = some (i, ks) → ∃ P n, Ss[i]? = some (P, n) ∧ Live cmp w.heap P it ks) →
            Agree cmp { w with iters := w.iters ++ [it] } { S with iters := S.iters ++ [x] } Ss := by
          intro it x hx
          refine ⟨A.links, A.good, A.maps, by simp [A.length], ?_⟩
          intro j i ks it' h1 h2
          simp only at h1 h2
          rcases Nat.lt_trichotomy j S.iters.length with hj | hj | hj
          · rw [List.getElem?_append_left hj] at h1
            rw [List.getElem?_append_left (by rw [← A.length]; exact hj)] at h2
            exact A.live j i ks it' h1 h2
          · subst hj
            rw [List.getElem?_append_right (Nat.le_refl _)] at h1
            rw [A.length, List.getElem?_append_right (Nat.le_refl _)] at h2
            simp only [Nat.sub_self, List.getElem?_cons_zero, Option.some.injEq] at h1 h2
            subst h2
            exact hx i ks h1
          · rw [List.getElem?_eq_none (by simp; omega)] at h1
            simp at h1
        rcases start with - | s
        · obtain ⟨it, e1, e2⟩ := new_live (ops := ops) o1 o2 hgP.increasing stop
          have hex : w.exec ops (.iter i none stop) = ({ w with iters := w.iters ++ [it] }, .done) := by
            simp only [World.exec, hm, hmap, e1]
          rw [hex]
          refine ⟨_, Ss, .iter S i stop _ _ _ hSm (keysOf_entries hgP.increasing), hAdd it _ ?_⟩
          intro i' ks hx
          simp only [Option.some.injEq, Prod.mk.injEq] at hx
          obtain ⟨rfl, rfl⟩ := hx
          exact ⟨P, n, hP, e2⟩
        · obtain ⟨it0, C, Qs, d1, -⟩ := descend_sim w.heap P.addrs P [] ⟨[], P.ptr, 0, none, none⟩ (w.heap.length + 1) (height_lt_fuel o1 o2)
            rfl rfl o1 (by simp) (by simp) (by simp) rfl
          rcases stop with - | e
          · have hex : w.exec ops (.iter i (some s) none) = ({ w with iters := w.iters ++ [{ it0 with start := some s, stop := none }] }, .done) := by
              simp only [World.exec, hm, hmap, HIter.new, d1]
            rw [hex]
            exact ⟨_, Ss, .range S i s none _ hSm (by simp), hAdd _ none (by simp)⟩
          · rcases hcmp : ops.compare s e with - | c
            · exact absurd hcmp (ht _ _)
            · have hs := hops.compare_sign _ _ _ hcmp
              by_cases hpos : c > 0
              · have hex : w.exec ops (.iter i (some s) (some e)) = (w, .crash) := by
                  simp only [World.exec, hm, hmap, HIter.new, d1, hcmp, if_pos hpos]
                rw [hex]
                exact ⟨_, Ss, .rangePanic S i s e _ hSm (hs.2.mp hpos), A⟩
              · have hex : w.exec ops (.iter i (some s) (some e)) =
                    ({ w with iters := w.iters ++ [{ it0 with start := some s, stop := some e }] }, .done) := by
                  simp only [World.exec, hm, hmap, HIter.new, d1, hcmp, if_neg hpos]
                rw [hex]
                refine ⟨_, Ss, .range S i s (some e) _ hSm ?_, hAdd _ none (by simp)⟩
                intro e' he'
                simp only [Option.some.injEq] at he'
                subst he'
                exact fun h => hpos (hs.2.mpr h)
    | call j c =>
      rcases hI : w.iters[j]? with - | it
      · have hS : S.iters[j]? = none := by
          rw [List.getElem?_eq_none_iff] at hI ⊢
          rw [A.length]; exact hI
        refine ⟨S, Ss, ?_, ?_⟩
        · simp only [World.exec, hI]
          exact .noIter S j c hS
        · simpa only [World.exec, hI] using A
      · have hjw := (List.getElem?_eq_some_iff.mp hI).1
        have hjS : j < S.iters.length := by rw [A.length]; exact hjw
        rcases hr : HIter.sortedCall ops w.heap it c with ⟨it', r⟩
        have hex : (w.exec ops (.call j c)).1 = { w with iters := w.iters.set j it' } := by
          simp only [World.exec, hI, hr]
          split <;> rename_i hh <;> simp only [Prod.mk.injEq] at hh <;> rw [← hh.1]
        have hout : (w.exec ops (.call j c)).2 = match r with | .crash => .crash | r => .iter r := by
          simp only [World.exec, hI, hr]
          cases r <;> simp
        have hAdd : ∀ (x : Option (Nat × List K)),
            (∀ i ks, x = some (i, ks) → ∃ P n, Ss[i]? = some (P, n) ∧ Live cmp w.heap P it' ks) →
            Agree cmp (w.exec ops (.call j c)).1 { S with iters := S.iters.set j x } Ss := by
          intro x hx
          rw [hex]
          refine ⟨A.links, A.good, A.maps, by simp [A.length], ?_⟩
          intro j2 i ks it2 h1 h2
          simp only at h1 h2
          by_cases hj : j = j2
          · subst hj
            rw [List.getElem?_set_self hjS] at h1
            rw [List.getElem?_set_self hjw] at h2
            simp only [Option.some.injEq] at h1 h2
            subst h2
            exact hx i ks h1
          · rw [List.getElem?_set_ne hj] at h1 h2
            exact A.live j2 i ks it2 h1 h2
        rcases hS : S.iters[j]? with - | - | ⟨i, ks⟩
        · rw [List.getElem?_eq_none_iff] at hS
          omega
        · have hself : S.iters.set j none = S.iters := by
            obtain ⟨h1, h2⟩ := List.getElem?_eq_some_iff.mp hS
            rw [← h2, List.set_getElem_self]
          have := hAdd none (by simp)
          rw [hself] at this
          exact ⟨S, Ss, .given S j c _ hS, this⟩
        · obtain ⟨P, n, hP, hL⟩ := A.live j i ks it hS hI
          have hSm : S.maps[i]? = some (asFMap cmp ⟨P.erase, n⟩) := by rw [A.look, hP]; rfl
          obtain ⟨o1, o2, o3⟩ := A.links.one (List.mem_of_getElem? hP)
          have hgP := A.good _ (List.mem_of_getElem? hP)
          obtain ⟨it2, o, c1, c2, c3, c4⟩ := hL.call hops ht o1 o2 c
          rw [hr] at c1
          simp only [Prod.mk.injEq] at c1
          obtain ⟨rfl, rfl⟩ := c1
          have hself : S.iters.set j (some (i, ks)) = S.iters := by
            obtain ⟨h1, h2⟩ := List.getElem?_eq_some_iff.mp hS
            rw [← h2, List.set_getElem_self]
          have hag := hAdd (some (i, if c = .next then ks.tail else ks)) (by
            intro i' ks' hx
            simp only [Option.some.injEq, Prod.mk.injEq] at hx
            obtain ⟨rfl, rfl⟩ := hx
            exact ⟨P, n, hP, c2⟩)
          cases c3 with
          | nil =>
            cases c with
            | next =>
              simp only [if_true, List.tail_nil] at hag
              rw [hself] at hag
              refine ⟨S, Ss, ?_, hag⟩
              rw [hout]
              simp only [listCall]
              exact .atEnd S j i .next hS (by simp)
            | hasNext =>
              simp only [reduceCtorEq, if_false] at hag
              rw [hself] at hag
              refine ⟨S, Ss, ?_, hag⟩
              rw [hout]
              simp only [listCall]
              exact .hasNext S j i [] hS
            | peek =>
              simp only [reduceCtorEq, if_false] at hag
              rw [hself] at hag
              refine ⟨S, Ss, ?_, hag⟩
              rw [hout]
              simp only [listCall]
              exact .atEnd S j i .peek hS (by simp)
          | @cons k e ks es hk hks =>
            have hv : (asFMap cmp (⟨P.erase, n⟩ : SortedMap K V)).1 k = some e.2 := lookL_of_mem hgP.increasing (c4 e (by simp)) hk
            cases c with
            | next =>
              simp only [if_true, List.tail_cons] at hag
              refine ⟨_, Ss, ?_, hag⟩
              rw [hout]
              simp only [listCall]
              exact .next S j i k e.1 ks _ _ e.2 hS hSm hv hk
            | hasNext =>
              simp only [reduceCtorEq, if_false] at hag
              rw [hself] at hag
              refine ⟨S, Ss, ?_, hag⟩
              rw [hout]
              simp only [listCall]
              exact .hasNext S j i _ hS
            | peek =>
              simp only [reduceCtorEq, if_false] at hag
              rw [hself] at hag
              refine ⟨S, Ss, ?_, hag⟩
              rw [hout]
              simp only [listCall]
              exact .peek S j i k e.1 ks _ _ e.2 hS hSm hv hk

end

end Poodle
