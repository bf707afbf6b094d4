import Verif.Lemmas.AvlHeapOps
import Verif.Props.SortedMap

namespace Poodle
open Poodle.Spec Poodle.Props

set_option linter.unusedSimpArgs false

variable {K V : Type} {ops : KeyOps K} {cmp : K → K → Ordering}

open PTree

theorem split_elem {α : Type} {l : List α} {i : Nat} {x : α} (h : l[i]? = some x) :
    ∃ A B, l = A ++ x :: B ∧ A.length = i ∧ ∀ y, l.set i y = A ++ y :: B := by
  obtain ⟨hl, hx⟩ := List.getElem?_eq_some_iff.mp h
  refine ⟨l.take i, l.drop (i + 1), ?_, by simp; omega, fun y => ?_⟩
  · rw [← hx, List.cons_getElem_drop_succ, List.take_append_drop]
  · rw [List.set_eq_take_append_cons_drop, if_pos hl]

/-- The maps of a world and the trees of their nodes. -/
structure Links (h : AHeap K V) (maps : List HMap) (Ss : List (PTree K V × Int)) : Prop where
  maps : maps = Ss.map fun s => hmap s.1 s.2
  owns : ∀ s ∈ Ss, Owns h s.1
  nodup : (Ss.flatMap fun s => s.1.addrs).Nodup
  balanced : ∀ s ∈ Ss, Balanced s.1.erase

theorem Links.one {h : AHeap K V} {maps : List HMap} {Ss : List (PTree K V × Int)} (L : Links h maps Ss) {s : PTree K V × Int}
    (hs : s ∈ Ss) : Owns h s.1 ∧ s.1.addrs.Nodup ∧ Balanced s.1.erase :=
  ⟨L.owns s hs, (List.nodup_flatMap.mp L.nodup).1 s hs, L.balanced s hs⟩

/-- One map changes. -/
theorem Links.update {h h' : AHeap K V} {maps : List HMap} {Ss : List (PTree K V × Int)} (L : Links h maps Ss) {i : Nat} {P R : PTree K V}
    {n n' : Int} (hi : Ss[i]? = some (P, n)) (hR : Owns h' R) (hb : Balanced R.erase)
    (hg : GrownBy h.length P.addrs R.addrs ∨ R.addrs.Sublist P.addrs) (hf : Frame h h' P.addrs) :
    Links h' (maps.set i (hmap R n')) (Ss.set i (R, n')) := by
  obtain ⟨A, B, e1, rfl, e3⟩ := split_elem hi
  have hm := L.maps
  have hn := L.nodup
  have ho := L.owns
  have hbal := L.balanced
  rw [e3]
  subst e1
  simp only [List.flatMap_append, List.flatMap_cons] at hn
  have hd : ∀ s, s ∈ A ∨ s ∈ B → ∀ x ∈ s.1.addrs, x ∉ P.addrs := by
    intro s hs x hx hxp
    rw [List.nodup_append] at hn
    obtain ⟨-, n2, n3⟩ := hn
    rw [List.nodup_append] at n2
    rcases hs with hs | hs
    · exact n3 x (List.mem_flatMap.mpr ⟨s, hs, hx⟩) x (by simp [hxp]) rfl
    · exact n2.2.2 x hxp x (List.mem_flatMap.mpr ⟨s, hs, hx⟩) rfl
  refine ⟨?_, ?_, ?_, ?_⟩
  · rw [hm]; simp
  · intro s hs
    simp only [List.mem_append, List.mem_cons] at hs
    rcases hs with hs | rfl | hs
    · exact Owns.framed _ (ho s (by simp [hs])) hf (hd s (.inl hs))
    · exact hR
    · exact Owns.framed _ (ho s (by simp [hs])) hf (hd s (.inr hs))
  · simp only [List.flatMap_append, List.flatMap_cons]
    rcases hg with (hg | ⟨X, Y, hX, hY⟩) | hg
    · rw [← hg]; exact hn
    · rw [hY]
      rw [hX] at hn
      have : (List.flatMap (fun s => s.1.addrs) A ++ ((X ++ h.length :: Y) ++ List.flatMap (fun s => s.1.addrs) B)) =
          (List.flatMap (fun s => s.1.addrs) A ++ X) ++ h.length :: (Y ++ List.flatMap (fun s => s.1.addrs) B) := by simp
      rw [this, List.nodup_middle, List.nodup_cons]
      have e : List.flatMap (fun s => s.1.addrs) A ++ X ++ (Y ++ List.flatMap (fun s => s.1.addrs) B) =
          List.flatMap (fun s => s.1.addrs) A ++ ((X ++ Y) ++ List.flatMap (fun s => s.1.addrs) B) := by simp
      refine ⟨?_, by rw [e]; exact hn⟩
      rw [e, ← hX]
      intro hx
      simp only [List.mem_append, List.mem_flatMap] at hx
      have : h.length < h.length := by
        rcases hx with ⟨s, hs, hx⟩ | hx | ⟨s, hs, hx⟩
        · exact Owns.lt _ (ho s (by simp [hs])) _ hx
        · exact Owns.lt _ (ho (P, n) (by simp)) _ hx
        · exact Owns.lt _ (ho s (by simp [hs])) _ hx
      omega
    · exact hn.sublist (List.Sublist.append (List.Sublist.refl _) (List.Sublist.append hg (List.Sublist.refl _)))
  · intro s hs
    simp only [List.mem_append, List.mem_cons] at hs
    rcases hs with hs | rfl | hs
    · exact hbal s (by simp [hs])
    · exact hb
    · exact hbal s (by simp [hs])

theorem Links.new {h : AHeap K V} {maps : List HMap} {Ss : List (PTree K V × Int)} (L : Links h maps Ss) :
    Links h (maps ++ [HMap.new]) (Ss ++ [(.nil, 0)]) := by
  refine ⟨by rw [L.maps]; simp [hmap, ptr, HMap.new], ?_, by simpa [addrs] using L.nodup, ?_⟩
  · intro s hs
    simp only [List.mem_append, List.mem_singleton] at hs
    rcases hs with hs | rfl
    · exact L.owns s hs
    · trivial
  · intro s hs
    simp only [List.mem_append, List.mem_singleton] at hs
    rcases hs with hs | rfl
    · exact L.balanced s hs
    · trivial

/-- The tree of a map, without addresses. -/
def plain (s : PTree K V × Int) : SortedMap K V := ⟨s.1.erase, s.2⟩

/-- The maps after a call. -/
def mapsAfter (ops : KeyOps K) (ms : List (SortedMap K V)) : Cmd K V → List (SortedMap K V)
  | .newMap => ms ++ [SortedMap.new]
  | .put i k v => match ms[i]? with
    | none => ms
    | some m => ms.set i (m.put ops k v).1
  | .remove i k => match ms[i]? with
    | none => ms
    | some m => ms.set i (m.remove ops k).1
  | _ => ms

/-- What a call on a map returns. -/
def outOf : Option (Option V) → Out K V
  | none => .crash
  | some r => .val r

/-- What a call returns. -/
def mapOut (ops : KeyOps K) (ms : List (SortedMap K V)) : Cmd K V → Out K V
  | .newMap => .done
  | .get i k => match ms[i]? with
    | none => .bad
    | some m => outOf (m.get ops k)
  | .put i k v => match ms[i]? with
    | none => .bad
    | some m => outOf (m.put ops k v).2
  | .remove i k => match ms[i]? with
    | none => .bad
    | some m => outOf (m.remove ops k).2
  | .size i => match ms[i]? with
    | none => .bad
    | some m => .size m.size
  | _ => .done

theorem Links.look {h : AHeap K V} {maps : List HMap} {Ss : List (PTree K V × Int)} (L : Links h maps Ss) (i : Nat) :
    (Ss[i]? = none ∧ maps[i]? = none ∧ (Ss.map plain)[i]? = none) ∨
      ∃ P n, Ss[i]? = some (P, n) ∧ maps[i]? = some (hmap P n) ∧ (Ss.map plain)[i]? = some ⟨P.erase, n⟩ := by
  rw [L.maps]
  rcases hs : Ss[i]? with - | ⟨P, n⟩
  · left; simp [List.getElem?_map, hs]
  · right; exact ⟨P, n, rfl, by simp [List.getElem?_map, hs], by simp [List.getElem?_map, hs, plain]⟩

/-- Two maps have no nodes in common. -/
theorem Links.apart {h : AHeap K V} {maps : List HMap} {Ss : List (PTree K V × Int)} (L : Links h maps Ss) {i j : Nat} {s t : PTree K V × Int}
    (hi : Ss[i]? = some s) (hj : Ss[j]? = some t) (hij : i ≠ j) : ∀ x ∈ t.1.addrs, x ∉ s.1.addrs := by
  have hp := (List.nodup_flatMap.mp L.nodup).2
  intro x hx hxs
  obtain ⟨li, gi⟩ := List.getElem?_eq_some_iff.mp hi
  obtain ⟨lj, gj⟩ := List.getElem?_eq_some_iff.mp hj
  rw [List.pairwise_iff_getElem] at hp
  rcases Nat.lt_or_gt_of_ne hij with h | h
  · have := hp i j li lj h
    simp only [Function.onFun, gi, gj] at this
    exact this hxs hx
  · have := hp j i lj li h
    simp only [Function.onFun, gi, gj] at this
    exact this hx hxs

/-- The call may change the map `i`. -/
def Touches (c : Cmd K V) (i : Nat) : Prop := (∃ k v, c = .put i k v) ∨ ∃ k, c = .remove i k

/-- Other maps keep their nodes. -/
def Keeps (c : Cmd K V) (h h' : AHeap K V) (Ss Ss' : List (PTree K V × Int)) : Prop :=
  ∀ i s, Ss[i]? = some s → ¬ Touches c i → Ss'[i]? = some s ∧ ∃ A, Frame h h' A ∧ ∀ x ∈ s.1.addrs, x ∉ A

theorem keeps_refl (c : Cmd K V) (h : AHeap K V) (Ss : List (PTree K V × Int)) : Keeps c h h Ss Ss :=
  fun _ _ hs _ => ⟨hs, [], frame_refl _ _, by simp⟩

/-- One call, whatever the key operations do: the nodes are linked as before, and as in the model without addresses. -/
theorem exec_links (w : World K V) {Ss : List (PTree K V × Int)} (L : Links w.heap w.maps Ss) (c : Cmd K V) :
    ∃ Ss', Links (w.exec ops c).1.heap (w.exec ops c).1.maps Ss' ∧ Ss'.map plain = mapsAfter ops (Ss.map plain) c ∧
      (OnMaps c → (w.exec ops c).2 = mapOut ops (Ss.map plain) c) ∧ Keeps c w.heap (w.exec ops c).1.heap Ss Ss' := by
  cases c with
  | newMap =>
    refine ⟨_, L.new, by simp [mapsAfter, plain, SortedMap.new, PTree.erase], fun _ => rfl, fun i s hs _ => ⟨?_, [], frame_refl _ _, by simp⟩⟩
    rw [List.getElem?_append_left (List.getElem?_eq_some_iff.mp hs).1]
    exact hs
  | get i k =>
    rcases L.look i with ⟨e1, e2, e3⟩ | ⟨P, n, e1, e2, e3⟩
    · exact ⟨Ss, by simpa [World.exec, e2] using L, rfl, fun _ => by simp only [World.exec, e2, mapOut, e3],
        by simpa [World.exec, e2] using keeps_refl _ _ _⟩
    · obtain ⟨o1, o2, o3⟩ := L.one (List.mem_of_getElem? e1)
      have hg := get_heap (ops := ops) k P n w.heap o1 o2
      simp only [World.exec, e2, mapOut, e3, hg]
      rcases (⟨P.erase, n⟩ : SortedMap K V).get ops k with - | r
      · exact ⟨Ss, L, rfl, fun _ => rfl, keeps_refl _ _ _⟩
      · exact ⟨Ss, L, rfl, fun _ => rfl, keeps_refl _ _ _⟩
  | put i k v =>
    rcases L.look i with ⟨e1, e2, e3⟩ | ⟨P, n, e1, e2, e3⟩
    · exact ⟨Ss, by simpa [World.exec, e2] using L, by simp only [mapsAfter, e3], fun _ => by simp only [World.exec, e2, mapOut, e3],
        by simpa [World.exec, e2] using keeps_refl _ _ _⟩
    · obtain ⟨o1, o2, o3⟩ := L.one (List.mem_of_getElem? e1)
      obtain ⟨h', R, r1, r2, r3, r4, r5, r6⟩ := put_heap (ops := ops) k v P n w.heap o1 o2 o3
      have hL := L.update (n' := ((⟨P.erase, n⟩ : SortedMap K V).put ops k v).1.size) e1 r2 r4 (.inl r5) r6
      refine ⟨Ss.set i (R, ((⟨P.erase, n⟩ : SortedMap K V).put ops k v).1.size), ?_, ?_, ?_, ?_⟩
      · rcases hr : ((⟨P.erase, n⟩ : SortedMap K V).put ops k v).2 with - | r <;> rw [hr] at r1 <;>
          simp only [World.exec, e2, r1] <;> exact hL
      · simp only [mapsAfter, e3, List.map_set]
        congr 1
        simp [plain, r3]
      · rcases hr : ((⟨P.erase, n⟩ : SortedMap K V).put ops k v).2 with - | r <;> rw [hr] at r1 <;>
          simp only [World.exec, e2, mapOut, e3, r1, hr, outOf, implies_true]
      · intro i0 s hs hnt
        have hne : i ≠ i0 := by
          rintro rfl
          exact hnt (.inl ⟨k, v, rfl⟩)
        refine ⟨by rw [List.getElem?_set_ne hne]; exact hs, P.addrs, ?_, L.apart e1 hs hne⟩
        rcases hr : ((⟨P.erase, n⟩ : SortedMap K V).put ops k v).2 with - | r <;> rw [hr] at r1 <;>
          simp only [World.exec, e2, r1] <;> exact r6
  | remove i k =>
    rcases L.look i with ⟨e1, e2, e3⟩ | ⟨P, n, e1, e2, e3⟩
    · exact ⟨Ss, by simpa [World.exec, e2] using L, by simp only [mapsAfter, e3], fun _ => by simp only [World.exec, e2, mapOut, e3],
        by simpa [World.exec, e2] using keeps_refl _ _ _⟩
    · obtain ⟨o1, o2, o3⟩ := L.one (List.mem_of_getElem? e1)
      obtain ⟨h', R, r1, r2, r3, r4, r5, r6, -⟩ := remove_heap (ops := ops) k P n w.heap o1 o2 o3
      have hL := L.update (n' := ((⟨P.erase, n⟩ : SortedMap K V).remove ops k).1.size) e1 r2 r4 (.inr r5) r6
      refine ⟨Ss.set i (R, ((⟨P.erase, n⟩ : SortedMap K V).remove ops k).1.size), ?_, ?_, ?_, ?_⟩
      · rcases hr : ((⟨P.erase, n⟩ : SortedMap K V).remove ops k).2 with - | r <;> rw [hr] at r1 <;>
          simp only [World.exec, e2, r1] <;> exact hL
      · simp only [mapsAfter, e3, List.map_set]
        congr 1
        simp [plain, r3]
      · rcases hr : ((⟨P.erase, n⟩ : SortedMap K V).remove ops k).2 with - | r <;> rw [hr] at r1 <;>
          simp only [World.exec, e2, mapOut, e3, r1, hr, outOf, implies_true]
      · intro i0 s hs hnt
        have hne : i ≠ i0 := by
          rintro rfl
          exact hnt (.inr ⟨k, rfl⟩)
        refine ⟨by rw [List.getElem?_set_ne hne]; exact hs, P.addrs, ?_, L.apart e1 hs hne⟩
        rcases hr : ((⟨P.erase, n⟩ : SortedMap K V).remove ops k).2 with - | r <;> rw [hr] at r1 <;>
          simp only [World.exec, e2, r1] <;> exact r6
  | size i =>
    rcases L.look i with ⟨e1, e2, e3⟩ | ⟨P, n, e1, e2, e3⟩
    · exact ⟨Ss, by simpa [World.exec, e2] using L, rfl, fun _ => by simp only [World.exec, e2, mapOut, e3],
        by simpa [World.exec, e2] using keeps_refl _ _ _⟩
    · exact ⟨Ss, by simpa [World.exec, e2] using L, rfl, fun _ => by simp only [World.exec, e2, mapOut, e3, hmap],
        by simpa [World.exec, e2] using keeps_refl _ _ _⟩
  | iter i s e =>
    rcases e2 : w.maps[i]? with - | m
    · simp only [World.exec, e2]
      exact ⟨Ss, L, rfl, fun h => h.elim, keeps_refl _ _ _⟩
    · simp only [World.exec, e2]
      rcases HIter.new ops w.heap m.root s e with - | it
      · exact ⟨Ss, L, rfl, fun h => h.elim, keeps_refl _ _ _⟩
      · exact ⟨Ss, L, rfl, fun h => h.elim, keeps_refl _ _ _⟩
  | call j c =>
    rcases e2 : w.iters[j]? with - | it
    · simp only [World.exec, e2]
      exact ⟨Ss, L, rfl, fun h => h.elim, keeps_refl _ _ _⟩
    · simp only [World.exec, e2]
      rcases HIter.sortedCall ops w.heap it c with ⟨it', r⟩
      cases r <;> exact ⟨Ss, L, rfl, fun h => h.elim, keeps_refl _ _ _⟩

/-! ### As finite maps -/

/-- The finite map of a map, and its size. -/
def asFMap (cmp : K → K → Ordering) (m : SortedMap K V) : FMap K V × Nat := (contents cmp m, m.size.toNat)

theorem put_asFMap (hops : LawfulKeys ops cmp) (ht : TotalKeys ops) (m : SortedMap K V) (hm : GoodMap cmp m) (k : K) (v : V) :
    (m.put ops k v).2 = some (contents cmp m k) ∧ GoodMap cmp (m.put ops k v).1 ∧
      entries (m.put ops k v).1.root = insL cmp k v (entries m.root) ∧
      asFMap cmp (m.put ops k v).1 =
        ((asFMap cmp m).1.put cmp k v, if ((asFMap cmp m).1 k).isSome then (asFMap cmp m).2 else (asFMap cmp m).2 + 1) := by
  have := hops.trans
  rcases putNode_spec hops m hm k v with ⟨⟨e, -, h1⟩, -⟩ | ⟨m', h1, h2, h3⟩
  · exact absurd h1 (ht _ _)
  · have hput : m.put ops k v = (m', some (contents cmp m k)) := by simp [SortedMap.put, h1, contents, lookL]
    rw [hput]
    refine ⟨rfl, h2, h3, ?_⟩
    simp only [asFMap, contents, h3, lookL_insL hm.increasing, Prod.mk.injEq, true_and]
    have hl := length_insL hm.increasing k v
    rw [h2.size, hm.size, h3, hl]
    simp only [lookL, Option.isSome_map]
    cases findL cmp k (entries m.root) <;> simp

theorem remove_asFMap (hops : LawfulKeys ops cmp) (ht : TotalKeys ops) (m : SortedMap K V) (hm : GoodMap cmp m) (k : K) :
    (m.remove ops k).2 = some (contents cmp m k) ∧ GoodMap cmp (m.remove ops k).1 ∧
      entries (m.remove ops k).1.root = remL cmp k (entries m.root) ∧
      asFMap cmp (m.remove ops k).1 =
        ((asFMap cmp m).1.remove cmp k, if ((asFMap cmp m).1 k).isSome then (asFMap cmp m).2 - 1 else (asFMap cmp m).2) := by
  have := hops.trans
  rcases removeNode_spec hops (total_guarded ht) m hm k with ⟨⟨e, -, h1⟩, -⟩ | ⟨m', h1, h2, h3⟩
  · exact absurd h1 (ht _ _)
  · have hput : m.remove ops k = (m', some (contents cmp m k)) := by simp [SortedMap.remove, h1, contents, lookL]
    rw [hput]
    refine ⟨rfl, h2, h3, ?_⟩
    simp only [asFMap, contents, h3, lookL_remL hm.increasing, Prod.mk.injEq, true_and]
    have hl := length_remL hm.increasing k
    rw [h2.size, hm.size, h3, hl]
    simp only [lookL, Option.isSome_map]
    cases findL cmp k (entries m.root) <;> simp

theorem get_asFMap (hops : LawfulKeys ops cmp) (ht : TotalKeys ops) (m : SortedMap K V) (hm : GoodMap cmp m) (k : K) :
    m.get ops k = some (contents cmp m k) := by
  rcases get_step hops m hm k with ⟨⟨e, -, h1⟩, -⟩ | h
  · exact absurd h1 (ht _ _)
  · exact h

theorem set_good {ms : List (SortedMap K V)} (hg : ∀ m ∈ ms, GoodMap cmp m) {i : Nat} {m' : SortedMap K V} (hm : GoodMap cmp m') :
    ∀ m ∈ ms.set i m', GoodMap cmp m := by
  intro m h
  rcases List.mem_or_eq_of_mem_set h with h | rfl
  · exact hg m h
  · exact hm

/-- One call, lawful keys. -/
theorem maps_refine (hops : LawfulKeys ops cmp) (ht : TotalKeys ops) (ms : List (SortedMap K V)) (hg : ∀ m ∈ ms, GoodMap cmp m)
    (c : Cmd K V) :
    (∀ m ∈ mapsAfter ops ms c, GoodMap cmp m) ∧
      (mapsAfter ops ms c).map (asFMap cmp) = (FMaps.exec cmp (ms.map (asFMap cmp)) c).1 ∧
      mapOut ops ms c = (FMaps.exec cmp (ms.map (asFMap cmp)) c).2 := by
  cases c with
  | newMap =>
    refine ⟨?_, by simp [mapsAfter, FMaps.exec, asFMap, SortedMap.new, contents_new]; rfl, rfl⟩
    intro m h
    simp only [mapsAfter, List.mem_append, List.mem_singleton] at h
    rcases h with h | rfl
    · exact hg m h
    · exact new_good
  | get i k =>
    refine ⟨hg, ?_, ?_⟩
    · simp only [mapsAfter, FMaps.exec]
      split <;> rfl
    · rcases e : ms[i]? with - | m
      · simp [mapOut, FMaps.exec, e, List.getElem?_map]
      · have := get_asFMap hops ht m (hg m (List.mem_of_getElem? e)) k
        simp [mapOut, FMaps.exec, e, List.getElem?_map, this, outOf, asFMap]
  | put i k v =>
    rcases e : ms[i]? with - | m
    · simpa [mapsAfter, mapOut, FMaps.exec, e, List.getElem?_map] using hg
    · obtain ⟨h1, h2, -, h3⟩ := put_asFMap hops ht m (hg m (List.mem_of_getElem? e)) k v
      refine ⟨by simpa only [mapsAfter, e] using set_good hg h2, ?_, ?_⟩
      · simp only [mapsAfter, e, FMaps.exec, List.getElem?_map, Option.map_some, List.map_set, h3]
      · simp [mapOut, FMaps.exec, e, List.getElem?_map, h1, outOf, asFMap]
  | remove i k =>
    rcases e : ms[i]? with - | m
    · simpa [mapsAfter, mapOut, FMaps.exec, e, List.getElem?_map] using hg
    · obtain ⟨h1, h2, -, h3⟩ := remove_asFMap hops ht m (hg m (List.mem_of_getElem? e)) k
      refine ⟨by simpa only [mapsAfter, e] using set_good hg h2, ?_, ?_⟩
      · simp only [mapsAfter, e, FMaps.exec, List.getElem?_map, Option.map_some, List.map_set, h3]
      · simp [mapOut, FMaps.exec, e, List.getElem?_map, h1, outOf, asFMap]
  | size i =>
    refine ⟨hg, ?_, ?_⟩
    · simp only [mapsAfter, FMaps.exec]
      split <;> rfl
    · rcases e : ms[i]? with - | m
      · simp [mapOut, FMaps.exec, e, List.getElem?_map]
      · have := (hg m (List.mem_of_getElem? e)).size
        simp only [mapOut, FMaps.exec, e, List.getElem?_map, asFMap, Option.map_some, this]
        simp
  | iter i s e => exact ⟨hg, rfl, rfl⟩
  | call j c => exact ⟨hg, rfl, rfl⟩

end Poodle
