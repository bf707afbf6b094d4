import Verif.Props.NilKeys
import Verif.Props.PrefixKeys

/-
Property C25: which calls panic if the nil slice may be among the keys (/repo/src/collection/comparable.go, /repo/src/collection/sorted_map.go).
-/

namespace Poodle.Props
open Poodle Poodle.Spec

variable {V : Type}

theorem slice_panicsNext (k : Slice) : PanicsNext (selfZero byteSliceOps) compare k := by
  intro e a hp hlt hn
  obtain ⟨x, y, rfl, rfl, h1, h2⟩ := (sliceZero_compare e k).1.mp hp
  rcases a with - | a
  · simp [compare] at hlt
  have h3 : ¬ (y <+: a ∧ y ≠ a) := fun h => hn ((sliceZero_compare _ _).1.mpr ⟨a, y, rfl, rfl, h.1, h.2⟩)
  exact bytes_panicsNext y x a (by rw [bytesOps_compare, if_pos ⟨h1, h2⟩]) hlt (by rw [bytesOps_compare, if_neg h3]; simp)

/-- C25 with the nil slice among the keys, exactly for keys that are not in the map: as long as the smallest other key was not removed while
nil was in the map, a lookup, a store and a removal panic exactly if a longer key in the map begins with the key. -/
theorem C25_nil_absent_partial (os : List (MapOp Slice V)) (h : NilSafe SortedMap.new os) :
    let m := (runMap byteSliceOps SortedMap.new os).1
    ∃ f : FMap Slice V, FMap.Runs compare FMap.empty os (runMap byteSliceOps SortedMap.new os).2 f ∧ ∀ k, f k = none →
      (m.get byteSliceOps k = none ↔ ∃ e, (f e).isSome ∧ StrictPrefix k e) ∧
      (∀ v, (m.put byteSliceOps k v).2 = none ↔ ∃ e, (f e).isSome ∧ StrictPrefix k e) ∧
      ((m.remove byteSliceOps k).2 = none ↔ ∃ e, (f e).isSome ∧ StrictPrefix k e) := by
  intro m
  have := sliceZero_lawful.1.trans
  have e := runMap_nilSafe os SortedMap.new new_good h
  obtain ⟨hm, hr⟩ := runMap_runs sliceZero_lawful.1 sliceZero_lawful.2 os (SortedMap.new : SortedMap Slice V) new_good
  rw [← e] at hm hr
  rw [contents_new] at hr
  have hin : ∀ e, (contents compare m e).isSome ↔ ∃ x ∈ entries m.root, x.1 = e := by
    intro e
    unfold contents lookL
    rw [Option.isSome_map, findL_isSome_iff]
    simp only [Std.LawfulEqCmp.compare_eq_iff_eq]
  have key : ∀ k, (∃ e ∈ entries m.root, (selfZero byteSliceOps).compare e.1 k = none) ↔ ∃ e, (contents compare m e).isSome ∧ StrictPrefix k e := by
    intro k
    constructor
    · rintro ⟨e, he, h⟩
      exact ⟨e.1, (hin _).mpr ⟨e, he, rfl⟩, (sliceZero_compare e.1 k).1.mp h⟩
    · rintro ⟨e, he, h⟩
      obtain ⟨x, hx, rfl⟩ := (hin e).mp he
      exact ⟨x, hx, (sliceZero_compare x.1 k).1.mpr h⟩
  refine ⟨_, hr, fun k hk => ?_⟩
  have hk : contents compare m k = none := hk
  have habs : ∀ e ∈ entries m.root, compare e.1 k ≠ .eq := by
    intro y hy hc
    have : (contents compare m k).isSome := (hin k).mpr ⟨y, hy, Std.LawfulEqCmp.compare_eq_iff_eq.mp hc⟩
    rw [hk] at this; simp at this
  obtain ⟨w1, w2⟩ := same_way sliceZero_lawful.1 sliceZero_lawful.2 k m.root hm.balanced hm.increasing
  have hg : m.get byteSliceOps k = none ↔ ∃ e, (contents compare m e).isSome ∧ StrictPrefix k e := by
    rw [← get_selfZero]
    constructor
    · intro h0
      rcases get_step sliceZero_lawful.1 _ hm k with ⟨h1, -⟩ | h1
      · exact (key k).mp h1
      · rw [h0] at h1; simp at h1
    · intro h0
      obtain ⟨x, hx, hp⟩ := (key k).mpr h0
      have := (absent_panics sliceZero_lawful.1 sliceZero_lawful.2 (slice_panicsNext k) m.root hm.increasing habs x hx hp).1
      simp [SortedMap.get, SortedMap.getNode, this]
  have hp : ∀ v, (m.put byteSliceOps k v).2 = none ↔ m.get byteSliceOps k = none := by
    intro v
    rw [← put_selfZero, ← get_selfZero]
    have hget : m.get (selfZero byteSliceOps) k = none ↔ m.root.getR (selfZero byteSliceOps) k = none := by simp [SortedMap.get, SortedMap.getNode]
    rw [hget, ← w1 v]
    unfold SortedMap.put SortedMap.putNode
    rcases hroot : m.root with - | ⟨k0, v0, b, l, r⟩
    · simp [Tree.putR]
    · simp only
      rcases Tree.putR (selfZero byteSliceOps) k v (.node k0 v0 b l r) with ⟨t, - | x⟩ <;> simp
  have hrm : (m.remove byteSliceOps k).2 = none ↔ m.get byteSliceOps k = none := by
    rw [← remove_selfZero m hm k (by
      rintro ⟨-, -, h3, -⟩
      obtain ⟨y, hy, hye⟩ := List.mem_map.mp h3
      exact habs y hy (by rw [hye]; exact Std.LawfulEqCmp.compare_eq_iff_eq.mpr rfl)), ← get_selfZero]
    have hget : m.get (selfZero byteSliceOps) k = none ↔ m.root.getR (selfZero byteSliceOps) k = none := by simp [SortedMap.get, SortedMap.getNode]
    rw [hget, ← w2]
    unfold SortedMap.remove SortedMap.removeNode
    rcases m.root.removeR (selfZero byteSliceOps) k with ⟨t, - | x⟩ <;> simp
  exact ⟨hg, fun v => (hp v).trans hg, hrm.trans hg⟩

example := C25_nil_absent_partial nilHistory nilHistory_safe

/-- With nil, "ab" and "b" in the map, a lookup of "a" panics and one of "c" does not. -/
example : let m := (runMap byteSliceOps SortedMap.new [.put none 1, .put (some [97, 98]) 2, .put (some [98]) (3 : Nat)]).1
    m.get byteSliceOps (some [97]) = none ∧ m.get byteSliceOps (some [99]) = some none ∧ m.get byteSliceOps none = some (some 1) := by decide +kernel

end Poodle.Props
