import Verif.Props.Conv
import Verif.Props.KeyMaps

/-
Property C209: the order of encoded numbers and times (/repo/src/collection/util.go:460-491, :783-841).
-/

namespace Poodle.Props
open Poodle Poodle.Spec

variable {V : Type}

/-! ### C209 Encoded numbers sort like the numbers -/

/-- Byte strings of one length are ordered like their values. -/
theorem compare_beVal : ∀ a b : Bytes, a.length = b.length → compare a b = compare (beVal a) (beVal b)
  | [], [], _ => rfl
  | x :: a, y :: b, h => by
    have hl : a.length = b.length := by simpa using h
    have ih := compare_beVal a b hl
    have ha := beVal_lt a
    have hb := beVal_lt b
    rw [hl] at ha
    rw [List.compare_cons_cons, ih, beVal_cons, beVal_cons, hl]
    generalize 256 ^ b.length = p at *
    have hxy : compare x y = compare x.toNat y.toNat := by
      simp only [compare, compareOfLessAndEq, UInt8.lt_iff_toNat_lt, ← UInt8.toNat_inj]
    rw [hxy]
    rcases Nat.lt_trichotomy x.toNat y.toNat with hc | hc | hc
    · rw [Nat.compare_eq_lt.mpr hc, Ordering.lt_then, eq_comm, Nat.compare_eq_lt]
      have := Nat.mul_le_mul_right p hc
      rw [Nat.succ_mul] at this
      omega
    · rw [Nat.compare_eq_eq.mpr hc, Ordering.eq_then, hc]
      rcases Nat.lt_trichotomy (beVal a) (beVal b) with h' | h' | h'
      · rw [Nat.compare_eq_lt.mpr h', eq_comm, Nat.compare_eq_lt]; omega
      · rw [h']; simp
      · rw [Nat.compare_eq_gt.mpr h', eq_comm, Nat.compare_eq_gt]; omega
    · rw [Nat.compare_eq_gt.mpr hc, Ordering.gt_then, eq_comm, Nat.compare_eq_gt]
      have := Nat.mul_le_mul_right p hc
      rw [Nat.succ_mul] at this
      omega

theorem compareByteSlice_same_length (a b : Bytes) (h : a.length = b.length) :
    compareByteSlice (some a) (some b) = .ok (ordInt (compare (beVal a) (beVal b))) := by
  rw [C17_compare_lexicographic_partial, ← compare_beVal a b h]
  · rfl
  · rintro ⟨x, y, hx, hy, hp, hn⟩
    cases hx; cases hy
    exact hn (hp.eq_of_length h.symm)

/-- C209, unsigned: encoded 32-bit and 256-bit unsigned integers compare like the integers. -/
theorem C209_unsigned : (∀ x y : Nat, x < 2 ^ 32 → y < 2 ^ 32 →
      compareByteSlice (some (uint32ToByteArray x)) (some (uint32ToByteArray y)) = .ok (ordInt (compare x y))) ∧
    ∀ x y : Nat, x < 2 ^ 256 → y < 2 ^ 256 →
      compareByteSlice (some (bigIntToByteArray x)) (some (bigIntToByteArray y)) = .ok (ordInt (compare x y)) := by
  refine ⟨fun x y hx hy => ?_, fun x y hx hy => ?_⟩
  · obtain ⟨h1, h2, -⟩ := C66_uint32 x hx
    obtain ⟨h3, h4, -⟩ := C66_uint32 y hy
    rw [compareByteSlice_same_length _ _ (by rw [h1, h3]), beVal_eq_bigEndian, beVal_eq_bigEndian, h2, h4]
  · rw [compareByteSlice_same_length _ _ (by rw [bigIntToByteArray_length, bigIntToByteArray_length]), beVal_eq_bigEndian, beVal_eq_bigEndian,
      (C67_length_and_value x).2, (C67_length_and_value y).2, Int.natAbs_natCast, Int.natAbs_natCast, Nat.mod_eq_of_lt hx, Nat.mod_eq_of_lt hy]

example : compareByteSlice (some (uint32ToByteArray 255)) (some (uint32ToByteArray 256)) = .ok (-1) :=
  C209_unsigned.1 255 256 (by decide) (by decide)

/-- The place of a signed integer in the order of its encodings: negative integers come after the others. -/
def wrapped (w : Nat) (x : Int) : Int := if x < 0 then x + 2 ^ w else x

theorem toUnsigned_wrapped64 {x : Int} (h1 : -2 ^ 63 ≤ x) (h2 : x < 2 ^ 63) : (toUnsigned 64 x : Int) = wrapped 64 x := by
  simp only [toUnsigned, wrapped]; omega

theorem toUnsigned_wrapped32 {x : Int} (h1 : -2 ^ 31 ≤ x) (h2 : x < 2 ^ 31) : (toUnsigned 32 x : Int) = wrapped 32 x := by
  simp only [toUnsigned, wrapped]; omega

/-- The claim C209 for signed integers and times (false of the code). -/
def EncodedNumbersSort : Prop :=
  (∀ x y : Int, -2 ^ 63 ≤ x → x < 2 ^ 63 → -2 ^ 63 ≤ y → y < 2 ^ 63 →
    compareByteSlice (some (int64ToByteArray x)) (some (int64ToByteArray y)) = .ok (ordInt (compare x y)) ∧
    compareByteSlice (some (timeToBytes x)) (some (timeToBytes y)) = .ok (ordInt (compare x y))) ∧
  ∀ x y : Int, -2 ^ 31 ≤ x → x < 2 ^ 31 → -2 ^ 31 ≤ y → y < 2 ^ 31 →
    compareByteSlice (some (int32ToByteArray x)) (some (int32ToByteArray y)) = .ok (ordInt (compare x y))

/-- C209 is false: the encoding of -1 is greater than that of 0, and that of the last nanosecond of 1969 greater than that of 1970. -/
theorem C209_refuted : ¬ EncodedNumbersSort := by
  intro h
  have := (h.1 (-1) 0 (by decide) (by decide) (by decide) (by decide)).2
  revert this
  decide +kernel

/-- C209, exact for signed integers: integers of one sign compare like the integers, and a negative integer is greater than any other. -/
theorem C209_signed_partial : (∀ x y : Int, -2 ^ 63 ≤ x → x < 2 ^ 63 → -2 ^ 63 ≤ y → y < 2 ^ 63 →
    compareByteSlice (some (int64ToByteArray x)) (some (int64ToByteArray y)) =
      .ok (if (x < 0 ↔ y < 0) then ordInt (compare x y) else if x < 0 then 1 else -1)) ∧
  ∀ x y : Int, -2 ^ 31 ≤ x → x < 2 ^ 31 → -2 ^ 31 ≤ y → y < 2 ^ 31 →
    compareByteSlice (some (int32ToByteArray x)) (some (int32ToByteArray y)) =
      .ok (if (x < 0 ↔ y < 0) then ordInt (compare x y) else if x < 0 then 1 else -1) := by
  have key : ∀ (w : Nat) (x y : Int) (a b : Nat), (a : Int) = wrapped w x → (b : Int) = wrapped w y → -2 ^ w ≤ 2 * x → 2 * x < 2 ^ w →
      -2 ^ w ≤ 2 * y → 2 * y < 2 ^ w →
      ordInt (compare a b) = (if (x < 0 ↔ y < 0) then ordInt (compare x y) else if x < 0 then 1 else -1) := by
    intro w x y a b ha hb h1 h2 h3 h4
    have hc : compare a b = compare (a : Int) (b : Int) := by
      rcases Nat.lt_trichotomy a b with h | h | h
      · rw [Nat.compare_eq_lt.mpr h, eq_comm, Int.compare_eq_lt]; omega
      · rw [h]; simp
      · rw [Nat.compare_eq_gt.mpr h, eq_comm, Int.compare_eq_gt]; omega
    rw [hc, ha, hb]
    unfold wrapped
    generalize (2 : Int) ^ w = p at *
    by_cases hx : x < 0 <;> by_cases hy : y < 0 <;> simp only [hx, hy, if_true, if_false, iff_true, iff_false, not_true]
    · congr 1
      rcases lt_trichotomy x y with h | h | h
      · rw [Int.compare_eq_lt.mpr h, Int.compare_eq_lt]; omega
      · rw [h]; simp
      · rw [Int.compare_eq_gt.mpr h, Int.compare_eq_gt]; omega
    · rw [Int.compare_eq_gt.mpr (by omega)]; rfl
    · rw [Int.compare_eq_lt.mpr (by omega)]; rfl
  refine ⟨fun x y h1 h2 h3 h4 => ?_, fun x y h1 h2 h3 h4 => ?_⟩
  · rw [compareByteSlice_same_length _ _ (by simp [int64ToByteArray, beBytes_length]), int64ToByteArray, int64ToByteArray, beVal_beBytes,
      beVal_beBytes, show (256 ^ 8 : Nat) = 2 ^ 64 from rfl, Nat.mod_eq_of_lt (toUnsigned_spec64 h1 h2).1, Nat.mod_eq_of_lt (toUnsigned_spec64 h3 h4).1,
      key 64 x y _ _ (toUnsigned_wrapped64 h1 h2) (toUnsigned_wrapped64 h3 h4) (by omega) (by omega) (by omega) (by omega)]
  · rw [compareByteSlice_same_length _ _ (by simp [int32ToByteArray, beBytes_length]), int32ToByteArray, int32ToByteArray, beVal_beBytes,
      beVal_beBytes, show (256 ^ 4 : Nat) = 2 ^ 32 from rfl, Nat.mod_eq_of_lt (toUnsigned_spec32 h1 h2).1, Nat.mod_eq_of_lt (toUnsigned_spec32 h3 h4).1,
      key 32 x y _ _ (toUnsigned_wrapped32 h1 h2) (toUnsigned_wrapped32 h3 h4) (by omega) (by omega) (by omega) (by omega)]

example : compareByteSlice (some (int64ToByteArray (-7))) (some (int64ToByteArray (-300))) = .ok 1 :=
  C209_signed_partial.1 (-7) (-300) (by decide) (by decide) (by decide) (by decide)

example : compareByteSlice (some (int32ToByteArray 7)) (some (int32ToByteArray (-300))) = .ok (-1) :=
  C209_signed_partial.2 7 (-300) (by decide) (by decide) (by decide) (by decide)

/-- An instant from 1970 on that fits the encoding. -/
def Recent (t : Int) : Prop := 0 ≤ t ∧ t < 2 ^ 63

/-- C209 for times from 1970 on, up to the year 2262. -/
theorem C209_times_partial (t u : Int) (ht : Recent t) (hu : Recent u) :
    compareByteSlice (some (timeToBytes t)) (some (timeToBytes u)) = .ok (ordInt (compare t u)) := by
  have := C209_signed_partial.1 t u (by have := ht.1; omega) ht.2 (by have := hu.1; omega) hu.2
  rw [if_pos (by have := ht.1; have := hu.1; omega)] at this
  exact this

theorem timeToBytes_inj {t u : Int} (ht : Recent t) (hu : Recent u) (h : timeToBytes t = timeToBytes u) : t = u := by
  have h1 := C209_times_partial t u ht hu
  rw [h, C209_times_partial u u hu hu] at h1
  rcases lt_trichotomy t u with hc | hc | hc
  · rw [Int.compare_eq_lt.mpr hc] at h1; simp [ordInt] at h1
  · exact hc
  · rw [Int.compare_eq_gt.mpr hc] at h1; simp [ordInt] at h1

/-- A call on a map with times as keys, as a call with their encodings. -/
def onTime : MapOp Int V → MapOp Bytes V
  | .put t v => .put (timeToBytes t) v
  | .remove t => .remove (timeToBytes t)

theorem run_times (os : List (MapOp Int V)) (hos : ∀ o ∈ os, Recent (opKey o)) (f : FMap Int V) (g : FMap Bytes V)
    (h : ∀ t, Recent t → g (timeToBytes t) = f t) :
    (FMap.run compare g (os.map onTime)).2 = (FMap.run compare f os).2 ∧
      ∀ t, Recent t → (FMap.run compare g (os.map onTime)).1 (timeToBytes t) = (FMap.run compare f os).1 t := by
  induction os generalizing f g with
  | nil => exact ⟨rfl, h⟩
  | cons o os ih =>
    have ho := hos o (by simp)
    have hos' := fun o' ho' => hos o' (List.mem_cons_of_mem _ ho')
    have hk : ∀ t k, Recent t → Recent k → (compare (timeToBytes t) (timeToBytes k) = .eq ↔ compare t k = .eq) := by
      intro t k ht hk
      rw [Std.LawfulEqCmp.compare_eq_iff_eq, Std.LawfulEqCmp.compare_eq_iff_eq]
      exact ⟨timeToBytes_inj ht hk, fun h => by rw [h]⟩
    cases o with
    | put k v =>
      obtain ⟨h1, h2⟩ := ih hos' (f.put compare k v) (g.put compare (timeToBytes k) v) (fun t ht => by
        simp only [FMap.put, hk t k ht ho, h t ht])
      simp only [List.map_cons, onTime, FMap.run]
      exact ⟨by rw [h1, h k ho], h2⟩
    | remove k =>
      obtain ⟨h1, h2⟩ := ih hos' (f.remove compare k) (g.remove compare (timeToBytes k)) (fun t ht => by
        simp only [FMap.remove, hk t k ht ho, h t ht])
      simp only [List.map_cons, onTime, FMap.run]
      exact ⟨by rw [h1, h k ho], h2⟩

/-- A total comparison with the order of bytes. -/
def totalBytesOps : KeyOps Bytes := ⟨fun a b => compare a b == .eq, fun a b => some (ordInt (compare a b))⟩

theorem totalBytesOps_lawful : LawfulKeys totalBytesOps compare ∧ TotalKeys totalBytesOps := by
  have := bytesOps_lawful.1.trans
  refine ⟨⟨this, fun a b => by simp [totalBytesOps], fun a b c h => ?_⟩, fun a b => by simp [totalBytesOps]⟩
  simp only [totalBytesOps, Option.some.injEq] at h
  subst h
  exact ordInt_sign _

/-- C209, maps: a sorted map whose keys are encoded times from 1970 on is a map from times, and its iterator goes forward in time. -/
theorem C209_map_partial (os : List (MapOp Int V)) (hos : ∀ o ∈ os, Recent (opKey o)) :
    let m := (runMap bytesOps SortedMap.new (os.map onTime)).1
    let f := (FMap.run compare FMap.empty os).1
    (runMap bytesOps SortedMap.new (os.map onTime)).2 = (FMap.run compare FMap.empty os).2.map some ∧
      (∀ t, Recent t → m.get bytesOps (timeToBytes t) = some (f t)) ∧
      ∃ (it : AvlIter Bytes V) (l : List (Int × V)), m.iterator bytesOps = some it ∧
        l.Pairwise (fun a b => a.1 < b.1) ∧ (∀ t v, (t, v) ∈ l ↔ Recent t ∧ f t = some v) ∧
        ∀ cs, runIter bytesOps it cs = runCalls (listCall .crash) (l.map fun e => (timeToBytes e.1, e.2)) cs := by
  intro m f
  have hlen : ∀ t, (timeToBytes t).length = 8 := fun t => beBytes_length _ _
  have htr := bytesOps_lawful.1.trans
  let P : Bytes → Prop := fun b => ∃ t, Recent t ∧ b = timeToBytes t
  have hP : ∀ a b, P a → P b → bytesOps.compare a b ≠ none := by
    rintro _ _ ⟨t, -, rfl⟩ ⟨u, -, rfl⟩
    rw [bytesOps_compare, if_neg (fun h => h.2 (h.1.eq_of_length (by rw [hlen, hlen])))]
    simp
  have hos' : ∀ o ∈ os.map onTime, P (opKey o) := by
    intro o ho
    obtain ⟨o, hm, rfl⟩ := List.mem_map.mp ho
    have := hos o hm
    cases o <;> exact ⟨_, this, rfl⟩
  obtain ⟨h1, h2, h3, h4⟩ := runs_keys (cmp := compare) bytesOps_lawful.1 P _ hos' hP (SortedMap.new : SortedMap Bytes V) new_good
    (by simp [SortedMap.new, entries])
  rw [contents_new] at h1 h2
  obtain ⟨r1, r2⟩ := run_times os hos FMap.empty FMap.empty (fun _ _ => rfl)
  rw [r1] at h1
  have hf : ∀ t, Recent t → contents compare m (timeToBytes t) = f t := fun t ht => by
    rw [show contents compare m = _ from h2]; exact r2 t ht
  refine ⟨h1, fun t ht => ?_, ?_⟩
  · rcases get_step bytesOps_lawful.1 _ h3 (timeToBytes t) with ⟨⟨e, he, h⟩, -⟩ | h
    · exact absurd h (hP _ _ (h4 e he) ⟨t, ht, rfl⟩)
    · rw [h]; exact congrArg some (hf t ht)
  · -- the times of the entries
    have hl : ∃ l : List (Int × V), entries m.root = (l.map fun e => (timeToBytes e.1, e.2)) ∧ ∀ e ∈ l, Recent e.1 := by
      have h4' : ∀ e ∈ entries m.root, P e.1 := h4
      generalize entries m.root = es at h4'
      induction es with
      | nil => exact ⟨[], rfl, by simp⟩
      | cons e es ih =>
        obtain ⟨l, hl, hr⟩ := ih (fun e' he' => h4' e' (List.mem_cons_of_mem _ he'))
        obtain ⟨t, ht, het⟩ := h4' e (by simp)
        refine ⟨(t, e.2) :: l, by rw [List.map_cons, ← hl, ← het], ?_⟩
        intro e' he'
        rcases List.mem_cons.mp he' with rfl | he'
        · exact ht
        · exact hr e' he'
    obtain ⟨l, hl, hr⟩ := hl
    obtain ⟨hi, hv⟩ := lists_entries m h3
    obtain ⟨it, hit⟩ := (rangeIterator_ok (ops := bytesOps) m none none).mpr (by simp)
    obtain ⟨hw, ho⟩ := new_spec (ops := bytesOps) (cmp := compare) _ none none h3.increasing it hit
    have hn : it.start = none ∧ it.stop = none := by
      simp only [SortedMap.rangeIterator, AvlIter.new, Option.some.injEq] at hit
      subst hit
      exact ⟨rfl, rfl⟩
    have hlt : ∀ t u, Recent t → Recent u → (compare (timeToBytes t) (timeToBytes u) = .lt → t < u) := by
      intro t u ht hu h
      have := C209_times_partial t u ht hu
      rw [C17_compare_lexicographic_partial] at this
      · rw [show compare (some (timeToBytes t)) (some (timeToBytes u)) = compare (timeToBytes t) (timeToBytes u) from rfl, h] at this
        rcases lt_trichotomy t u with hc | hc | hc
        · exact hc
        · rw [Int.compare_eq_eq.mpr hc] at this; simp [ordInt] at this
        · rw [Int.compare_eq_gt.mpr hc] at this; simp [ordInt] at this
      · rintro ⟨x, y, hx, hy, hp, hne⟩
        cases hx; cases hy
        exact hne (hp.eq_of_length (by rw [hlen, hlen]))
    refine ⟨it, l, hit, ?_, fun t v => ?_, fun cs => ?_⟩
    · rw [hl] at hi
      rw [Increasing, List.pairwise_map] at hi
      exact List.Pairwise.imp_of_mem (fun ha hb h => hlt _ _ (hr _ ha) (hr _ hb) h) hi
    · constructor
      · intro h
        refine ⟨hr _ h, ?_⟩
        rw [← hf t (hr _ h)]
        refine (hv _ _).mpr ⟨timeToBytes t, ?_, Std.ReflCmp.compare_self⟩
        rw [hl]
        exact List.mem_map.mpr ⟨_, h, rfl⟩
      · rintro ⟨ht, h⟩
        rw [← hf t ht] at h
        obtain ⟨k', hk', hc⟩ := (hv _ _).mp h
        rw [hl] at hk'
        obtain ⟨e, he, hek⟩ := List.mem_map.mp hk'
        rw [Std.LawfulEqCmp.compare_eq_iff_eq] at hc
        cases hek
        have := timeToBytes_inj ht (hr e he) hc
        rw [this]
        exact he
    · rw [runIter_unbounded bytesOps totalBytesOps cs it hn.1 hn.2]
      have := runCalls_sortedCall totalBytesOps_lawful.1 totalBytesOps_lawful.2 cs it hw
      rw [ho] at this
      rw [← hl]
      exact this

example := C209_map_partial [.put 1700000000000000000 "b", .put 5 "a", .remove 7] (by simp [opKey, Recent])

/-- The iterator over a map with a time before 1970 does not go forward in time. -/
example : let m := (runMap bytesOps SortedMap.new ([.put 5 (), .put (-5) (), .put 7 ()].map onTime)).1
    (m.iterator bytesOps).map (fun it => runIter bytesOps it [.next, .next, .next]) =
      some [.yield (timeToBytes 5, ()), .yield (timeToBytes 7, ()), .yield (timeToBytes (-5), ())] := by decide +kernel

example := C209_times_partial 5 1700000000000000000 (by simp [Recent]) (by simp [Recent])

end Poodle.Props
