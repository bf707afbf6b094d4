import Verif.Lemmas.ValueEnc
import Verif.Spec.ValueArray

namespace Poodle.Props
open Poodle Spec

/-! ### C42: primitive values -/

/-- C42: a byte string shorter than 65536 is read back, and exactly its encoding is consumed. -/
theorem C42_roundtrip (d rest : Bytes) (hd : d.length < 65536) :
    ∃ w v, (CVal.prim (some d)).encode = .ok w ∧ decodeStd (w ++ rest) = .ok (v, w.length) ∧ v.kind = .prim ∧ v.value = some d ∧
      v.buf = w := by
  obtain ⟨w, hw⟩ := (encodePrimitive_iff (some d)).1 (by simpa [Slice.bytes] using hd)
  rcases encodePrimitive_wire hw with ⟨h, -⟩ | ⟨d', h1, h2, -⟩
  · exact absurd h (by simp)
  · cases h1
    exact ⟨w, _, hw, decodeStd_of_wire h2, rfl, by simp [StdValue.value], rfl⟩

example : (List.replicate 300 (7 : UInt8)).length < 65536 := by decide +kernel

/-- C42: longer data is refused. -/
theorem C42_too_long (d : Bytes) (hd : 65536 ≤ d.length) : (CVal.prim (some d)).encode = .err :=
  (encodePrimitive_iff (some d)).2 (by simpa [Slice.bytes] using hd)

example : 65536 ≤ (List.replicate 65536 (7 : UInt8)).length := by rw [List.length_replicate]

/-- C42: a nil slice is not a byte string to the encoder: it writes nothing, and nothing can be read back. -/
theorem C42_nil : (CVal.prim none).encode = .ok [] ∧ decodeStd [] = .err := by decide +kernel

/-! ### C44: decoding is total and exact -/

/-- C44: decoding never panics. -/
theorem C44_no_panic (buf : Bytes) : decodeStd buf ≠ .panic := decodeStd_ne_panic buf

/-- C44: the consumed bytes are the first ones, at least one, and they are `Buf()`. -/
theorem C44_consumed (buf : Bytes) (d : StdValue) (n : Nat) (h : decodeStd buf = .ok (d, n)) :
    1 ≤ n ∧ n ≤ buf.length ∧ d.buf = buf.take n := by
  obtain ⟨rest, rfl, rfl, hw⟩ := (decodeStd_ok_iff _ _ _).mp h
  have := List.length_pos_iff.mpr hw.ne_nil
  exact ⟨this, by simp, by simp⟩

example := C44_consumed [0x41, 2, 4, 0x01, 1, 0x61, 0x00, 0xff]
  { buf := [0x41, 2, 4, 0x01, 1, 0x61, 0x00], kind := .array, size := 2, content := [0x01, 1, 0x61, 0x00] } 7 (by decide +kernel)

/-- C44: what follows does not matter. -/
theorem C44_independent (buf : Bytes) (d : StdValue) (n : Nat) (h : decodeStd buf = .ok (d, n)) (rest : Bytes) :
    decodeStd (buf.take n ++ rest) = .ok (d, n) := by
  obtain ⟨rest', rfl, rfl, hw⟩ := (decodeStd_ok_iff _ _ _).mp h
  rw [List.take_left]
  exact decodeStd_of_wire hw

example := C44_independent [0x41, 2, 4, 0x01, 1, 0x61, 0x00, 0xff]
  { buf := [0x41, 2, 4, 0x01, 1, 0x61, 0x00], kind := .array, size := 2, content := [0x01, 1, 0x61, 0x00] } 7 (by decide +kernel) [8, 9]

/-- C44: decoding succeeds exactly on the buffers that begin with a value in the wire format. -/
theorem C44_accepts_iff (buf : Bytes) (d : StdValue) (n : Nat) : decodeStd buf = .ok (d, n) ↔
    IsStdWire (buf.take n) d.kind d.size d.content ∧ d.buf = buf.take n ∧ n ≤ buf.length := by
  constructor
  · intro h
    obtain ⟨-, h2, h3⟩ := C44_consumed buf d n h
    obtain ⟨rest', -, -, hw⟩ := (decodeStd_ok_iff _ _ _).mp h
    exact ⟨h3 ▸ hw, h3, h2⟩
  · rintro ⟨h1, h2, h3⟩
    exact (decodeStd_ok_iff _ _ _).mpr ⟨buf.drop n, by rw [h2, List.take_append_drop], by rw [h2]; simp [h3], by rw [h2]; exact h1⟩

example : decodeStd [0x41, 2, 4, 0x01, 1, 0x61, 0x00, 0xff] =
    .ok ({ buf := [0x41, 2, 4, 0x01, 1, 0x61, 0x00], kind := .array, size := 2, content := [0x01, 1, 0x61, 0x00] }, 7) := by
  decide +kernel

/-! ### C46: size limits -/

/-- C46: encoding succeeds exactly when everything fits; otherwise it is an error. -/
theorem C46_limit_iff (v : CVal) (hv : isPlain v = true) :
    ((∃ w, v.encode = .ok w) ↔ fits16 v = true) ∧ (fits16 v = false → v.encode = .err) := by
  obtain ⟨h1, h2⟩ := encode_fits v hv
  refine ⟨⟨?_, h1⟩, h2⟩
  rintro ⟨w, hw⟩
  by_contra hf
  rw [h2 (by simpa using hf)] at hw
  exact absurd hw (by simp)

example := C46_limit_iff (.array [.prim (some [1, 2]), .array [.prim (some [])]]) rfl

/-- C46: the number of bytes. -/
theorem C46_size (v : CVal) (hv : isPlain v = true) (w : Bytes) (h : v.encode = .ok w) : w.length = wireSize v :=
  encode_length v w hv h

example := C46_size (.array [.prim (some [7]), .prim (some [])]) rfl [0x41, 2, 4, 1, 1, 7, 0] (by decide +kernel)

/-- C46: what is written is a well-formed value, whose header agrees with its payload (a nil primitive writes nothing). -/
theorem C46_wellFormed (v : CVal) (w : Bytes) (h : v.encode = .ok w) (hne : v ≠ .prim none) :
    ∃ kind content, IsStdWire w kind v.size content := by
  rcases encode_wire h with ⟨h1, -⟩ | ⟨d, rfl, hd⟩
  · exact absurd h1 hne
  · refine ⟨d.kind, d.content, ?_⟩
    have hlt := hd.1.size_lt
    have : v.size = d.size := by
      cases v with
      | prim s => exact hd.2.2.1.symm
      | array es => rw [hd.2.1] at hlt ⊢; exact Nat.mod_eq_of_lt hlt
      | records rs => rw [hd.2.1] at hlt ⊢; exact Nat.mod_eq_of_lt hlt
      | simple _ _ => exact hd.2.elim
      | std _ => exact hd.2.elim
    rw [this]
    exact hd.1

example : isPlain (.array [.prim (some [1, 2]), .array [.prim (some [])]]) = true ∧
    fits16 (.array [.prim (some [1, 2]), .array [.prim (some [])]]) = true ∧
    wireSize (.array [.prim (some [1, 2]), .array [.prim (some [])]]) = 11 := by decide +kernel

/-! ### C43: nested value arrays -/

/-- The full claim of C43. -/
def NestedRoundTrip : Prop := ∀ (v : CVal) (w : Bytes), isPlain v = true → v.encode = .ok w → RoundTrips v w

/-- C43: a value round trips exactly when it contains no primitive holding a nil slice. -/
theorem C43_roundtrip_iff_partial (v : CVal) (w : Bytes) (h : v.encode = .ok w) :
    RoundTrips v w ↔ noNil v = true := by
  constructor
  · exact noNil_of_roundTrips h
  · intro hn rest
    rcases encode_wire h with ⟨rfl, rfl⟩ | ⟨d, rfl, hd⟩
    · simp [noNil] at hn
    · have hdec := decodeStd_of_wire (rest := rest) hd.1
      obtain ⟨ext, p', e1, e2, e3⟩ := allocStd_spec.onOk [] _ _ _ coherent_nil hdec
      refine ⟨_, p', e1, ?_⟩
      intro l p
      obtain ⟨c1, c2⟩ := history_coherent e2 l
      exact walk_noNil p hn hd c1 (e3.mono c2)

example := C43_roundtrip_iff_partial (.array [.prim (some [7]), .prim (some [])]) [0x41, 2, 4, 1, 1, 7, 0] (by decide +kernel)

/-- C43 as stated does not hold: a nil primitive leaves no trace in the content of an array. -/
theorem C43_refuted : ¬ NestedRoundTrip := by
  intro h
  have := (C43_roundtrip_iff_partial _ _ (by decide +kernel)).mp
    (h (.array [.prim none, .prim (some [0x61])]) [0x41, 2, 3, 0x01, 1, 0x61] rfl (by decide +kernel))
  simp [noNil, allNoNil] at this

example : (CVal.array [.prim (some [0x61]), .array [.prim (some []), .array []]]).encode =
      .ok [0x41, 2, 8, 0x01, 1, 0x61, 0x41, 2, 2, 0x00, 0x00] ∧
    noNil (.array [.prim (some [0x61]), .array [.prim (some []), .array []]]) = true ∧
    (pathAt (.array [.prim (some [0x61]), .array [.prim (some []), .array []]]) [1, 0]).map CVal.value = some (some []) := by
  decide +kernel

/-! ### C83: bounds -/

/-- C83: access beyond the element count of a decoded value is an error and changes nothing, whatever was accessed before. -/
theorem C83_decoded (buf : Bytes) (h : Heap) (root : Nat) (_ : allocStd [] buf = (h, .ok root)) (l : List Access) (id : Nat)
    (d : StdValue) (hid : RepV (history h l) id d) (idx : Nat) (hidx : d.size ≤ idx) :
    (history h l).valueAt id idx = (history h l, .err) ∧ (history h l).recordAt id idx = (history h l, .err) := by
  refine ⟨valueAt_range hid (Or.inr hidx), ?_⟩
  obtain ⟨sl, hs⟩ := hid
  rw [Heap.recordAt, hs]
  simp only
  by_cases hk : d.kind = .records
  · rw [if_neg (by simp [hk]), lazyAt, if_pos hidx]
  · rw [if_pos hk]

example : allocStd [] [0x41, 1, 1, 0x00] =
    ([.val { buf := [0x41, 1, 1, 0x00], kind := .array, size := 1, content := [0x00] } [.empty]], .ok 0) := by decide +kernel

/-- C83: the same for constructed values, where the count is the number of elements (none for a primitive). -/
theorem C83_constructed (idx : Nat) :
    (∀ es : List CVal, es.length ≤ idx → (CVal.array es).valueAt idx = .err) ∧
    (∀ rs : List CRec, rs.length ≤ idx → (CVal.records rs).recordAt idx = .err) ∧
    (∀ s : Slice, (CVal.prim s).valueAt idx = .err ∧ (CVal.prim s).recordAt idx = .err) ∧
    (∀ es : List CVal, (CVal.array es).recordAt idx = .err) ∧ (∀ rs : List CRec, (CVal.records rs).valueAt idx = .err) := by
  refine ⟨?_, ?_, fun s => ⟨rfl, rfl⟩, fun _ => rfl, fun _ => rfl⟩
  · intro es h
    have := Nat.mod_le es.length 65536
    simp only [CVal.valueAt]
    rw [if_pos (by omega)]
  · intro rs h
    have := Nat.mod_le rs.length 65536
    simp only [CVal.recordAt]
    rw [if_pos (by omega)]

/-- C83: no index makes access to a constructed value panic. -/
theorem C83_constructed_no_panic (v : CVal) (idx : Nat) : v.valueAt idx ≠ .panic ∧ v.recordAt idx ≠ .panic := by
  constructor
  · cases v with
    | array es =>
      have := Nat.mod_le es.length 65536
      simp only [CVal.valueAt]
      by_cases h : idx ≥ es.length % 65536
      · rw [if_pos h]; simp
      · rw [if_neg h, List.getElem?_eq_getElem (by omega)]; simp
    | _ => simp [CVal.valueAt]
  · cases v with
    | records rs =>
      have := Nat.mod_le rs.length 65536
      simp only [CVal.recordAt]
      by_cases h : idx ≥ rs.length % 65536
      · rw [if_pos h]; simp
      · rw [if_neg h, List.getElem?_eq_getElem (by omega)]; simp
    | _ => simp [CVal.recordAt]

/-! ### C48: mutators -/

/-- The full claim of C48: contents, out of range deletion, encoded flag. -/
def ArrayLikeList : Prop :=
  (∀ (ops : List ArrOp), (arrayRun .new ops).elems = listRun [] ops ∧
    (CVal.array (arrayRun .new ops).elems).size = (listRun [] ops).length ∧
    ∀ i e, i < 65536 → ((CVal.array (arrayRun .new ops).elems).valueAt i = .ok e ↔ (listRun [] ops)[i]? = some e)) ∧
  (∀ (a : ValueArray) (i : Nat), a.elems.length ≤ i → a.deleteAt i = .err) ∧
  (∀ (a : ValueArray) (v : CVal), (a.append v).encoded = false) ∧
  (∀ (a a' : ValueArray) (i : Nat), a.deleteAt i = .ok a' → a'.encoded = false)

theorem listRun_append_replicate (v : CVal) (n : Nat) :
    ∀ l, listRun l (List.replicate n (.append v)) = l ++ List.replicate n v := by
  induction n with
  | zero => intro l; simp [listRun]
  | succ n ih =>
    intro l
    have := ih (l ++ [v])
    simp only [listRun] at this
    simp only [listRun, List.replicate_succ, List.foldl_cons, ArrOp.onList]
    rw [this]
    simp

/-- C48 as stated does not hold: with 65536 elements `Size()` is 0 (and out of range deletion panics, see below). -/
theorem C48_refuted : ¬ ArrayLikeList := by
  rintro ⟨h, -⟩
  obtain ⟨h1, h2, -⟩ := h (List.replicate 65536 (.append (.prim none)))
  rw [h1, listRun_append_replicate, CVal.size, List.nil_append, List.length_replicate] at h2
  omega

/-- C48: out of range deletion is not an error: it always panics. -/
theorem C48_delete_panics_partial (a : ValueArray) (i : Nat) (h : a.elems.length ≤ i) : a.deleteAt i = .panic := by
  have := Nat.mod_le a.elems.length 65536
  rw [ValueArray.deleteAt, if_pos (by omega)]

example := C48_delete_panics_partial { elems := [.prim (some [7])], encoded := false } 1 (by decide)

theorem onArray_elems (a : ValueArray) (o : ArrOp) (h : a.elems.length < 65536) : (o.onArray a).elems = o.onList a.elems := by
  cases o with
  | append v => rfl
  | deleteAt i =>
    rw [ArrOp.onArray, ArrOp.onList, ValueArray.deleteAt, Nat.mod_eq_of_lt h]
    by_cases hi : i ≥ a.elems.length
    · rw [if_pos hi]
      exact (List.eraseIdx_of_length_le hi).symm
    · rw [if_neg hi]
      simp only
      rw [List.eraseIdx_eq_take_drop_succ, Nat.mod_eq_of_lt (by omega)]
  | encode =>
    simp only [ArrOp.onArray, ArrOp.onList, ValueArray.encode]
    split <;> rfl

theorem arrayRun_elems : ∀ (ops : List ArrOp) (a : ValueArray), (∀ l ∈ listStates a.elems ops, l.length < 65536) →
    (arrayRun a ops).elems = listRun a.elems ops
  | [], _, _ => rfl
  | o :: os, a, h => by
    have h1 := onArray_elems a o (h _ (by simp [listStates]))
    have := arrayRun_elems os (o.onArray a) (by
      intro l hl
      rw [h1] at hl
      exact h l (by simp [listStates, hl]))
    simp only [arrayRun, listRun, List.foldl_cons] at this ⊢
    rw [this, h1]

theorem mem_listStates_last : ∀ (ops : List ArrOp) (l : List CVal), listRun l ops ∈ listStates l ops
  | [], l => by simp [listRun, listStates]
  | o :: os, l => by
    have := mem_listStates_last os (o.onList l)
    simp only [listRun, List.foldl_cons] at this ⊢
    simp [listStates, this]

/-- C48: as long as there are at most 65535 elements, the array is a list: contents, `Size()` and `ValueAt`. -/
theorem C48_list_partial (ops : List ArrOp) (h : ∀ l ∈ listStates [] ops, l.length < 65536) :
    (arrayRun .new ops).elems = listRun [] ops ∧ (CVal.array (arrayRun .new ops).elems).size = (listRun [] ops).length ∧
    ∀ i, (CVal.array (arrayRun .new ops).elems).valueAt i =
      (if hi : i < (listRun [] ops).length then .ok (listRun [] ops)[i] else .err) := by
  have h1 : (arrayRun .new ops).elems = listRun [] ops := arrayRun_elems ops .new h
  have h2 : (listRun [] ops).length < 65536 := h _ (mem_listStates_last ops [])
  rw [h1]
  refine ⟨rfl, Nat.mod_eq_of_lt h2, ?_⟩
  intro i
  simp only [CVal.valueAt, Nat.mod_eq_of_lt h2]
  by_cases hi : i < (listRun [] ops).length
  · rw [if_neg (by omega), dif_pos hi, List.getElem?_eq_getElem hi]
  · rw [if_pos (by omega), dif_neg hi]

example : ∀ l ∈ listStates [] [.append (.prim none), .append (.array []), .deleteAt 0], l.length < 65536 := by
  intro l hl
  simp [listStates, ArrOp.onList] at hl
  rcases hl with rfl | rfl | rfl | rfl <;> simp

/-- C48: every change makes `IsEncoded()` false. -/
theorem C48_not_encoded (a : ValueArray) :
    (∀ v, (a.append v).encoded = false) ∧ ∀ i a', a.deleteAt i = .ok a' → a'.encoded = false := by
  refine ⟨fun _ => rfl, ?_⟩
  intro i a' h
  rw [ValueArray.deleteAt] at h
  split at h
  · exact absurd h (by simp)
  · cases h; rfl

/-- C48: `Encode` keeps the elements, and makes `IsEncoded()` true exactly when it succeeds (or it was true before). -/
theorem C48_encode (a : ValueArray) :
    a.encode.elems = a.elems ∧ (a.encode.encoded = true ↔ a.encoded = true ∨ ∃ w, (CVal.array a.elems).encode = .ok w) := by
  unfold ValueArray.encode
  rcases (CVal.array a.elems).encode with w | - | - <;> simp

/-- C48: and `IsEncoded()` stays false until `Encode` succeeds on the current elements: it is never stale. -/
theorem C48_encoded_current (ops : List ArrOp) (h : (arrayRun .new ops).encoded = true) :
    ∃ w, (CVal.array (arrayRun .new ops).elems).encode = .ok w := by
  have key : ∀ (ops : List ArrOp) (a : ValueArray), (a.encoded = true → ∃ w, (CVal.array a.elems).encode = .ok w) →
      (arrayRun a ops).encoded = true → ∃ w, (CVal.array (arrayRun a ops).elems).encode = .ok w := by
    intro ops
    induction ops with
    | nil => intro a ha h; exact ha h
    | cons o os ih =>
      intro a ha h
      refine ih (o.onArray a) ?_ h
      intro he
      cases o with
      | append v => exact absurd he (by simp [ArrOp.onArray, ValueArray.append])
      | deleteAt i =>
        rw [ArrOp.onArray] at he ⊢
        rcases hd : a.deleteAt i with a' | - | -
        · rw [hd] at he
          have := (C48_not_encoded a).2 i a' hd
          rw [this] at he
          exact absurd he (by simp)
        · rw [hd] at he; exact ha he
        · rw [hd] at he; exact ha he
      | encode =>
        rw [ArrOp.onArray, ValueArray.encode] at he ⊢
        rcases hd : (CVal.array a.elems).encode with w | - | -
        · exact ⟨w, hd⟩
        · rw [hd] at he
          obtain ⟨w, hw⟩ := ha he
          rw [hd] at hw; exact absurd hw (by simp)
        · rw [hd] at he
          obtain ⟨w, hw⟩ := ha he
          rw [hd] at hw; exact absurd hw (by simp)
  exact key ops .new (fun h => absurd h (by simp [ValueArray.new])) h

example : (arrayRun .new [.append (.prim (some [1])), .encode]).encoded = true := by decide +kernel

example := C83_constructed 3

example := C48_not_encoded { elems := [.prim (some [7])], encoded := true }

end Poodle.Props
