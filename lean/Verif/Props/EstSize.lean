import Verif.Props.Scheme
import Verif.Props.ValueObj

/-
Properties C109 and C110: the size estimates `EstBufSize` of schemes, values and records (/repo/src/util/scheme_util.go,
/repo/src/util/value_util.go, /repo/src/util/record_util.go).
-/

namespace Poodle.Props
open Poodle Spec

/-! ### C109: schemes -/

theorem uvLen_eq_one {n : Nat} : uvLen n = 1 ↔ n < 128 := by
  unfold uvLen
  rw [Nat.add_eq_right, Nat.log_eq_zero_iff]
  omega

/-- Domain, tablet and buckets are short and few. -/
def ShortScheme (s : Scheme) : Prop :=
  s.domain.bytes.length < 128 ∧ s.tablet.bytes.length < 128 ∧ (s.buckets.getD []).length < 128 ∧
    ∀ b ∈ s.buckets.getD [], b.bytes.length < 128

theorem sum_le_iff (bs : List Slice) : (bs.map fun b => 1 + b.bytes.length).sum ≤ (bs.map fun b => uvLen b.bytes.length + b.bytes.length).sum ∧
    ((bs.map fun b => 1 + b.bytes.length).sum = (bs.map fun b => uvLen b.bytes.length + b.bytes.length).sum ↔
      ∀ b ∈ bs, b.bytes.length < 128) := by
  induction bs with
  | nil => simp
  | cons b bs ih =>
    obtain ⟨h1, h2⟩ := ih
    simp only [List.map_cons, List.sum_cons, List.forall_mem_cons]
    have := uvLen_pos b.bytes.length
    rw [← h2, ← uvLen_eq_one]
    omega

/-- The estimate for domain or tablet. -/
def estPart (o : Slice) : Nat := o.elim 0 fun d => 1 + d.length

/-- The estimate for the buckets. -/
def estBuckets (b : Option (List Slice)) : Nat := b.elim 0 fun bs => 1 + (bs.map fun b => 1 + b.bytes.length).sum

/-- C109: the estimate is never more than the encoded size, and equal to it exactly if all parts are shorter than 128 bytes and there are
fewer than 128 buckets. -/
theorem C109_scheme_estimate (s : Scheme) (h : SchemeFits s) (w : Bytes) (hw : s.encode = .ok w) :
    s.estBufSize ≤ w.length ∧ (s.estBufSize = w.length ↔ ShortScheme s) := by
  rw [C56_size s h w hw]
  clear h hw
  obtain ⟨d, t, b⟩ := s
  have e : Scheme.estBufSize ⟨d, t, b⟩ = 1 + estPart d + estPart t + estBuckets b := by cases d <;> cases t <;> cases b <;> rfl
  rw [e]
  unfold schemeSize ShortScheme
  have part : ∀ o : Slice, estPart o ≤ partSize o ∧
      (estPart o = partSize o ↔ o.bytes.length < 128) := by
    intro o
    cases o with
    | none => simp [partSize, Slice.bytes, estPart]
    | some d =>
      have := uvLen_pos d.length
      simp only [estPart, partSize, Option.map_some, Option.getD_some, Slice.bytes, Option.elim]
      rw [← uvLen_eq_one]
      omega
  have buck : estBuckets b ≤
        (b.map fun bs => keySize (bs.map Slice.bytes)).getD 0 ∧
      (estBuckets b =
        (b.map fun bs => keySize (bs.map Slice.bytes)).getD 0 ↔
        (b.getD []).length < 128 ∧ ∀ x ∈ b.getD [], x.bytes.length < 128) := by
    cases b with
    | none => simp [estBuckets]
    | some bs =>
      have := uvLen_pos bs.length
      obtain ⟨h1, h2⟩ := sum_le_iff bs
      simp only [estBuckets, Option.elim, keySize, Option.getD_some, Option.map_some, List.map_map, List.length_map]
      rw [← h2, ← uvLen_eq_one]
      simp only [Function.comp_def]
      omega
  obtain ⟨a1, a2⟩ := part d
  obtain ⟨b1, b2⟩ := part t
  obtain ⟨c1, c2⟩ := buck
  simp only at *
  rw [← c2, ← a2, ← b2]
  omega

example : SchemeFits ⟨some [1, 2], some [], some [some [3], none]⟩ ∧
    Scheme.encode ⟨some [1, 2], some [], some [some [3], none]⟩ = .ok [0, 2, 1, 2, 0, 2, 1, 3, 0] ∧
    Scheme.estBufSize ⟨some [1, 2], some [], some [some [3], none]⟩ = 9 := by
  refine ⟨?_, by decide +kernel, by decide +kernel⟩
  simp [SchemeFits, Slice.bytes]

/-! ### C110: values and records -/

/-- The full claim of C110: the estimate of a value or record is enough for its encoding. -/
def EstimateEnough : Prop :=
  ∀ (ops : List VOp) (i : Nat) (n : VNode) (c : Content) (w : Bytes), (valueHistory ops)[i]? = some n → Contains (valueHistory ops) i c →
    contentEncode c = .ok w → (w.length : Int) ≤ n.est

/-- C110 as stated does not hold: a primitive of one byte takes three bytes, the estimate is two. -/
theorem C110_refuted : ¬ EstimateEnough := by
  intro h
  have := h [.new (.prim (some [7]))] 0 (.prim (some [7]) false []) (.inl (.prim (some [7]))) [1, 1, 7] rfl ⟨1, rfl⟩ (by decide +kernel)
  revert this
  decide

/-- C110: the estimate of a primitive is right or one less. -/
theorem C110_primitive_partial (d w : Bytes) (h : encodePrimitive (some d) = .ok w) :
    (w.length : Int) = primEst d.length + if (0 < d.length ∧ d.length < 128) ∨ (256 ≤ d.length ∧ d.length < 32768) then 1 else 0 := by
  unfold encodePrimitive at h
  simp only at h
  unfold primEst
  simp only [show (1 <<< 7 : Nat) = 128 by rfl, show (1 <<< 15 : Nat) = 32768 by rfl, show (1 <<< 23 : Nat) = 8388608 by rfl]
  split at h
  · simp only [Res.ok.injEq] at h
    subst h
    rename_i h0
    simp [h0]
  · split at h
    · simp only [Res.ok.injEq] at h
      subst h
      simp only [List.length_cons, List.length_append, List.length_nil]
      split <;> split <;> omega
    · split at h
      · simp only [Res.ok.injEq] at h
        subst h
        simp only [List.length_cons, List.length_append, List.length_nil]
        split <;> split <;> omega
      · simp at h

example := C110_primitive_partial [7, 8] [1, 2, 7, 8] (by decide +kernel)

theorem encode_id_encodes {f : Nat} {h h' : VHeap} {i : Nat} {l : List Nat} {e : Bool} {b w : Bytes} {est : Int}
    (hn : h[i]? = some (.array l e b est)) (he : h.encode f i = (h', some (.ok w))) : h'[i]? = some (.array l true w w.length) ∧ w ≠ [] := by
  cases f with
  | zero => simp [VHeap.encode] at he
  | succ f =>
    rw [VHeap.encode, hn] at he
    simp only at he
    cases hc : countHeader 6 l.length with
    | err => simp [hc] at he
    | panic => simp [hc] at he
    | ok mc =>
      simp only [hc] at he
      have i1 := (elems_outcome (encode_outcome f) Sum.getLeft? CVal.encode encodeVals
          (fun c a h => by cases c <;> simp_all [contentEncode]) (by rw [encodeVals]) (fun a l => by rw [encodeVals]) l h).1
      rcases hr : encodeElems (VHeap.encode f) h l with ⟨h1, r⟩
      rw [hr] at he i1
      rcases r with - | r
      · simp at he
      · cases r with
        | err => simp at he
        | panic => simp at he
        | ok content =>
          simp only at he
          have hi := i1.get i
          rw [hn] at hi
          obtain ⟨n', hn', -⟩ := Option.map_eq_some_iff.mp hi
          cases hw : withContent mc.1 mc.2 content with
          | err => simp [hw] at he
          | panic => simp [hw] at he
          | ok w' =>
            simp only [hw, Prod.mk.injEq, Option.some.injEq, Res.ok.injEq] at he
            obtain ⟨rfl, rfl⟩ := he
            refine ⟨get_set_self hn' _, ?_⟩
            unfold withContent at hw
            split at hw
            · simp only [Res.ok.injEq] at hw; rw [← hw]; simp
            · split at hw
              · simp only [Res.ok.injEq] at hw; rw [← hw]; simp
              · split at hw
                · simp only [Res.ok.injEq] at hw; rw [← hw]; simp
                · simp at hw

/-- C110: right after `Encode` the estimate of a value array is the length of `Buf()`. -/
theorem C110_array_encoded_partial (h h' : VHeap) (f i : Nat) (l : List Nat) (e : Bool) (b w : Bytes) (est : Int)
    (hn : h[i]? = some (.array l e b est)) (he : h.encode f i = (h', some (.ok w))) : h'.est i = w.length := by
  obtain ⟨h1, h2⟩ := encode_id_encodes hn he
  have : 0 < w.length := List.length_pos_iff.mpr h2
  simp only [VHeap.est, h1, VNode.est, atLeastOne]
  rw [if_neg (by omega)]

example := C110_array_encoded_partial (valueHistory sharedOps) ((valueHistory sharedOps).encode 9 3).1 9 3 _ _ _
  [0x41, 2, 6, 1, 1, 7, 1, 1, 7] _ rfl (by decide +kernel)

/-- C110: the estimate of a new array to which values are appended is one more than the sum of their estimates. -/
theorem C110_appended_partial (h : VHeap) (id : Nat) (hn : h[id]? = some NewObj.array.node) (l : List Nat)
    (hl : ∀ j ∈ l, h.isValue j = true ∧ j ≠ id) :
    (l.foldl (fun h j => h.append id j) h)[id]? = some (.array l false [] (1 + (l.map h.est).sum)) := by
  have key : ∀ (l l0 : List Nat) (h0 : VHeap) (x : Int), h0[id]? = some (.array l0 false [] x) → (∀ j, j ≠ id → h0[j]? = h[j]?) →
      (∀ j ∈ l, h.isValue j = true ∧ j ≠ id) →
      (l.foldl (fun h j => h.append id j) h0)[id]? = some (.array (l0 ++ l) false [] (x + (l.map h.est).sum)) := by
    intro l
    induction l with
    | nil => intro l0 h0 x hn _ _; simpa using hn
    | cons j l ih =>
      intro l0 h0 x hn0 hag hl
      obtain ⟨hv, hj⟩ := hl j (by simp)
      have ej := hag j hj
      have hv' : h0.isValue j = true := by rw [isValue_iff, ej, ← isValue_iff]; exact hv
      have hest : h0.est j = h.est j := by simp only [VHeap.est, ej]
      have happ : h0.append id j = h0.set id (.array (l0 ++ [j]) false [] (x + h.est j)) := by
        simp only [VHeap.append, hn0]
        rw [if_pos hv', hest]
      rw [List.foldl_cons, happ, ih (l0 ++ [j]) _ (x + h.est j) (get_set_self hn0 _)
        (fun k hk => by rw [List.getElem?_set_ne hk.symm]; exact hag k hk) (fun k hk => hl k (by simp [hk]))]
      simp [Int.add_assoc]
  simpa using key l [] h 1 hn (fun _ _ => rfl) hl

example := C110_appended_partial (valueHistory [.new (.prim (some [7])), .new (.prim none), .new .array]) 2 (by decide +kernel) [0, 1, 0] (by decide +kernel)

/-- C110: and for primitives this is less than the encoded length, by at most one byte per element and four more. -/
theorem C110_primitives_partial (ds : List Bytes) (w : Bytes) (hne : ds ≠ []) (h : (CVal.array (ds.map fun d => .prim (some d))).encode = .ok w) :
    1 + (ds.map fun d => primEst d.length).sum < (w.length : Int) ∧
      (w.length : Int) ≤ 1 + (ds.map fun d => primEst d.length).sum + ds.length + 4 := by
  have vals : ∀ (ds : List Bytes) (c : Bytes), encodeVals (ds.map fun d => .prim (some d)) = .ok c →
      (ds.map fun d => primEst d.length).sum ≤ (c.length : Int) ∧ (c.length : Int) ≤ (ds.map fun d => primEst d.length).sum + ds.length := by
    intro ds
    induction ds with
    | nil =>
      intro c hc
      rw [List.map_nil, encodeVals] at hc
      simp only [Res.ok.injEq] at hc
      subst hc
      simp
    | cons d ds ih =>
      intro c hc
      rw [List.map_cons, encodeVals, CVal.encode] at hc
      obtain ⟨b, hb, hc⟩ := Res.bind_eq_ok.mp hc
      obtain ⟨bs, hbs, hc⟩ := Res.bind_eq_ok.mp hc
      simp only [Res.ok.injEq] at hc
      subst hc
      have h1 := C110_primitive_partial d b hb
      have h2 := ih bs hbs
      simp only [List.map_cons, List.sum_cons, List.length_append, List.length_cons]
      push_cast
      split at h1 <;> omega
  rw [CVal.encode_array] at h
  obtain ⟨mc, hm, h⟩ := Res.bind_eq_ok.mp h
  obtain ⟨c, hc, h⟩ := Res.bind_eq_ok.mp h
  obtain ⟨v1, v2⟩ := vals ds c hc
  have hlen : 0 < ds.length := List.length_pos_iff.mpr hne
  have hcnt : 1 ≤ mc.2.length ∧ mc.2.length ≤ 2 := by
    unfold countHeader at hm
    rw [List.length_map] at hm
    split at hm
    · omega
    · split at hm
      · simp only [Res.ok.injEq] at hm; rw [← hm]; simp
      · split at hm
        · simp only [Res.ok.injEq] at hm; rw [← hm]; simp
        · simp at hm
  unfold withContent at h
  split at h
  · simp only [Res.ok.injEq] at h
    subst h
    simp only [List.length_cons]
    push_cast
    omega
  · split at h
    · simp only [Res.ok.injEq] at h
      subst h
      simp only [List.length_cons, List.length_append, List.length_nil]
      push_cast
      omega
    · split at h
      · simp only [Res.ok.injEq] at h
        subst h
        simp only [List.length_cons, List.length_append, List.length_nil]
        push_cast
        omega
      · simp at h

example := C110_primitives_partial [[7], []] [0x41, 2, 4, 1, 1, 7, 0] (by decide) (by decide +kernel)

/-- C110: the estimate of a record can also be too big: a signature counts although it is not encoded without a timestamp. -/
theorem C110_record_partial (r s : Int) (w : Bytes) (h : (CRec.record none none none none (some r) (some s)).encode = .ok w) :
    w.length = 1 ∧ (valueHistory [.new .record, .setSignature 0 (some r) (some s)]).est 0 = 68 := by
  constructor
  · rw [CRec.encode_record] at h
    simp only [recKeyPart, recPartBytes, Res.bind_ok, timePart, Res.ok.injEq] at h
    rw [← h]
    rfl
  · rfl

example : encodePrimitive (some [7, 8]) = .ok [1, 2, 7, 8] ∧ (CVal.array [.prim (some [7]), .prim (some [])]).encode = .ok [0x41, 2, 4, 1, 1, 7, 0] ∧
    (valueHistory sharedOps).encode 9 3 = (((valueHistory sharedOps).encode 9 3).1, some (.ok [0x41, 2, 6, 1, 1, 7, 1, 1, 7])) ∧
    (CRec.record none none none none (some 5) (some 6)).encode = .ok [0] := by decide +kernel

end Poodle.Props
