import Verif.Model.Memory
import Verif.Lemmas.SSTable
import Verif.Lemmas.Sharing
import Verif.Props.Codec
import Verif.Props.SSTable
import Verif.Props.MphCodec
import Verif.Props.Record

/-!
C161 and C162: how much memory decoding asks for.
-/

namespace Poodle

/-! ### The counting decoders are the decoders -/

@[simp] theorem Acc.res_bind {α β : Type} (x : Acc α) (f : α → Acc β) : (x >>= f).res = x.res >>= fun a => (f a).res := by
  show (Acc.bind x f).res = _
  rw [Acc.bind]
  cases x.res <;> rfl

@[simp] theorem Acc.res_of {α : Type} (r : Res α) : (Acc.of r).res = r := rfl
@[simp] theorem Acc.res_make (n s : Nat) : (Acc.make n s).res = .ok () := rfl
@[simp] theorem Acc.bytes_of {α : Type} (r : Res α) : (Acc.of r).bytes = 0 := rfl
@[simp] theorem Acc.bytes_make (n s : Nat) : (Acc.make n s).bytes = n * s := rfl

theorem Acc.bytes_bind {α β : Type} {x : Acc α} {f : α → Acc β} {a : α} (h : x.res = .ok a) :
    (x >>= f).bytes = x.bytes + (f a).bytes := by
  show (Acc.bind x f).bytes = _
  rw [Acc.bind, h]

theorem Acc.bytes_bind_stop {α β : Type} {x : Acc α} {f : α → Acc β} (h : ∀ a, x.res ≠ .ok a) : (x >>= f).bytes = x.bytes := by
  show (Acc.bind x f).bytes = _
  rw [Acc.bind]
  cases hx : x.res with
  | ok a => exact absurd hx (h a)
  | err => rfl
  | panic => rfl

theorem Acc.bytes_of_bind {α β : Type} {r : Res α} {f : α → Acc β} {b : Nat} (h : ∀ a, r = .ok a → (f a).bytes ≤ b) :
    (Acc.of r >>= f).bytes ≤ b := by
  cases hr : r with
  | ok a => rw [Acc.bytes_bind (a := a) rfl, Acc.bytes_of, Nat.zero_add]; exact h a hr
  | err => rw [Acc.bytes_bind_stop (by simp)]; simp
  | panic => rw [Acc.bytes_bind_stop (by simp)]; simp

theorem Acc.bytes_bind_le {α β : Type} {x : Acc α} {f : α → Acc β} {b c : Nat} (hx : x.bytes ≤ b)
    (h : ∀ a, x.res = .ok a → (f a).bytes ≤ c) : (x >>= f).bytes ≤ b + c := by
  cases hr : x.res with
  | ok a => rw [Acc.bytes_bind hr]; exact Nat.add_le_add hx (h a hr)
  | err => rw [Acc.bytes_bind_stop (by simp [hr])]; omega
  | panic => rw [Acc.bytes_bind_stop (by simp [hr])]; omega

@[simp] theorem newMappedKeyMem_res (buf : Bytes) : (newMappedKeyMem buf).res = newMappedKey buf := by
  simp only [newMappedKeyMem, newMappedKey, Acc.res_bind, Acc.res_of]
  congr 1; funext a
  split <;> simp

@[simp] theorem decodeSchemeMem_res (buf : Bytes) : (decodeSchemeMem buf).res = decodeScheme buf := by
  cases buf with
  | nil => rfl
  | cons b rest =>
    simp only [decodeSchemeMem, decodeScheme, Acc.res_bind, Acc.res_of]
    congr 1; funext a
    congr 1; funext a
    congr 1; funext a
    split <;> simp

@[simp] theorem decodeCountMem_res (buf : Bytes) (bits : UInt8) (isSet : Bool) (pos : Nat) :
    (decodeCountMem buf bits isSet pos).res = decodeCount buf bits isSet pos := by
  simp only [decodeCountMem, Acc.res_bind, Acc.res_of, Acc.res_make]
  cases decodeCount buf bits isSet pos <;> rfl

@[simp] theorem decodeStdMem_res (buf : Bytes) : (decodeStdMem buf).res = decodeStd buf := by
  simp only [decodeStdMem, decodeStd]
  split
  · rfl
  simp only [Acc.res_bind, Acc.res_of, decodeCountMem_res]
  congr 1; funext a
  congr 1; funext a
  congr 1; funext a
  split
  · rfl
  split
  · rfl
  simp

@[simp] theorem decodeRecPartMem_res (buf : Bytes) (bit : UInt8) (limit pos : Nat) :
    (decodeRecPartMem buf bit limit pos).res = decodeRecPart buf bit limit pos := by
  simp only [decodeRecPartMem, decodeRecPart]
  split
  · rfl
  split
  · simp only [Acc.res_bind, decodeStdMem_res]
    congr 1; funext a
    split <;> rfl
  · rfl

@[simp] theorem decodeRecordMem_res (buf : Bytes) : (decodeRecordMem buf).res = decodeRecord buf := by
  simp only [decodeRecordMem, decodeRecord]
  split
  · rfl
  simp only [Acc.res_bind, Acc.res_of]
  congr 1; funext a
  split
  · rfl
  simp only [Acc.res_bind, newMappedKeyMem_res]
  congr 1; funext a
  split
  · rfl
  simp

@[simp] theorem readU32sMem_res (n : Nat) (buf : Bytes) : (readU32sMem n buf).res = readU32s n buf := by
  simp only [readU32sMem, readU32s]
  split <;> simp

@[simp] theorem loadKeysMem_res : ∀ (n : Nat) (buf : Bytes), (loadKeysMem n buf).res = loadKeys n buf
  | 0, _ => rfl
  | n + 1, buf => by
    simp only [loadKeysMem, loadKeys, Acc.res_bind, newMappedKeyMem_res]
    congr 1; funext a
    split
    · rfl
    simp [loadKeysMem_res n]

@[simp] theorem newMphTableMem_res (buf : Bytes) : (newMphTableMem buf).res = newMphTable buf := by
  cases buf with
  | nil => rfl
  | cons magic r =>
    simp only [newMphTableMem, newMphTable]
    split
    · rfl
    simp only [Acc.res_bind, Acc.res_of, readU32sMem_res]
    congr 1; funext a
    congr 1; funext a
    congr 1; funext a
    congr 1; funext a
    congr 1; funext a
    congr 1; funext a
    split <;> simp

@[simp] theorem ssValueMem_res (data : Bytes) (pos : Nat) : (ssValueMem data pos).res = ssValue data pos := by
  simp [ssValueMem, ssValue]

@[simp] theorem ssHeaderMem_res (data : Bytes) : (ssHeaderMem data).res = ssHeader data := by
  simp only [ssHeaderMem, ssHeader, Acc.res_bind, Acc.res_of]
  congr 1; funext a
  split
  · rfl
  simp only [Acc.res_bind, Acc.res_of, ssValueMem_res]
  iterate 9 (congr 1; funext a)
  split <;> simp

@[simp] theorem ssIndexMem_res (data : Bytes) (pos : Nat) : (ssIndexMem data pos).res = ssIndex data pos := by
  simp only [ssIndexMem, ssIndex, Acc.res_bind, Acc.res_of, newMphTableMem_res]
  iterate 3 (congr 1; funext a)
  split <;> simp

@[simp] theorem loadSSTableMem_res (data : Bytes) : (loadSSTableMem data).res = loadSSTable data := by
  simp [loadSSTableMem, loadSSTable]

/-! ### Keys, schemes, values -/

/-- An announced count that `make` accepts is followed by at least that many bytes. -/
theorem count_le {buf : Bytes} {v n : Nat} (hgo : buf.length < 2 ^ 63) (h : decodeUvarint64 buf = .ok (v, n)) (hv : ¬ v > maxMake24) :
    n + v ≤ buf.length := by
  by_cases hne : buf = []
  · subst hne
    simp only [decodeUvarint64, Res.ok.injEq, Prod.mk.injEq] at h
    obtain ⟨rfl, rfl⟩ := h
    simp
  · obtain ⟨p, rest, rfl, -, hl, -, rfl, hc⟩ := (Props.C04_decodeUvarint64_ok_iff_partial buf hne hgo v n).mp h
    have : maxMake24 < 2 ^ 62 := by decide +kernel
    rw [List.length_append]
    omega

theorem varchar_consumes {buf d : Bytes} {n : Nat} (hgo : buf.length < 2 ^ 63) (h : decodeVarchar buf = .ok (d, n)) :
    n ≤ buf.length ∧ (buf ≠ [] → 1 ≤ n) := by
  by_cases hne : buf = []
  · subst hne
    simp only [decodeVarchar, Res.ok.injEq, Prod.mk.injEq] at h
    exact ⟨by omega, fun h => absurd rfl h⟩
  · obtain ⟨p, rest, rfl, hp, -, rfl⟩ := (Props.C02_decodeVarchar_ok_iff buf hne hgo d n).mp h
    have := hp.length_pos
    simp only [List.length_append]
    exact ⟨by omega, fun _ => by omega⟩

theorem subKeys_consume : ∀ (n : Nat) {buf : Bytes} {ks : List Slice} {m : Nat}, buf.length < 2 ^ 63 →
    decodeSubKeys n buf = .ok (ks, m) → min n buf.length ≤ m ∧ m ≤ buf.length
  | 0, _, _, _, _, h => by
    rw [decodeSubKeys] at h
    cases h
    simp
  | n + 1, buf, ks, m, hgo, h => by
    rw [decodeSubKeys] at h
    obtain ⟨⟨d, len⟩, h1, h⟩ := Res.bind_eq_ok.mp h
    obtain ⟨⟨ds, m'⟩, h2, h⟩ := Res.bind_eq_ok.mp h
    cases h
    obtain ⟨hc1, hc2⟩ := varchar_consumes hgo h1
    have hc2 : 1 ≤ len ∨ buf.length = 0 := by
      by_cases hb : buf = []
      · right; simp [hb]
      · left; exact hc2 hb
    have := subKeys_consume n (by rw [List.length_drop]; omega) h2
    rw [List.length_drop] at this
    omega

theorem key_bytes {buf : Bytes} (hgo : buf.length < 2 ^ 63) : (newMappedKeyMem buf).bytes ≤ 24 * buf.length := by
  apply Acc.bytes_of_bind
  rintro ⟨v, n⟩ h
  simp only
  split
  · simp
  · rename_i hv
    have := count_le hgo h hv
    rw [Acc.bytes_bind (a := ()) rfl, Acc.bytes_make]
    have h2 : (Acc.of (decodeSubKeys v (buf.drop n)) >>= fun x =>
        Acc.of (.ok (({ keys := x.1, buf := buf } : MappedKey), n + x.2))).bytes ≤ 0 := Acc.bytes_of_bind fun a _ => by simp
    have h2 := Nat.le_zero.mp h2
    rw [show (Acc.of (decodeSubKeys v (buf.drop n)) >>= fun x => match x with
        | (ks, m) => Acc.of (.ok (({ keys := ks, buf := buf } : MappedKey), n + m))).bytes = 0 from h2]
    omega

/-- A decoded key has asked for no more than it has consumed (24 bytes for each). -/
theorem key_bytes_ok {buf : Bytes} (hgo : buf.length < 2 ^ 63) {m : MappedKey} {n : Nat} (h : newMappedKey buf = .ok (m, n)) :
    (newMappedKeyMem buf).bytes ≤ 24 * n ∧ n ≤ buf.length := by
  rw [newMappedKey] at h
  obtain ⟨⟨v, len⟩, h1, h⟩ := Res.bind_eq_ok.mp h
  simp only at h
  split at h
  · simp at h
  rename_i hv
  obtain ⟨⟨ks, m'⟩, h2, h⟩ := Res.bind_eq_ok.mp h
  cases h
  have hc := count_le hgo h1 hv
  have hs := subKeys_consume v (by rw [List.length_drop]; omega) h2
  rw [List.length_drop] at hs
  refine ⟨?_, by omega⟩
  rw [newMappedKeyMem, Acc.bytes_bind (a := (v, len)) h1, Acc.bytes_of]
  simp only
  rw [if_neg hv, Acc.bytes_bind (a := ()) rfl, Acc.bytes_make, Acc.bytes_bind (a := (ks, m')) h2]
  simp only [Acc.bytes_of]
  omega

theorem scheme_bytes {buf : Bytes} (hgo : buf.length < 2 ^ 63) : (decodeSchemeMem buf).bytes ≤ 24 * buf.length := by
  cases buf with
  | nil => simp [decodeSchemeMem]
  | cons b rest =>
    rw [decodeSchemeMem]
    apply Acc.bytes_of_bind
    rintro ⟨d, n1⟩ h1
    apply Acc.bytes_of_bind
    rintro ⟨t, n2⟩ h2
    apply Acc.bytes_of_bind
    rintro ⟨v, n3⟩ h3
    simp only
    split
    · simp
    · rename_i hv
      rw [List.length_cons] at hgo ⊢
      have hc := count_le (by rw [List.length_drop, List.length_drop]; omega) h3 hv
      rw [List.length_drop, List.length_drop] at hc
      refine Nat.le_trans (Acc.bytes_bind_le (b := v * 24) (c := 0) (by simp) fun _ _ => ?_) (by omega)
      exact Acc.bytes_of_bind fun a _ => by simp

/-- What `make` of a value's elements may ask for. -/
def maxValueSlots : Nat := 16 * 65535

theorem count_bytes (buf : Bytes) (bits : UInt8) (isSet : Bool) (pos : Nat) :
    (decodeCountMem buf bits isSet pos).bytes ≤ maxValueSlots ∧ (isSet = true → (decodeCountMem buf bits isSet pos).bytes = 0) ∧
      (∀ p, decodeCount buf bits isSet pos = .ok (none, p) → (decodeCountMem buf bits isSet pos).bytes = 0) := by
  rcases decodeCount_cases buf bits isSet pos with h | ⟨o, c, rest, hc, -, hs, h⟩
  · rw [decodeCountMem, Acc.bytes_bind_stop (by simp [h])]
    exact ⟨by simp, fun _ => rfl, fun _ _ => rfl⟩
  · have hb : (decodeCountMem buf bits isSet pos).bytes = o.getD 0 * 16 := by
      rw [decodeCountMem, Acc.bytes_bind (a := (o, pos + c.length)) h, Acc.bytes_of]
      simp only
      rw [Acc.bytes_bind (a := ()) rfl, Acc.bytes_make, Acc.bytes_of]
      omega
    rw [hb, h]
    refine ⟨?_, fun h => by rw [hs h]; rfl, fun p hp => ?_⟩
    · cases hc with
      | none => simp
      | one b => have := b.toNat_lt; simp only [Option.getD_some, maxValueSlots]; omega
      | two a b => have := a.toNat_lt; have := b.toNat_lt; simp only [Option.getD_some, maxValueSlots]; omega
    · simp only [Res.ok.injEq, Prod.mk.injEq] at hp
      rw [hp.1]; rfl

theorem std_bytes (buf : Bytes) : (decodeStdMem buf).bytes ≤ maxValueSlots := by
  rw [decodeStdMem]
  split
  · simp
  apply Acc.bytes_of_bind
  intro magic _
  have tail : ∀ (arr recs : Option Nat) (pos : Nat), (if (magic >>> 3) &&& 0x01 = 1 then (Acc.of .err : Acc (StdValue × Nat))
    else if (magic >>> 2) &&& 0x01 = 1 then Acc.of .err
    else do
      let (len, pos) ← Acc.of (decodeContent buf (magic &&& 0x03) pos)
      let content ← Acc.of (goSlice buf ((pos : Int) - len) pos)
      let kind := if arr.isSome then VKind.array else if recs.isSome then VKind.records else VKind.prim
      Acc.of (.ok ({ buf := buf.take pos, kind := kind, size := (arr.or recs).getD 0, content := content }, pos))).bytes ≤ 0 := by
    intro arr recs pos
    split
    · simp
    split
    · simp
    refine Acc.bytes_of_bind fun a _ => ?_
    refine Acc.bytes_of_bind fun a _ => ?_
    simp
  obtain ⟨c1, -, c3⟩ := count_bytes buf ((magic >>> 6) &&& 0x03) false 1
  cases h1 : decodeCount buf ((magic >>> 6) &&& 0x03) false 1 with
  | err => rw [Acc.bytes_bind_stop (by simp [h1])]; exact c1
  | panic => rw [Acc.bytes_bind_stop (by simp [h1])]; exact c1
  | ok a =>
    obtain ⟨arr, pos⟩ := a
    rw [Acc.bytes_bind (a := (arr, pos)) (by simp [h1])]
    simp only
    obtain ⟨d1, d2, -⟩ := count_bytes buf ((magic >>> 4) &&& 0x03) arr.isSome pos
    cases arr with
    | none =>
      rw [c3 pos h1, Nat.zero_add]
      exact Acc.bytes_bind_le (c := 0) d1 fun a _ => tail none a.1 a.2
    | some k =>
      refine Nat.add_le_add (d := 0) c1 ?_
      exact Acc.bytes_bind_le (b := 0) (c := 0) (Nat.le_of_eq (d2 rfl)) fun a _ => tail (some k) a.1 a.2

theorem recPart_bytes (buf : Bytes) (bit : UInt8) (limit pos : Nat) : (decodeRecPartMem buf bit limit pos).bytes ≤ maxValueSlots := by
  rw [decodeRecPartMem]
  split
  · simp
  split
  · refine Acc.bytes_bind_le (c := 0) (std_bytes _) fun a _ => ?_
    simp only
    split <;> simp
  · simp

theorem record_bytes {buf : Bytes} (hgo : buf.length < 2 ^ 63) : (decodeRecordMem buf).bytes ≤ 24 * buf.length + 2 * maxValueSlots := by
  rw [decodeRecordMem]
  split
  · simp
  refine Acc.bytes_of_bind fun magic _ => ?_
  split
  · simp
  have hk := key_bytes (buf := buf.drop 1) (by rw [List.length_drop]; omega)
  rw [List.length_drop] at hk
  refine Acc.bytes_bind_le (b := 24 * buf.length) (by omega) fun k _ => ?_
  split
  · simp
  rw [Nat.two_mul]
  refine Acc.bytes_bind_le (recPart_bytes _ _ _ _) fun v _ => ?_
  refine Acc.bytes_bind_le (c := 0) (recPart_bytes _ _ _ _) fun s _ => ?_
  refine Acc.bytes_of_bind fun t _ => ?_
  refine Acc.bytes_of_bind fun g _ => ?_
  refine Acc.bytes_of_bind fun b _ => ?_
  simp

/-! ### Lookup tables -/

theorem loadKeys_bytes : ∀ (n : Nat) {buf : Bytes}, buf.length < 2 ^ 63 → (loadKeysMem n buf).bytes ≤ 24 * buf.length
  | 0, _, _ => by simp [loadKeysMem]
  | n + 1, buf, hgo => by
    rw [loadKeysMem]
    cases hk : newMappedKey buf with
    | err => rw [Acc.bytes_bind_stop (by simp [hk])]; exact key_bytes hgo
    | panic => rw [Acc.bytes_bind_stop (by simp [hk])]; exact key_bytes hgo
    | ok a =>
      obtain ⟨m, len⟩ := a
      obtain ⟨h1, h2⟩ := key_bytes_ok hgo hk
      rw [Acc.bytes_bind (a := (m, len)) (by simp [hk])]
      simp only
      rw [if_neg (by omega)]
      have ih := loadKeys_bytes n (buf := buf.drop len) (by rw [List.length_drop]; omega)
      rw [List.length_drop] at ih
      exact Nat.le_trans (Nat.add_le_add h1 (Acc.bytes_bind_le (c := 0) ih fun a _ => by simp)) (by omega)

theorem readU32s_bytes (n : Nat) (buf : Bytes) : (readU32sMem n buf).bytes ≤ 4 * n ∧ (readU32sMem n buf).bytes ≤ buf.length := by
  rw [readU32sMem]
  split
  · simp
  · have : (Acc.make n 4 >>= fun _ => Acc.of (readU32sLoop n buf)).bytes ≤ n * 4 + 0 :=
      Acc.bytes_bind_le (by simp) fun _ _ => by simp
    omega

theorem Acc.of_ok_bind {α β : Type} {r : Res α} {a : α} (h : r = .ok a) (f : α → Acc β) : (Acc.of r >>= f).bytes = (f a).bytes := by
  rw [Acc.bytes_bind (a := a) h, Acc.bytes_of, Nat.zero_add]

theorem Acc.of_stop_bind {α β : Type} {r : Res α} (h : ∀ a, r ≠ .ok a) (f : α → Acc β) : (Acc.of r >>= f).bytes = 0 := by
  rw [Acc.bytes_bind_stop h]; rfl

theorem readU32s_bind_bytes {β : Type} {n : Nat} {buf : Bytes} {l : List UInt32} {r : Bytes} (h : readU32s n buf = .ok (l, r))
    (f : List UInt32 × Bytes → Acc β) : (readU32sMem n buf >>= f).bytes = 4 * l.length + (f (l, r)).bytes := by
  rw [Acc.bytes_bind (a := (l, r)) (by simp [h])]
  congr 1
  rw [readU32sMem]
  obtain ⟨e, -⟩ := readU32s_ok h
  rw [readU32s] at h
  split at h
  · simp at h
  · rename_i hl
    rw [if_neg hl, Acc.bytes_bind (a := ()) rfl]
    simp; omega

theorem readU32_bind_le {β : Type} {buf : Bytes} {f : Nat × Bytes → Acc β}
    (h : ∀ n r, readU32 buf = .ok (n, r) → (f (n, r)).bytes ≤ r.length) : (Acc.of (readU32 buf) >>= f).bytes ≤ buf.length := by
  apply Acc.bytes_of_bind
  rintro ⟨n, r⟩ e
  have := h n r e
  obtain ⟨-, rfl⟩ := readU32_ok e
  rw [List.length_append]; omega

theorem readU32s_bind_le {β : Type} {n : Nat} {buf : Bytes} {f : List UInt32 × Bytes → Acc β}
    (h : ∀ l r, readU32s n buf = .ok (l, r) → (f (l, r)).bytes ≤ r.length) : (readU32sMem n buf >>= f).bytes ≤ buf.length := by
  cases e : readU32s n buf with
  | err => rw [Acc.bytes_bind_stop (by simp [e])]; exact (readU32s_bytes n buf).2
  | panic => rw [Acc.bytes_bind_stop (by simp [e])]; exact (readU32s_bytes n buf).2
  | ok a =>
    obtain ⟨l, r⟩ := a
    rw [readU32s_bind_bytes e]
    have := h l r e
    obtain ⟨-, rfl⟩ := readU32s_ok e
    rw [List.length_append, be32Elems_length]; omega

/-- Before a complete head and a number of keys have been read, no more is asked for than has been read. -/
theorem mph_bytes_le (magic : UInt8) (r : Bytes)
    (h : magic = 1 → ∀ (t : MphTable KeyObj) (nk : Nat) (rest : Bytes), MphFits32 t → nk < 2 ^ 32 → r ≠ mphHead t ++ be32 nk ++ rest) :
    (newMphTableMem (magic :: r)).bytes ≤ r.length := by
  rw [newMphTableMem]
  split
  · simp
  refine readU32_bind_le fun n0 r1 h1 => readU32s_bind_le fun l0 r2 h2 => readU32_bind_le fun m0 r3 h3 =>
    readU32_bind_le fun n1 r4 h4 => readU32s_bind_le fun l1 r5 h5 => readU32_bind_le fun m1 r6 h6 => ?_
  dsimp only
  split
  · rename_i hm
    apply readU32_bind_le
    intro nk r7 h7
    exfalso
    obtain ⟨b1, e1⟩ := readU32_ok h1
    obtain ⟨b2, e2⟩ := readU32s_ok h2
    obtain ⟨b3, e3⟩ := readU32_ok h3
    obtain ⟨b4, e4⟩ := readU32_ok h4
    obtain ⟨b5, e5⟩ := readU32s_ok h5
    obtain ⟨b6, e6⟩ := readU32_ok h6
    obtain ⟨b7, e7⟩ := readU32_ok h7
    refine h hm ⟨l0, m0, l1, m1, .keys []⟩ nk r7 ⟨by simp only; omega, b3, by simp only; omega, b6⟩ b7 ?_
    rw [e1, e2, e3, e4, e5, e6, e7]
    simp only [mphHead, be32s, b2, b5, List.append_assoc]
    rfl
  · refine readU32_bind_le fun vs r7 h7 => readU32_bind_le fun nh r8 h8 => readU32s_bind_le fun hs r9 h9 => by simp

theorem mphHead_length {K : Type} (t : MphTable K) : (mphHead t).length = 16 + 4 * t.level0.length + 4 * t.level1.length := by
  have : ∀ l : List UInt32, (l.flatMap fun x => be32 x.toNat).length = 4 * l.length := be32Elems_length
  simp only [mphHead, be32s, List.length_append, this]
  simp only [be32, List.length_cons, List.length_nil]
  omega

/-- What is asked for after a complete head and a number of keys. -/
theorem mph_bytes_keys (t : MphTable KeyObj) (h : MphFits32 t) (nk : Nat) (hn : nk < 2 ^ 32) (rest : Bytes) :
    (newMphTableMem (1 :: (mphHead t ++ be32 nk ++ rest))).bytes =
      4 * t.level0.length + 4 * t.level1.length + 16 * nk + (loadKeysMem nk rest).bytes := by
  have e : mphHead t ++ be32 nk ++ rest = be32 t.level0.length ++ (be32Elems t.level0 ++ (be32 t.level0Mask ++ (be32 t.level1.length ++
      (be32Elems t.level1 ++ (be32 t.level1Mask ++ (be32 nk ++ rest)))))) := by
    simp [mphHead, be32s, be32Elems]
  rw [newMphTableMem, if_neg (by simp), e, Acc.of_ok_bind (readU32_be32 _ _)]
  simp only
  rw [Nat.mod_eq_of_lt h.l0, readU32s_bind_bytes (readU32s_elems _ _)]
  simp only
  rw [Acc.of_ok_bind (readU32_be32 _ _)]
  simp only
  rw [Acc.of_ok_bind (readU32_be32 _ _)]
  simp only
  rw [Nat.mod_eq_of_lt h.l1, readU32s_bind_bytes (readU32s_elems _ _)]
  simp only
  rw [Acc.of_ok_bind (readU32_be32 _ _)]
  simp only [if_true]
  rw [Acc.of_ok_bind (readU32_be32 _ _)]
  simp only
  rw [Nat.mod_eq_of_lt hn, Acc.bytes_bind (a := ()) rfl, Acc.bytes_make]
  cases hk : loadKeys nk rest with
  | ok a =>
    rw [Acc.bytes_bind (a := a) (by simp [hk])]
    simp only [Acc.bytes_of]
    omega
  | err => rw [Acc.bytes_bind_stop (by simp [hk])]; omega
  | panic => rw [Acc.bytes_bind_stop (by simp [hk])]; omega

/-! ### Exact amounts -/

theorem scheme_bytes_ok {buf : Bytes} {c : Scheme} {n : Nat} (h : decodeScheme buf = .ok (c, n)) :
    ∃ bs, c.buckets = some bs ∧ (decodeSchemeMem buf).bytes = 24 * bs.length := by
  cases buf with
  | nil => simp [decodeScheme] at h
  | cons b rest =>
    rw [decodeScheme] at h
    obtain ⟨⟨d, n1⟩, h1, h⟩ := Res.bind_eq_ok.mp h
    obtain ⟨⟨t, n2⟩, h2, h⟩ := Res.bind_eq_ok.mp h
    obtain ⟨⟨v, n3⟩, h3, h⟩ := Res.bind_eq_ok.mp h
    simp only at h
    split at h
    · simp at h
    rename_i hv
    obtain ⟨⟨bs, n4⟩, h4, h⟩ := Res.bind_eq_ok.mp h
    cases h
    refine ⟨bs, rfl, ?_⟩
    rw [decodeSchemeMem, Acc.of_ok_bind h1]
    dsimp only
    rw [Acc.of_ok_bind h2]
    dsimp only
    rw [Acc.of_ok_bind h3]
    dsimp only
    rw [if_neg hv, Acc.bytes_bind (a := ()) rfl, Acc.bytes_make, Acc.of_ok_bind h4]
    dsimp only
    rw [Acc.bytes_of, Props.decodeSubKeys_length _ _ _ _ h4]
    omega

theorem key_bytes_exact {buf : Bytes} {m : MappedKey} {n : Nat} (h : newMappedKey buf = .ok (m, n)) :
    (newMappedKeyMem buf).bytes = 24 * m.keys.length := by
  rw [newMappedKey] at h
  obtain ⟨⟨v, len⟩, h1, h⟩ := Res.bind_eq_ok.mp h
  simp only at h
  split at h
  · simp at h
  rename_i hv
  obtain ⟨⟨ks, m'⟩, h2, h⟩ := Res.bind_eq_ok.mp h
  cases h
  rw [newMappedKeyMem, Acc.of_ok_bind h1]
  dsimp only
  rw [if_neg hv, Acc.bytes_bind (a := ()) rfl, Acc.bytes_make, Acc.of_ok_bind h2]
  dsimp only
  rw [Acc.bytes_of, Props.decodeSubKeys_length _ _ _ _ h2]
  omega

theorem count_bytes_ok {buf : Bytes} {bits : UInt8} {isSet : Bool} {pos : Nat} {o : Option Nat} {p : Nat}
    (h : decodeCount buf bits isSet pos = .ok (o, p)) :
    (decodeCountMem buf bits isSet pos).bytes = 16 * o.getD 0 ∧ (isSet = true → o = none) := by
  refine ⟨?_, ?_⟩
  · rw [decodeCountMem, Acc.of_ok_bind h]
    dsimp only
    rw [Acc.bytes_bind (a := ()) rfl, Acc.bytes_make, Acc.bytes_of]
    omega
  · rcases decodeCount_cases buf bits isSet pos with h' | ⟨o', c, rest, -, -, hs, h'⟩
    · rw [h'] at h; simp at h
    · rw [h'] at h
      simp only [Res.ok.injEq, Prod.mk.injEq] at h
      rw [← h.1]; exact hs

theorem std_bytes_ok {buf : Bytes} {v : StdValue} {n : Nat} (h : decodeStd buf = .ok (v, n)) :
    (decodeStdMem buf).bytes = 16 * v.size := by
  rw [decodeStd] at h
  split at h
  · simp at h
  rename_i hl
  obtain ⟨magic, h0, h⟩ := Res.bind_eq_ok.mp h
  obtain ⟨⟨arr, p1⟩, h1, h⟩ := Res.bind_eq_ok.mp h
  obtain ⟨⟨recs, p2⟩, h2, h⟩ := Res.bind_eq_ok.mp h
  simp only at h h2
  split at h
  · simp at h
  rename_i c1
  split at h
  · simp at h
  rename_i c2
  obtain ⟨⟨len, p3⟩, h3, h⟩ := Res.bind_eq_ok.mp h
  obtain ⟨content, h4, h⟩ := Res.bind_eq_ok.mp h
  simp only [Res.ok.injEq, Prod.mk.injEq] at h
  obtain ⟨rfl, -⟩ := h
  obtain ⟨e1, -⟩ := count_bytes_ok h1
  obtain ⟨e2, hs⟩ := count_bytes_ok h2
  rw [decodeStdMem, if_neg hl, Acc.of_ok_bind h0, Acc.bytes_bind (a := (arr, p1)) (by simp [h1]), e1]
  dsimp only
  rw [Acc.bytes_bind (a := (recs, p2)) (by simp [h2]), e2]
  dsimp only
  rw [if_neg c1, if_neg c2, Acc.of_ok_bind h3]
  dsimp only
  rw [Acc.of_ok_bind h4, Acc.bytes_of]
  cases arr with
  | none => simp
  | some k => rw [hs rfl]; simp

theorem recPart_bytes_ok {buf : Bytes} {bit : UInt8} {limit pos : Nat} {v : StdValue} {p : Nat}
    (h : decodeRecPart buf bit limit pos = .ok (v, p)) : (decodeRecPartMem buf bit limit pos).bytes = 16 * v.size := by
  rw [decodeRecPart] at h
  split at h
  · simp at h
  rename_i h0
  split at h
  · rename_i hb
    obtain ⟨⟨d, n⟩, h1, h⟩ := Res.bind_eq_ok.mp h
    simp only at h
    split at h
    · simp at h
    rename_i hl
    cases h
    rw [decodeRecPartMem, if_neg h0, if_pos hb, Acc.bytes_bind (a := (v, n)) (by simp [h1]), std_bytes_ok h1]
    dsimp only
    rw [if_neg hl, Acc.bytes_of, Nat.add_zero]
  · simp at h

theorem record_bytes_ok {buf : Bytes} {d : RecInfo} {n : Nat} (h : decodeRecord buf = .ok (d, n)) :
    (decodeRecordMem buf).bytes = 24 * d.key.keys.length + 16 * d.value.size + 16 * d.scheme.size := by
  rw [decodeRecord] at h
  split at h
  · simp at h
  rename_i h0
  obtain ⟨magic, h1, h⟩ := Res.bind_eq_ok.mp h
  split at h
  · simp at h
  rename_i h2
  obtain ⟨⟨k, kn⟩, h3, h⟩ := Res.bind_eq_ok.mp h
  split at h
  · simp at h
  rename_i h4
  obtain ⟨⟨v, vn⟩, h5, h⟩ := Res.bind_eq_ok.mp h
  obtain ⟨⟨c, cn⟩, h6, h⟩ := Res.bind_eq_ok.mp h
  obtain ⟨t, h7, h⟩ := Res.bind_eq_ok.mp h
  obtain ⟨g, h8, h⟩ := Res.bind_eq_ok.mp h
  obtain ⟨b, h9, h⟩ := Res.bind_eq_ok.mp h
  simp only [Res.ok.injEq, Prod.mk.injEq] at h
  obtain ⟨rfl, -⟩ := h
  rw [decodeRecordMem, if_neg h0, Acc.of_ok_bind h1, if_neg h2, Acc.bytes_bind (a := (k, kn)) (by rw [newMappedKeyMem_res]; exact h3),
    key_bytes_exact h3, if_neg h4, Acc.bytes_bind (a := (v, vn)) (by rw [decodeRecPartMem_res]; exact h5), recPart_bytes_ok h5,
    Acc.bytes_bind (a := (c, cn)) (by rw [decodeRecPartMem_res]; exact h6), recPart_bytes_ok h6,
    Acc.of_ok_bind h7, Acc.of_ok_bind h8, Acc.of_ok_bind h9, Acc.bytes_of]
  dsimp only
  omega

theorem loadKeys_bytes_ok : ∀ (n : Nat) {buf : Bytes} {ks : List KeyObj} {r : Bytes}, loadKeys n buf = .ok (ks, r) →
    (loadKeysMem n buf).bytes = (ks.map fun k => 24 * k.subKeys.length).sum
  | 0, buf, ks, r, h => by rw [loadKeys] at h; cases h; rfl
  | n + 1, buf, ks, r, h => by
    rw [loadKeys] at h
    obtain ⟨⟨m, len⟩, h1, h⟩ := Res.bind_eq_ok.mp h
    simp only at h
    split at h
    · simp at h
    rename_i hl
    obtain ⟨⟨ks', r'⟩, h2, h⟩ := Res.bind_eq_ok.mp h
    cases h
    rw [loadKeysMem, Acc.bytes_bind (a := (m, len)) (by simp [h1]), key_bytes_exact h1]
    dsimp only
    rw [if_neg hl, Acc.bytes_bind (a := (ks', r')) (by simp [h2]), loadKeys_bytes_ok n h2]
    simp [KeyObj.subKeys]

/-! ### Table files -/

theorem ssValue_bytes (data : Bytes) (pos : Nat) : (ssValueMem data pos).bytes ≤ maxValueSlots := by
  rw [ssValueMem]
  refine Acc.bytes_of_bind fun r _ => ?_
  exact Acc.bytes_bind_le (c := 0) (std_bytes r) fun a _ => by simp

theorem ssHeader_bytes (data : Bytes) : (ssHeaderMem data).bytes ≤ 4 * maxValueSlots := by
  rw [ssHeaderMem]
  refine Acc.bytes_of_bind fun a _ => ?_
  dsimp only
  split
  · simp
  refine Acc.bytes_of_bind fun a _ => ?_
  rw [show 4 * maxValueSlots = maxValueSlots + (maxValueSlots + (maxValueSlots + (maxValueSlots + 0))) by omega]
  refine Acc.bytes_bind_le (ssValue_bytes _ _) fun a _ => Acc.bytes_bind_le (ssValue_bytes _ _) fun a _ =>
    Acc.bytes_of_bind fun a _ => Acc.bytes_of_bind fun a _ => Acc.bytes_bind_le (ssValue_bytes _ _) fun a _ =>
    Acc.bytes_bind_le (ssValue_bytes _ _) fun a _ => Acc.bytes_of_bind fun a _ => Acc.bytes_of_bind fun a _ => ?_
  split
  · simp
  · exact Acc.bytes_of_bind fun a _ => by simp

theorem ssIndex_bytes {data : Bytes} {pos : Nat} (h : pos ≤ data.length) :
    (newMphTableMem (data.drop pos)).bytes ≤ (ssIndexMem data pos).bytes ∧
      (ssIndexMem data pos).bytes ≤ (newMphTableMem (data.drop pos)).bytes + 4 * sstableMaxRecords := by
  rw [ssIndexMem, Acc.of_ok_bind (goFrom_ok h)]
  refine ⟨?_, Acc.bytes_bind_le (Nat.le_refl _) fun a _ => Acc.bytes_of_bind fun a _ => ?_⟩
  · cases e : newMphTable (data.drop pos) with
    | ok a => rw [Acc.bytes_bind (a := a) (by simp [e])]; omega
    | err => rw [Acc.bytes_bind_stop (by simp [e])]
    | panic => rw [Acc.bytes_bind_stop (by simp [e])]
  · dsimp only
    split
    · simp
    rename_i hs
    refine Nat.le_trans (Acc.bytes_bind_le (b := a.1 * 4) (c := 0) (by simp) fun _ _ => ?_) (by omega)
    exact Acc.bytes_of_bind fun a _ => Acc.bytes_of_bind fun a _ => by simp

theorem load_bytes_header {data : Bytes} (h : ∀ a, ssHeader data ≠ .ok a) : (loadSSTableMem data).bytes ≤ 4 * maxValueSlots := by
  rw [loadSSTableMem, Acc.bytes_bind_stop (by simpa using h)]
  exact ssHeader_bytes data

theorem load_bytes {data : Bytes} {hd : SSHeader} {pos : Nat} (h : ssHeader data = .ok (hd, pos)) :
    (newMphTableMem (data.drop pos)).bytes ≤ (loadSSTableMem data).bytes ∧
      (loadSSTableMem data).bytes ≤ 2 ^ 23 + (newMphTableMem (data.drop pos)).bytes := by
  obtain ⟨hw, -, t⟩ := (ssHeader_ok_iff _ _ _).mp h
  obtain ⟨h1, h2⟩ := ssIndex_bytes (data := data) (pos := pos) t.2.2
  have h3 := ssHeader_bytes data
  have hmax : 4 * maxValueSlots + 4 * sstableMaxRecords ≤ 2 ^ 23 := by decide +kernel
  have e : (loadSSTableMem data).bytes = (ssHeaderMem data).bytes + (ssIndexMem data pos).bytes := by
    rw [loadSSTableMem, Acc.bytes_bind (a := (hd, pos)) (by simp [h])]
    dsimp only
    cases e : ssIndex data pos with
    | ok a =>
      obtain ⟨a, b, c⟩ := a
      rw [Acc.bytes_bind (a := (a, b, c)) (by simp [e])]
      simp
    | err => rw [Acc.bytes_bind_stop (by simp [e])]
    | panic => rw [Acc.bytes_bind_stop (by simp [e])]
  omega

namespace Props

set_option maxRecDepth 100000

open Spec

/-! ### C161 Decoding keys, schemes, values and records -/

/-- C161 for keys: the slices requested take at most 24 bytes per byte of input, whatever the input; a decoded key has requested
exactly its sub keys. -/
theorem C161_key (buf : Bytes) (hgo : buf.length < 2 ^ 63) :
    (newMappedKeyMem buf).res = newMappedKey buf ∧ (newMappedKeyMem buf).bytes ≤ 24 * buf.length ∧
      ∀ m n, newMappedKey buf = .ok (m, n) → (newMappedKeyMem buf).bytes = 24 * m.keys.length :=
  ⟨newMappedKeyMem_res buf, key_bytes hgo, fun _ _ h => key_bytes_exact h⟩

example := C161_key [2, 1, 97, 1, 98] (by decide)

/-- C161 for schemes. -/
theorem C161_scheme (buf : Bytes) (hgo : buf.length < 2 ^ 63) :
    (decodeSchemeMem buf).res = decodeScheme buf ∧ (decodeSchemeMem buf).bytes ≤ 24 * buf.length ∧
      ∀ c n, decodeScheme buf = .ok (c, n) → ∃ bs, c.buckets = some bs ∧ (decodeSchemeMem buf).bytes = 24 * bs.length :=
  ⟨decodeSchemeMem_res buf, scheme_bytes hgo, fun _ _ h => scheme_bytes_ok h⟩

example := C161_scheme [0, 1, 97, 1, 98, 1, 0] (by decide)

/-- C161 for values: at most a megabyte. -/
theorem C161_value (buf : Bytes) :
    (decodeStdMem buf).res = decodeStd buf ∧ (decodeStdMem buf).bytes < 2 ^ 20 ∧
      ∀ v n, decodeStd buf = .ok (v, n) → (decodeStdMem buf).bytes = 16 * v.size :=
  ⟨decodeStdMem_res buf, Nat.lt_of_le_of_lt (std_bytes buf) (by decide +kernel), fun _ _ h => std_bytes_ok h⟩

/-- C161 for records. -/
theorem C161_record (buf : Bytes) (hgo : buf.length < 2 ^ 63) :
    (decodeRecordMem buf).res = decodeRecord buf ∧ (decodeRecordMem buf).bytes < 24 * buf.length + 2 ^ 21 ∧
      ∀ d n, decodeRecord buf = .ok (d, n) →
        (decodeRecordMem buf).bytes = 24 * d.key.keys.length + 16 * d.value.size + 16 * d.scheme.size :=
  ⟨decodeRecordMem_res buf, Nat.lt_of_le_of_lt (record_bytes hgo) (by have : 2 * maxValueSlots < 2 ^ 21 := by decide +kernel
                                                                      omega), fun _ _ h => record_bytes_ok h⟩

/-- A key with three empty sub keys; a count without sub keys; a count that `make` rejects; a value that announces 65535 elements
in three bytes. -/
example : (newMappedKeyMem [3, 0, 0, 0]).bytes = 72 ∧ (newMappedKeyMem [3, 0]).bytes = 0 ∧
    (newMappedKeyMem [255, 255, 255, 255, 255, 255, 255, 255, 255, 1]).bytes = 0 ∧
    newMappedKey [255, 255, 255, 255, 255, 255, 255, 255, 255, 1] = .panic ∧
    (newMappedKeyMem [3, 7, 0, 0]).bytes = 72 ∧ newMappedKey [3, 7, 0, 0] = .err ∧
    (decodeStdMem [128, 255, 255]).bytes = 1048560 := by decide +kernel

/-- A record whose value and scheme announce 65535 elements each. -/
example : (decodeRecordMem [0x70, 0, 0x80, 255, 255, 0x20, 255, 255]).bytes = 2 * 1048560 := by decide +kernel

example : (decodeSchemeMem [0, 0, 0, 2, 0, 0]).bytes = 48 := by decide +kernel

/-! ### C162 Loading lookup tables and table files -/

/-- The claim of C162 for lookup tables: at most a megabyte for every byte of input. -/
def TableMemoryBounded : Prop := ∀ buf : Bytes, buf.length < 2 ^ 63 → (newMphTableMem buf).bytes ≤ 2 ^ 20 * (buf.length + 1)

/-- The claim of C162 for table files: at most a megabyte for every byte of the file, and a constant. -/
def FileMemoryBounded : Prop := ∀ data : Bytes, data.length < 2 ^ 63 → (loadSSTableMem data).bytes ≤ 2 ^ 23 + 2 ^ 20 * data.length

/-- A lookup table of 21 bytes that announces 2^32 - 1 keys. -/
def hugeTable : Bytes := [1, 0, 0, 0, 0, 0, 0, 0, 0, 0, 0, 0, 0, 0, 0, 0, 0, 255, 255, 255, 255]

theorem hugeTable_eq : hugeTable = 1 :: (mphHead (⟨[], 0, [], 0, .keys []⟩ : MphTable KeyObj) ++ be32 (2 ^ 32 - 1) ++ []) := by
  decide +kernel

theorem hugeTable_bytes : 2 ^ 35 ≤ (newMphTableMem hugeTable).bytes := by
  rw [hugeTable_eq, mph_bytes_keys _ ⟨by decide +kernel, by decide +kernel, by decide +kernel, by decide +kernel⟩ _ (by decide +kernel)]
  omega

/-- C162 is false for lookup tables: 21 bytes request 64 GiB. -/
theorem C162_refuted : ¬ TableMemoryBounded := by
  intro h
  have h1 := h hugeTable (by decide +kernel)
  have h2 := Nat.le_trans hugeTable_bytes h1
  revert h2
  decide +kernel

/-- C162 is false for table files. -/
theorem C162_file_refuted : ¬ FileMemoryBounded := by
  intro h
  have h1 := h (sampleTable.take 123 ++ hugeTable) (by decide +kernel)
  have hh : ∃ hd, ssHeader (sampleTable.take 123 ++ hugeTable) = .ok (hd, 123) := by
    have : (match ssHeader (sampleTable.take 123 ++ hugeTable) with | .ok (_, p) => p == 123 | _ => false) = true := by decide +kernel
    cases e : ssHeader (sampleTable.take 123 ++ hugeTable) with
    | ok a =>
      rw [e] at this
      obtain ⟨hd, p⟩ := a
      exact ⟨hd, by rw [show p = 123 by simpa using this]⟩
    | err => rw [e] at this; simp at this
    | panic => rw [e] at this; simp at this
  obtain ⟨hd, hh⟩ := hh
  obtain ⟨h2, -⟩ := load_bytes hh
  rw [show (sampleTable.take 123 ++ hugeTable).drop 123 = hugeTable by decide +kernel] at h2
  have h3 := Nat.le_trans hugeTable_bytes (Nat.le_trans h2 h1)
  revert h3
  decide +kernel

/-- C162, exact, for lookup tables: loading requests at most as many bytes as there are, unless the input begins like a table verified
by key and announces `nk` keys; then it requests 16 bytes for every announced key, whether or not any bytes follow, and at most 24
more for every byte of input. -/
theorem C162_table_partial (buf : Bytes) (hgo : buf.length < 2 ^ 63) : (newMphTableMem buf).res = newMphTable buf ∧
    ((newMphTableMem buf).bytes ≤ buf.length ∨ ∃ (t : MphTable KeyObj) (nk : Nat) (rest : Bytes), MphFits32 t ∧ nk < 2 ^ 32 ∧
      buf = 1 :: (mphHead t ++ be32 nk ++ rest) ∧ 16 * nk ≤ (newMphTableMem buf).bytes ∧
      (newMphTableMem buf).bytes ≤ 16 * nk + 24 * buf.length) := by
  refine ⟨newMphTableMem_res buf, ?_⟩
  cases buf with
  | nil => left; simp [newMphTableMem]
  | cons magic r =>
    by_cases hf : magic = 1 ∧ ∃ (t : MphTable KeyObj) (nk : Nat) (rest : Bytes), MphFits32 t ∧ nk < 2 ^ 32 ∧ r = mphHead t ++ be32 nk ++ rest
    · obtain ⟨rfl, t, nk, rest, h1, h2, rfl⟩ := hf
      right
      refine ⟨t, nk, rest, h1, h2, rfl, ?_⟩
      rw [mph_bytes_keys t h1 nk h2 rest]
      simp only [List.length_cons, List.length_append] at hgo ⊢
      have := loadKeys_bytes nk (buf := rest) (by omega)
      have hl2 := mphHead_length t
      omega
    · left
      refine Nat.le_trans (mph_bytes_le magic r fun hm t nk rest h1 h2 h3 => hf ⟨hm, t, nk, rest, h1, h2, h3⟩) (by simp)

example := C162_table_partial [1, 0, 0, 0, 1, 7] (by decide)

/-- What the slices of a table take. -/
def tableSlots (t : MphTable KeyObj) : Nat :=
  4 * t.level0.length + 4 * t.level1.length + match t.verify with
    | .keys ks => 16 * ks.length + (ks.map fun k => 24 * k.subKeys.length).sum
    | .hashes _ hs => 4 * hs.length

/-- C162 for tables that load: exactly the slices of the table have been requested. -/
theorem C162_loaded_partial (buf : Bytes) (t : MphTable KeyObj) (n : Nat) (h : newMphTable buf = .ok (t, n)) :
    (newMphTableMem buf).bytes = tableSlots t := by
  cases buf with
  | nil => simp [newMphTable] at h
  | cons magic r =>
    rw [newMphTable] at h
    split at h
    · simp at h
    rename_i hm
    obtain ⟨⟨n0, r1⟩, h1, h⟩ := Res.bind_eq_ok.mp h
    obtain ⟨⟨l0, r2⟩, h2, h⟩ := Res.bind_eq_ok.mp h
    obtain ⟨⟨m0, r3⟩, h3, h⟩ := Res.bind_eq_ok.mp h
    obtain ⟨⟨n1, r4⟩, h4, h⟩ := Res.bind_eq_ok.mp h
    obtain ⟨⟨l1, r5⟩, h5, h⟩ := Res.bind_eq_ok.mp h
    obtain ⟨⟨m1, r6⟩, h6, h⟩ := Res.bind_eq_ok.mp h
    dsimp only at h h1 h2 h3 h4 h5 h6
    rw [newMphTableMem, if_neg hm, Acc.of_ok_bind h1]
    dsimp only
    rw [readU32s_bind_bytes h2]
    dsimp only
    rw [Acc.of_ok_bind h3]
    dsimp only
    rw [Acc.of_ok_bind h4]
    dsimp only
    rw [readU32s_bind_bytes h5]
    dsimp only
    rw [Acc.of_ok_bind h6]
    dsimp only
    split at h
    · rename_i hm1
      obtain ⟨⟨nk, r7⟩, h7, h⟩ := Res.bind_eq_ok.mp h
      obtain ⟨⟨ks, r8⟩, h8, h⟩ := Res.bind_eq_ok.mp h
      simp only [Res.ok.injEq, Prod.mk.injEq] at h
      obtain ⟨rfl, -⟩ := h
      dsimp only at h8
      have hlen : ∀ (n : Nat) {b b' : Bytes} {l : List KeyObj}, loadKeys n b = .ok (l, b') → l.length = n := by
        intro n
        induction n with
        | zero => intro b b' l e; rw [loadKeys] at e; cases e; rfl
        | succ n ih =>
          intro b b' l e
          rw [loadKeys] at e
          obtain ⟨⟨m, len⟩, -, e⟩ := Res.bind_eq_ok.mp e
          dsimp only at e
          split at e
          · simp at e
          obtain ⟨⟨l', b2⟩, e2, e⟩ := Res.bind_eq_ok.mp e
          cases e
          rw [List.length_cons, ih e2]
      rw [if_pos hm1, Acc.of_ok_bind h7]
      dsimp only
      rw [Acc.bytes_bind (a := ()) rfl, Acc.bytes_make, Acc.bytes_bind (a := (ks, r8)) (by rw [loadKeysMem_res]; exact h8),
        loadKeys_bytes_ok nk h8, tableSlots]
      dsimp only
      rw [hlen nk h8, Acc.bytes_of]
      omega
    · rename_i hm1
      obtain ⟨⟨vs, r7⟩, h7, h⟩ := Res.bind_eq_ok.mp h
      obtain ⟨⟨nh, r8⟩, h8, h⟩ := Res.bind_eq_ok.mp h
      obtain ⟨⟨hs, r9⟩, h9, h⟩ := Res.bind_eq_ok.mp h
      simp only [Res.ok.injEq, Prod.mk.injEq] at h
      obtain ⟨rfl, -⟩ := h
      rw [if_neg hm1, Acc.of_ok_bind h7]
      dsimp only
      rw [Acc.of_ok_bind h8]
      dsimp only
      rw [readU32s_bind_bytes h9, tableSlots, Acc.bytes_of]
      dsimp only
      omega

/-- A table verified by hash, and one verified by two keys. -/
example : (newMphTableMem [0, 0, 0, 0, 1, 0, 0, 0, 1, 0, 0, 0, 0, 0, 0, 0, 2, 0, 0, 0, 1, 0, 0, 0, 0, 0, 0, 0, 1, 0, 0, 0, 9,
      0, 0, 0, 2, 1, 1, 1, 1, 2, 2, 2, 2]).bytes = 20 ∧
    (newMphTableMem [1, 0, 0, 0, 1, 0, 0, 0, 1, 0, 0, 0, 0, 0, 0, 0, 2, 0, 0, 0, 1, 0, 0, 0, 0, 0, 0, 0, 1, 0, 0, 0, 2,
      1, 1, 1, 1, 1, 2]).bytes = 92 ∧
    newMphTable [1, 0, 0, 0, 1, 0, 0, 0, 1, 0, 0, 0, 0, 0, 0, 0, 2, 0, 0, 0, 1, 0, 0, 0, 0, 0, 0, 0, 1, 0, 0, 0, 2,
      1, 1, 1, 1, 1, 2] = .ok (⟨[1], 0, [1, 0], 1, .keys [.mapped ⟨[some [1]], [1, 1, 1, 1, 1, 2]⟩, .mapped ⟨[some [2]], [1, 1, 2]⟩]⟩, 39) := by
  decide +kernel

/-- C162 for tables verified by hash: at most as many bytes as there are. -/
theorem C162_hash_partial (buf : Bytes) (h : buf.head? ≠ some 1) : (newMphTableMem buf).bytes ≤ buf.length := by
  cases buf with
  | nil => simp [newMphTableMem]
  | cons magic r =>
    refine Nat.le_trans (mph_bytes_le magic r fun hm => ?_) (by simp)
    rw [hm] at h
    simp at h

example := C162_hash_partial [0, 0, 0, 0, 1, 7] (by decide)

/-- C162 for the library's own tables: loading what `Encode` wrote requests at most 40 bytes for every byte. -/
theorem C162_own_partial (t : MphTable KeyObj) (hf : MphFits32 t) (hk : ∀ ks, t.verify = .keys ks → ks.length < 2 ^ 32 ∧ ∀ k ∈ ks, SoundKey k)
    (w : Bytes) (hw : t.encode = .ok w) (hgo : w.length < 2 ^ 63) : (newMphTableMem w).bytes ≤ 40 * w.length := by
  rw [encode_eq] at hw
  cases hv : t.verify with
  | keys ks =>
    rw [hv] at hw
    obtain ⟨bs, h1, h2⟩ := Res.bind_eq_ok.mp hw
    obtain ⟨hl, hs⟩ := hk ks hv
    have hb := soundKeys_bufs hs h1
    have hlen : ks.length ≤ bs.length := by
      rw [hb]
      clear hb hs hw h1 h2 hv hk hl
      induction ks with
      | nil => simp
      | cons k ks ih =>
        have : (encodeUvarint64 k.subKeys.length).length ≠ 0 := by
          unfold encodeUvarint64
          rw [putUvarint, putUvarintAux]
          split <;> simp
        rw [List.flatMap_cons, List.length_append, keyBytes, List.length_append, List.length_cons]
        omega
    simp only [Res.ok.injEq] at h2
    obtain ⟨-, h | ⟨t', nk, rest, -, hnk, e, -, h⟩⟩ := C162_table_partial w hgo
    · omega
    · subst h2
      rw [List.cons_append, List.cons_append] at h hgo ⊢
      rw [mph_bytes_keys t hf _ hl] at h ⊢
      simp only [List.length_cons, List.length_append] at hgo ⊢
      have := loadKeys_bytes ks.length (buf := bs) (by omega)
      have hl2 := mphHead_length t
      omega
  | hashes seed hs =>
    rw [hv] at hw
    simp only [Res.ok.injEq] at hw
    subst hw
    exact Nat.le_trans (C162_hash_partial _ (by simp)) (by omega)

/-- Keys without bytes: a table that ends after the announced number of keys loads, with that many empty keys. -/
theorem C162_phantom_partial (t : MphTable KeyObj) (hf : MphFits32 t) (nk : Nat) (hn : nk < 2 ^ 32) :
    newMphTable (1 :: (mphHead t ++ be32 nk)) = .ok (⟨t.level0, t.level0Mask, t.level1, t.level1Mask,
      .keys (List.replicate nk (.mapped ⟨[], []⟩))⟩, (1 :: (mphHead t ++ be32 nk)).length) := by
  have hk : ∀ n, loadKeys n [] = .ok (List.replicate n (.mapped ⟨[], []⟩), []) := by
    intro n
    induction n with
    | zero => rfl
    | succ n ih =>
      have e : newMappedKey [] = .ok (⟨[], []⟩, 0) := by decide +kernel
      rw [loadKeys, e, Res.bind_ok]
      simp only [List.length_nil, Nat.lt_irrefl, if_false, List.drop_nil, ih, Res.bind_ok, List.replicate_succ]
  rw [← List.cons_append, load_head t hf 1 (Or.inr rfl), loadTail, if_pos rfl]
  have e : readU32 (be32 nk) = .ok (nk, []) := by
    have := readU32_be32 nk []
    rw [List.append_nil, Nat.mod_eq_of_lt hn] at this
    exact this
  rw [e, Res.bind_ok]
  dsimp only
  rw [hk, Res.bind_ok]
  simp

example := C162_phantom_partial ⟨[1], 0, [1, 0], 1, .keys []⟩
  ⟨by decide +kernel, by decide +kernel, by decide +kernel, by decide +kernel⟩ 5 (by decide)

/-- C162 for table files: a file whose lookup table is verified by hash requests at most as many bytes as it has and 8 MiB. -/
theorem C162_file_partial (data : Bytes) (h : ∀ hd pos, ssHeader data = .ok (hd, pos) → data[pos]? ≠ some 1) :
    (loadSSTableMem data).res = loadSSTable data ∧ (loadSSTableMem data).bytes ≤ 2 ^ 23 + data.length := by
  refine ⟨loadSSTableMem_res data, ?_⟩
  by_cases hh : ∃ hd pos, ssHeader data = .ok (hd, pos)
  · obtain ⟨hd, pos, hh⟩ := hh
    have h1 := C162_hash_partial (data.drop pos) (by rw [List.head?_drop]; exact h hd pos hh)
    have := (load_bytes hh).2
    rw [List.length_drop] at h1
    omega
  · have := load_bytes_header (data := data) fun a ha => hh ⟨a.1, a.2, ha⟩
    have : 4 * maxValueSlots ≤ 2 ^ 23 := by decide +kernel
    omega

/-- C162 for table files with a table verified by key, exact up to the announced number of keys. -/
theorem C162_file_keys_partial (data : Bytes) (hgo : data.length < 2 ^ 63) (hd : SSHeader) (pos : Nat) (hh : ssHeader data = .ok (hd, pos))
    (t : MphTable KeyObj) (hf : MphFits32 t) (nk : Nat) (hn : nk < 2 ^ 32) (rest : Bytes)
    (e : data.drop pos = 1 :: (mphHead t ++ be32 nk ++ rest)) :
    16 * nk ≤ (loadSSTableMem data).bytes ∧ (loadSSTableMem data).bytes ≤ 2 ^ 23 + 16 * nk + 24 * data.length := by
  obtain ⟨h1, h2⟩ := load_bytes hh
  have hl := congrArg List.length e
  rw [e, mph_bytes_keys t hf nk hn rest] at h1 h2
  simp only [List.length_cons, List.length_append, List.length_drop] at hl
  have := loadKeys_bytes nk (buf := rest) (by omega)
  have hl2 := mphHead_length t
  omega

/-- The sample file: its lookup table is verified by hash. -/
theorem sample_by_hash : (loadSSTableMem sampleTable).bytes = 0 ∧ (∀ hd pos, ssHeader sampleTable = .ok (hd, pos) → sampleTable[pos]? ≠ some 1) := by
  refine ⟨by decide +kernel, fun hd pos h => ?_⟩
  have : (match ssHeader sampleTable with | .ok (_, p) => p == 123 | _ => false) = true := by decide +kernel
  rw [h] at this
  rw [show pos = 123 by simpa using this]
  decide +kernel

/-- A table verified by two keys, written by the library. -/
example : ∃ t : MphTable KeyObj, MphFits32 t ∧ (∀ ks, t.verify = .keys ks → ks.length < 2 ^ 32 ∧ ∀ k ∈ ks, SoundKey k) ∧
    ∃ w, t.encode = .ok w ∧ w.length = 39 ∧ (newMphTableMem w).bytes = 92 := by
  refine ⟨⟨[1], 0, [1, 0], 1, .keys [.key (newSimpleKey (some [1])), .key (newSimpleKey (some [2]))]⟩,
    ⟨by decide +kernel, by decide +kernel, by decide +kernel, by decide +kernel⟩, ?_,
    [1, 0, 0, 0, 1, 0, 0, 0, 1, 0, 0, 0, 0, 0, 0, 0, 2, 0, 0, 0, 1, 0, 0, 0, 0, 0, 0, 0, 1, 0, 0, 0, 2, 1, 1, 1, 1, 1, 2],
    by decide +kernel, by decide +kernel, by decide +kernel⟩
  rintro ks ⟨⟩
  refine ⟨by decide +kernel, fun k hk => ?_⟩
  simp only [List.mem_cons, List.not_mem_nil, or_false] at hk
  rcases hk with rfl | rfl <;> exact .fresh _ rfl (by simp [newSimpleKey])

/-- Three keys announced, none present. -/
example : newMphTable [1, 0, 0, 0, 0, 0, 0, 0, 0, 0, 0, 0, 0, 0, 0, 0, 0, 0, 0, 0, 3] =
    .ok (⟨[], 0, [], 0, .keys [.mapped ⟨[], []⟩, .mapped ⟨[], []⟩, .mapped ⟨[], []⟩]⟩, 21) := by decide +kernel

example := C161_value [128, 255, 255]

/-- A table verified by two keys. -/
example := C162_own_partial ⟨[1], 0, [1, 0], 1, .keys [.key (newSimpleKey (some [1])), .key (newSimpleKey (some [2]))]⟩
  ⟨by decide +kernel, by decide +kernel, by decide +kernel, by decide +kernel⟩
  (by
    rintro ks ⟨⟩
    refine ⟨by decide +kernel, fun k hk => ?_⟩
    simp only [List.mem_cons, List.not_mem_nil, or_false] at hk
    rcases hk with rfl | rfl <;> exact .fresh _ rfl (by simp [newSimpleKey]))
  [1, 0, 0, 0, 1, 0, 0, 0, 1, 0, 0, 0, 0, 0, 0, 0, 2, 0, 0, 0, 1, 0, 0, 0, 0, 0, 0, 0, 1, 0, 0, 0, 2, 1, 1, 1, 1, 1, 2]
  (by decide +kernel) (by decide)

example := C162_file_partial sampleTable sample_by_hash.2

end Props

end Poodle
