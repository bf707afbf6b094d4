import Verif.Lemmas.SSTable
import Verif.Props.MphCodec

/-
Properties C94-C97: loading table files (/repo/src/pdb/sstable.go).
-/

namespace Poodle.Props

set_option maxRecDepth 100000

open Spec

/-- A table file with 98 bytes of header and no records; its domain is 59 bytes long. -/
def sampleTable : Bytes :=
  [0, 0, 0, 1, 128, 7, 7, 7, 7, 7, 7, 7, 7, 7, 7, 7, 7, 7, 7, 7, 7, 7, 7, 7, 7, 7, 7, 7, 7, 7, 7, 7, 7, 7, 7, 7, 7, 1,
   59, 97, 0, 1, 0, 0, 0, 5, 1, 0, 0, 0, 6, 0, 0, 0, 0, 0, 3, 0, 0, 0, 2, 5, 173, 170, 164, 0, 0, 0, 0, 0, 0, 0, 0, 0,
   0, 0, 0, 0, 0, 0, 0, 0, 0, 0, 0, 0, 0, 0, 0, 0, 0, 0, 0, 0, 11, 84, 197, 38, 0, 1, 0, 0, 0, 5, 1, 0, 0, 0, 6, 0, 0,
   0, 0, 0, 3, 0, 0, 0, 2, 209, 221, 26, 134, 0, 0, 0, 0, 0, 0, 0, 0, 0, 0, 0, 0, 0, 0, 0, 0, 0, 0, 0, 0, 0, 0, 0, 0, 0,
   0, 0, 0, 0, 11, 84, 197, 38]

/-! ### C94 Loading accepts exactly the well-formed files -/

theorem isSSTable_takeAt {data : Bytes} {h : SSHeader} {mph : MphTable KeyObj} {offsets : List UInt32} {hw mw records : Bytes}
    (H : IsSSTable data h mph offsets hw mw records) : TakeAt data 0 (hw ++ u32 (crc32 hw).toNat) (hw.length + 4) ∧
    TakeAt data (hw.length + 4) ((mw ++ u32 offsets.length ++ offsets.flatMap (fun x => u32 x.toNat)) ++
        u32 (crc32 (mw ++ u32 offsets.length ++ offsets.flatMap (fun x => u32 x.toNat))).toNat) (data.length - records.length) := by
  have hb := H.bytes
  have hl := congrArg List.length hb
  simp only [List.length_append, u32_length] at hl
  constructor
  · refine takeAt_of (pre := []) (post := mw ++ u32 offsets.length ++ offsets.flatMap (fun x => u32 x.toNat) ++
      u32 (crc32 (mw ++ u32 offsets.length ++ offsets.flatMap (fun x => u32 x.toNat))).toNat ++ records)
      (by rw [hb]; simp only [List.append_assoc, List.nil_append]) _ _ rfl (by simp [u32_length])
  · refine takeAt_of (pre := hw ++ u32 (crc32 hw).toNat) (post := records) ?_ _ _ ?_ ?_
    · rw [hb]; simp only [List.append_assoc]
    · simp [u32_length]
    · simp only [List.length_append, u32_length]; omega

theorem load_of_layout {data : Bytes} {h : SSHeader} {mph : MphTable KeyObj} {offsets : List UInt32} {hw mw records : Bytes}
    (H : IsSSTable data h mph offsets hw mw records) :
    loadSSTable data = .ok ⟨h, mph, offsets, (data.length - records.length) % 2 ^ 32⟩ := by
  obtain ⟨t1, t2⟩ := isSSTable_takeAt H
  rw [loadSSTable, (ssHeader_ok_iff _ _ _).mpr ⟨hw, H.header, t1⟩, Res.bind_ok]
  simp only
  rw [(ssIndex_ok_iff _ _ t1.2.2 _ _ _).mpr ⟨mw, H.lookup, H.few, t2⟩, Res.bind_ok]

theorem layout_of_load {data : Bytes} {t : SSTable} (h : loadSSTable data = .ok t) : ∃ hw mw records,
    IsSSTable data t.header t.mph t.offsets hw mw records ∧ t.recordStart = (data.length - records.length) % 2 ^ 32 := by
  rw [loadSSTable] at h
  obtain ⟨⟨hd, p⟩, h1, h⟩ := Res.bind_eq_ok.mp h
  obtain ⟨⟨mph, offsets, q⟩, h2, h⟩ := Res.bind_eq_ok.mp h
  obtain ⟨hw, s1, t1⟩ := (ssHeader_ok_iff _ _ _).mp h1
  obtain ⟨mw, s2, s3, t2⟩ := (ssIndex_ok_iff _ _ t1.2.2 _ _ _).mp h2
  simp only [Res.ok.injEq] at h
  subst h
  have hp : p = hw.length + 4 := by have := t1.2.1; simp only [List.length_append, u32_length] at this; omega
  have ht := takeAt_append.mpr ⟨_, t1, t2⟩
  refine ⟨hw, mw, data.drop q, ⟨s1, s3, by rw [← hp]; exact s2, ?_⟩, ?_⟩
  · have := ht.1
    rw [List.drop_zero] at this
    conv_lhs => rw [this]
    simp only [List.append_assoc]
  · have := t2.2.2
    rw [List.length_drop]
    simp only
    congr 1
    omega

/-- C94: a file loads exactly if it has the specified layout with matching checksums, and then the attributes, the lookup table and
the offsets are those in the file, and records start right after the second checksum. -/
theorem C94_loads_iff (data : Bytes) (t : SSTable) : loadSSTable data = .ok t ↔ ∃ hw mw records,
    IsSSTable data t.header t.mph t.offsets hw mw records ∧ t.recordStart = (data.length - records.length) % 2 ^ 32 := by
  refine ⟨layout_of_load, ?_⟩
  rintro ⟨hw, mw, records, H, hs⟩
  rw [load_of_layout H, ← hs]

theorem isValue_content_iff {v : StdValue} (h : IsValue v) (c : Bytes) : v.value = some c ↔ IsStdWire v.buf .prim 0 c := by
  have h1 := decodeStd_of_wire (rest := []) h
  rw [StdValue.value]
  constructor
  · intro h2
    split at h2
    · rename_i hk
      simp only [Option.some.injEq] at h2
      subst h2
      obtain ⟨buf, kind, size, content⟩ := v
      simp only at hk
      subst hk
      rw [IsValue] at h
      simp only at h ⊢
      cases h with
      | prim m len l content h6 h4 h12 hl hc => exact .prim m len l _ h6 h4 h12 hl hc
    · simp at h2
  · intro h2
    rw [decodeStd_of_wire (rest := []) h2] at h1
    simp only [Res.ok.injEq, Prod.mk.injEq, StdValue.mk.injEq, and_true, true_and] at h1
    rw [if_pos h1.1.symm, h1.2.2]

/-- C94: the names reported by a loaded table are exactly the contents of the primitive values in the file (nil if the value in the
file is not a primitive); the version is that of the file. -/
theorem C94_names (data : Bytes) (t : SSTable) (h : loadSSTable data = .ok t) (c : Bytes) :
    t.version = t.header.version ∧ (t.domain = some c ↔ IsStdWire t.header.domain.buf .prim 0 c) ∧
    (t.table = some c ↔ IsStdWire t.header.table.buf .prim 0 c) := by
  obtain ⟨hw, mw, records, H, -⟩ := layout_of_load h
  exact ⟨H.header.version.symm, isValue_content_iff H.header.domain c, isValue_content_iff H.header.table c⟩

/-- Holds of the table, if loading succeeds. -/
def loadsWith (data : Bytes) (p : SSTable → Bool) : Bool :=
  match loadSSTable data with
  | .ok t => p t
  | _ => false

example : loadsWith sampleTable (fun t => t.header.level = 3 ∧ t.header.count = 2 ∧ t.header.startTime = .ledger 5 ∧
    t.header.endTime = .ledger 6 ∧ t.recordStart = 156 ∧ t.table = some [] ∧ t.domain = some ((sampleTable.drop 39).take 59)) = true := by
  decide +kernel

/-! ### C95 Loading never crashes -/

/-- The claim of C95. -/
def LoadNoPanic : Prop := ∀ data, loadSSTable data ≠ .panic

/-- C95, exactly: loading panics on a file consisting of the version only, on a file with a good header whose lookup table makes
NewMPHTable panic, and on one whose good header and lookup table are followed by fewer offsets than announced. -/
theorem C95_panics_iff_partial (data : Bytes) : loadSSTable data = .panic ↔ data = [0, 0, 0, 1] ∨
    ∃ hw h rest, IsSSHeader hw h ∧ data = hw ++ u32 (crc32 hw).toNat ++ rest ∧
      (newMphTable rest = .panic ∨ ∃ mph mw size tail, newMphTable rest = .ok (mph, mw.length) ∧
        rest = mw ++ u32 size ++ tail ∧ size ≤ 2 ^ 20 ∧ tail.length < 4 * size) := by
  rw [loadSSTable, bind_eq_panic, ssHeader_panic_iff]
  refine or_congr Iff.rfl ⟨?_, ?_⟩
  · rintro ⟨⟨h, p⟩, h1, h2⟩
    obtain ⟨hw, s1, t1⟩ := (ssHeader_ok_iff _ _ _).mp h1
    have h3 : ssIndex data p = .panic := by
      obtain h2 | ⟨a, -, h2⟩ := bind_eq_panic.mp h2
      · exact h2
      · simp at h2
    exact ⟨hw, h, data.drop p, s1, t1.1, (ssIndex_panic_iff _ _ t1.2.2).mp h3⟩
  · rintro ⟨hw, h, rest, s1, hb, h2⟩
    have t1 : TakeAt data 0 (hw ++ u32 (crc32 hw).toNat) (hw.length + 4) :=
      takeAt_of (pre := []) (post := rest) hb _ _ rfl (by simp [u32_length])
    have hd : data.drop (hw.length + 4) = rest := by
      rw [hb]; exact List.drop_left' (by rw [List.length_append, u32_length])
    refine ⟨(h, hw.length + 4), (ssHeader_ok_iff _ _ _).mpr ⟨hw, s1, t1⟩, bind_eq_panic.mpr (Or.inl ?_)⟩
    rw [ssIndex_panic_iff _ _ t1.2.2, hd]
    exact h2

/-- C95 is false. -/
theorem C95_refuted : ¬ LoadNoPanic := by
  intro h
  exact h [0, 0, 0, 1] ((C95_panics_iff_partial _).mpr (Or.inl rfl))

/-- The sample file cut after announcing one offset instead of none. -/
example : loadSSTable (sampleTable.take 148 ++ [0, 0, 0, 1]) = .panic ∧ loadSSTable (sampleTable.take 148) = .err := by
  constructor
  · have : ∀ x : Res SSTable, (match x with | .panic => true | _ => false) = true → x = .panic := by
      intro x hx; cases x <;> simp_all
    exact this _ (by decide +kernel)
  · have : ∀ x : Res SSTable, (match x with | .err => true | _ => false) = true → x = .err := by
      intro x hx; cases x <;> simp_all
    exact this _ (by decide +kernel)

/-! ### C96 Corruption of the header and of the lookup table -/

/-- The claim of C96: after changing a byte before the records, the file does not load. -/
def LoadDetectsCorruption : Prop := ∀ (pre post : Bytes) (a b : UInt8) (t : SSTable), loadSSTable (pre ++ a :: post) = .ok t →
  pre.length < t.recordStart → a ≠ b → ∀ t', loadSSTable (pre ++ b :: post) ≠ .ok t'

/-- C96 is false: if the byte is the length of the domain, the file may load with another layout. -/
theorem C96_refuted : ¬ LoadDetectsCorruption := by
  intro h
  have h1 : loadsWith (sampleTable.take 38 ++ 59 :: sampleTable.drop 39) (fun t => decide (38 < t.recordStart)) = true := by
    decide +kernel
  have h2 : loadsWith (sampleTable.take 38 ++ 1 :: sampleTable.drop 39) (fun _ => true) = true := by decide +kernel
  rw [loadsWith] at h1 h2
  split at h1
  · rename_i t e1
    split at h2
    · rename_i t' e2
      exact h _ _ _ _ t e1 (by
        have := of_decide_eq_true h1
        rw [List.length_take]
        exact Nat.lt_of_le_of_lt (Nat.min_le_left _ _) this) (by decide) t' e2
    · simp at h2
  · simp at h1

theorem u32_inj {m n : Nat} (hm : m < 2 ^ 32) (hn : n < 2 ^ 32) (h : u32 m = u32 n) : m = n := by
  rw [← beVal_u32 m hm, h, beVal_u32 n hn]

/-- A part, followed by its checksum, with a change of up to four adjacent bytes in the part or of any bytes in the checksum. -/
theorem crc_part_change {x y pre post a b : Bytes} (tail tail' : Bytes) (hl : a.length = b.length) (hxy : x.length = y.length)
    (h1 : pre ++ a ++ post = x ++ u32 (crc32 x).toNat ++ tail) (h2 : pre ++ b ++ post = y ++ u32 (crc32 y).toNat ++ tail')
    (hpos : (a.length ≤ 4 ∧ (pre ++ a).length ≤ x.length) ∨ (x.length ≤ pre.length ∧ (pre ++ a).length ≤ x.length + 4)) : a = b := by
  rcases hpos with ⟨h4, hp⟩ | ⟨hp, hq⟩
  · rw [List.append_assoc x] at h1
    rw [List.append_assoc y] at h2
    obtain ⟨z, rfl⟩ := List.prefix_of_prefix_length_le (l₃ := pre ++ a ++ post) (List.prefix_append _ _) ⟨_, h1.symm⟩ hp
    rw [List.append_assoc (pre ++ a)] at h1
    have hpost := List.append_cancel_left h1
    rw [hpost, ← List.append_assoc (pre ++ b)] at h2
    obtain ⟨rfl, h5⟩ := List.append_inj h2 (by simp only [List.length_append] at hxy ⊢; omega)
    have h6 := (List.append_inj h5 (by rw [u32_length, u32_length])).1
    exact crc32_burst hl h4 (BitVec.eq_of_toNat_eq (u32_inj (BitVec.isLt _) (BitVec.isLt _) h6))
  · rw [List.append_assoc pre, List.append_assoc x] at h1
    rw [List.append_assoc pre, List.append_assoc y] at h2
    obtain ⟨z, rfl⟩ := List.prefix_of_prefix_length_le (l₃ := pre ++ (a ++ post)) ⟨_, h1.symm⟩ (List.prefix_append _ _) hp
    rw [List.append_assoc x] at h1 h2
    obtain ⟨rfl, h5⟩ := List.append_inj h2 hxy
    have h6 := List.append_cancel_left h1
    simp only [List.length_append] at hq
    rw [← List.append_assoc] at h5 h6
    have p1 := List.prefix_of_prefix_length_le (l₃ := (z ++ a) ++ post) (List.prefix_append _ _) ⟨_, h6.symm⟩
      (by rw [u32_length, List.length_append]; omega)
    have p2 := List.prefix_of_prefix_length_le (l₃ := (z ++ b) ++ post) (List.prefix_append _ _) ⟨_, h5.symm⟩
      (by rw [u32_length, List.length_append]; omega)
    have p3 := List.prefix_of_prefix_length_le p1 p2 (by rw [List.length_append, List.length_append]; omega)
    have := p3.eq_of_length (by rw [List.length_append, List.length_append]; omega)
    exact List.append_cancel_left this

/-- C96, what the first checksum guarantees: after changing up to four adjacent bytes of the header, or its checksum, the file is not
a table file with a header of the same length. -/
theorem C96_header_partial (pre post a b : Bytes) (hab : a ≠ b) (hl : a.length = b.length) (t t' : SSTable)
    (hw mw records hw' mw' records' : Bytes) (H : IsSSTable (pre ++ a ++ post) t.header t.mph t.offsets hw mw records)
    (hpos : (a.length ≤ 4 ∧ (pre ++ a).length ≤ hw.length) ∨ (hw.length ≤ pre.length ∧ (pre ++ a).length ≤ hw.length + 4))
    (hlen : hw'.length = hw.length) : ¬ IsSSTable (pre ++ b ++ post) t'.header t'.mph t'.offsets hw' mw' records' := by
  intro H'
  exact hab (crc_part_change _ _ hl hlen.symm (isSSTable_takeAt H).1.1 (isSSTable_takeAt H').1.1 hpos)

theorem takeAt_mono {data w : Bytes} {pos p : Nat} (h : TakeAt data pos w p) (x : Bytes) : TakeAt (data ++ x) pos w p := by
  obtain ⟨h1, h2, h3⟩ := h
  refine ⟨?_, h2, by rw [List.length_append]; omega⟩
  rw [List.drop_append_of_le_length (by omega), h1, List.drop_append_of_le_length h3, List.append_assoc]

theorem takeAt_restrict {data x w : Bytes} {pos p : Nat} (h : TakeAt (data ++ x) pos w p) (hp : p ≤ data.length) :
    TakeAt data pos w p := by
  obtain ⟨h1, h2, h3⟩ := h
  refine ⟨?_, h2, hp⟩
  rw [List.drop_append_of_le_length (by omega), List.drop_append_of_le_length hp, ← List.append_assoc] at h1
  exact List.append_cancel_right h1

/-- Headers of two files with a common beginning that contains one of the headers. -/
theorem header_common {d x y : Bytes} {h h' : SSHeader} {hw hw' : Bytes} (H : IsSSHeader hw h) (H' : IsSSHeader hw' h')
    (t1 : TakeAt (d ++ x) 0 (hw ++ u32 (crc32 hw).toNat) (hw.length + 4)) (hd : hw.length + 4 ≤ d.length)
    (t2 : TakeAt (d ++ y) 0 (hw' ++ u32 (crc32 hw').toNat) (hw'.length + 4)) : h = h' ∧ hw = hw' := by
  have t3 := takeAt_mono (takeAt_restrict t1 hd) y
  have e1 := (ssHeader_ok_iff _ _ _).mpr ⟨hw, H, t3⟩
  have e2 := (ssHeader_ok_iff _ _ _).mpr ⟨hw', H', t2⟩
  rw [e1] at e2
  simp only [Res.ok.injEq, Prod.mk.injEq] at e2
  obtain ⟨rfl, hl⟩ := e2
  have := (takeAt_unique t3 t2 (by simp only [List.length_append, u32_length]; omega)).1
  exact ⟨rfl, (List.append_inj this (by omega)).1⟩

/-- C96, what the second checksum guarantees: after changing up to four adjacent bytes of the lookup table and the offsets, or their
checksum, the file is not a table file with as many bytes of lookup table and as many offsets. -/
theorem C96_index_partial (pre post a b : Bytes) (hab : a ≠ b) (hl : a.length = b.length) (t t' : SSTable)
    (hw mw records hw' mw' records' : Bytes) (H : IsSSTable (pre ++ a ++ post) t.header t.mph t.offsets hw mw records)
    (hstart : hw.length + 4 ≤ pre.length)
    (hpos : (a.length ≤ 4 ∧ (pre ++ a).length ≤ hw.length + 4 + mw.length + 4 + 4 * t.offsets.length) ∨
      (hw.length + 4 + mw.length + 4 + 4 * t.offsets.length ≤ pre.length ∧
        (pre ++ a).length ≤ hw.length + 4 + mw.length + 4 + 4 * t.offsets.length + 4))
    (hlen : mw'.length = mw.length) (ho : t'.offsets.length = t.offsets.length) :
    ¬ IsSSTable (pre ++ b ++ post) t'.header t'.mph t'.offsets hw' mw' records' := by
  intro H'
  have hfl : ∀ l : List UInt32, (l.flatMap fun x => u32 x.toNat).length = 4 * l.length := by
    intro l
    induction l with
    | nil => rfl
    | cons x l ih => rw [List.flatMap_cons, List.length_append, ih, u32_length, List.length_cons]; omega
  have t1 := (isSSTable_takeAt H).1
  have t2 := (isSSTable_takeAt H').1
  have h1 := H.bytes
  have h2 := H'.bytes
  rw [List.append_assoc pre] at h1 h2 t1 t2
  obtain ⟨-, rfl⟩ := header_common H.header H'.header t1 hstart t2
  obtain ⟨z, rfl⟩ : hw ++ u32 (crc32 hw).toNat <+: pre := by
    exact List.prefix_of_prefix_length_le (l₃ := pre ++ (a ++ post)) ⟨_, t1.1.symm⟩ (List.prefix_append _ _)
      (by rw [List.length_append, u32_length]; omega)
  have e1 : z ++ a ++ post = (mw ++ u32 t.offsets.length ++ t.offsets.flatMap (fun x => u32 x.toNat)) ++
      u32 (crc32 (mw ++ u32 t.offsets.length ++ t.offsets.flatMap (fun x => u32 x.toNat))).toNat ++ records := by
    apply List.append_cancel_left (as := hw ++ u32 (crc32 hw).toNat)
    simp only [List.append_assoc] at h1 ⊢
    exact h1
  have e2 : z ++ b ++ post = (mw' ++ u32 t'.offsets.length ++ t'.offsets.flatMap (fun x => u32 x.toNat)) ++
      u32 (crc32 (mw' ++ u32 t'.offsets.length ++ t'.offsets.flatMap (fun x => u32 x.toNat))).toNat ++ records' := by
    apply List.append_cancel_left (as := hw ++ u32 (crc32 hw).toNat)
    simp only [List.append_assoc] at h2 ⊢
    exact h2
  refine hab (crc_part_change _ _ hl ?_ e1 e2 ?_)
  · simp only [List.length_append, u32_length, hfl]; omega
  · simp only [List.length_append, u32_length, hfl] at hpos ⊢; omega

/-- The offsets and the level of the sample can be changed without changing the layout. -/
example : loadsWith (sampleTable.take 112 ++ [1] ++ sampleTable.drop 113) (fun _ => true) = false ∧
    loadsWith (sampleTable.take 112 ++ [0] ++ sampleTable.drop 113) (fun _ => true) = true := by decide +kernel

/-! ### C97 Only the bytes before the records matter -/

theorem hash_mode_magic {buf : Bytes} {t : MphTable KeyObj} {n : Nat} {seed : UInt32} {hs : List UInt32}
    (h : newMphTable buf = .ok (t, n)) (hv : t.verify = .hashes seed hs) : ∃ r, buf = 0 :: r := by
  obtain ⟨magic, r, hm, e, -, ht⟩ := load_head_inv h
  rcases hm with rfl | rfl
  · exact ⟨_, e⟩
  · exfalso
    rw [loadTail, if_pos rfl] at ht
    obtain ⟨⟨nk, r1⟩, -, ht⟩ := Res.bind_eq_ok.mp ht
    obtain ⟨⟨ks, r2⟩, -, ht⟩ := Res.bind_eq_ok.mp ht
    simp only [Res.ok.injEq, Prod.mk.injEq] at ht
    rw [← ht.1] at hv
    simp at hv

/-- C97: with a hash-verified lookup table, whatever follows the second checksum does not influence loading. -/
theorem C97_records_ignored (data : Bytes) (t : SSTable) (seed : UInt32) (hs : List UInt32) (hv : t.mph.verify = .hashes seed hs)
    (hw mw records : Bytes) (H : IsSSTable data t.header t.mph t.offsets hw mw records) (h : loadSSTable data = .ok t)
    (records' : Bytes) : loadSSTable (data.take (data.length - records.length) ++ records') = .ok t := by
  have hb := H.bytes
  have hL := H.lookup
  rw [load_of_layout H, Res.ok.injEq] at h
  have hd : data.drop (hw.length + 4) = mw ++ (u32 t.offsets.length ++ t.offsets.flatMap (fun x => u32 x.toNat) ++
      u32 (crc32 (mw ++ u32 t.offsets.length ++ t.offsets.flatMap (fun x => u32 x.toNat))).toNat ++ records) := by
    have e : data = (hw ++ u32 (crc32 hw).toNat) ++ (mw ++ (u32 t.offsets.length ++ t.offsets.flatMap (fun x => u32 x.toNat) ++
      u32 (crc32 (mw ++ u32 t.offsets.length ++ t.offsets.flatMap (fun x => u32 x.toNat))).toNat ++ records)) := by
      conv_lhs => rw [hb]
      simp only [List.append_assoc]
    rw [e]
    exact List.drop_left' (by rw [List.length_append, u32_length])
  obtain ⟨r, hr⟩ := hash_mode_magic hL hv
  rw [hr] at hL
  obtain ⟨-, hany⟩ := C40_in_bounds r _ _ hL
  rw [← hr, hd, List.take_left] at hany
  have hcut : data.take (data.length - records.length) ++ records' =
      hw ++ u32 (crc32 hw).toNat ++ mw ++ u32 t.offsets.length ++ t.offsets.flatMap (fun x => u32 x.toNat) ++
      u32 (crc32 (mw ++ u32 t.offsets.length ++ t.offsets.flatMap (fun x => u32 x.toNat))).toNat ++ records' := by
    congr 1
    conv_lhs => rw [hb]
    rw [List.length_append, Nat.add_sub_cancel, List.take_left]
  have H' : IsSSTable (data.take (data.length - records.length) ++ records') t.header t.mph t.offsets hw mw records' := by
    refine ⟨H.header, H.few, ?_, hcut⟩
    rw [hcut]
    have e : ∀ x : Bytes, (hw ++ u32 (crc32 hw).toNat ++ mw ++ u32 t.offsets.length ++ t.offsets.flatMap (fun x => u32 x.toNat) ++
      x ++ records') = (hw ++ u32 (crc32 hw).toNat) ++ (mw ++ (u32 t.offsets.length ++
        t.offsets.flatMap (fun x => u32 x.toNat) ++ x ++ records')) := by
      intro x; simp only [List.append_assoc]
    rw [e, List.drop_left' (by rw [List.length_append, u32_length])]
    exact hany _
  rw [load_of_layout H', Res.ok.injEq, ← h]
  congr 2
  rw [List.length_append, List.length_take]
  omega

/-- C97: and a file cut anywhere before the records does not load. -/
theorem C97_truncated (data : Bytes) (t : SSTable) (seed : UInt32) (hs : List UInt32) (hv : t.mph.verify = .hashes seed hs)
    (hw mw records : Bytes) (H : IsSSTable data t.header t.mph t.offsets hw mw records) (m : Nat)
    (hm : m < data.length - records.length) (t' : SSTable) : loadSSTable (data.take m) ≠ .ok t' := by
  intro h'
  obtain ⟨hw', mw', records', H', hs'⟩ := layout_of_load h'
  have t1 := (isSSTable_takeAt H).1
  have t2 := (isSSTable_takeAt H').1
  have hsplit : data = data.take m ++ data.drop m := (List.take_append_drop m data).symm
  have t1' : TakeAt (data.take m ++ data.drop m) 0 (hw ++ u32 (crc32 hw).toNat) (hw.length + 4) := by rw [← hsplit]; exact t1
  have t2' : TakeAt (data.take m ++ []) 0 (hw' ++ u32 (crc32 hw').toNat) (hw'.length + 4) := by rw [List.append_nil]; exact t2
  obtain ⟨-, rfl⟩ := header_common H'.header H.header t2' t2.2.2 t1'
  -- the lookup table is hash-verified as well
  have hL := H.lookup
  have hL' := H'.lookup
  obtain ⟨r, hr⟩ := hash_mode_magic hL hv
  have hp := newMphTable_consumed hL'
  have hdrop : data.drop (hw'.length + 4) = (data.take m).drop (hw'.length + 4) ++ data.drop m := by
    conv_lhs => rw [hsplit]
    rw [List.drop_append_of_le_length t2.2.2]
  obtain ⟨r', hr'⟩ : ∃ r', (data.take m).drop (hw'.length + 4) = 0 :: r' := by
    rcases e : (data.take m).drop (hw'.length + 4) with - | ⟨x, r'⟩
    · rw [e] at hL'; simp [newMphTable] at hL'
    · rw [e, hr] at hdrop
      simp only [List.cons_append, List.cons.injEq] at hdrop
      exact ⟨r', by rw [hdrop.1]⟩
  have hL0 := hL'
  rw [hr'] at hL'
  obtain ⟨seed', hs'', rest, -, hv', -⟩ := load_hash_mode_inv hL'
  have hfull := C97_records_ignored (data.take m) t' seed' hs'' hv' hw' mw' records' H' h' (records' ++ data.drop m)
  have hcut : (data.take m).take ((data.take m).length - records'.length) ++ records' = data.take m := by
    have hb := H'.bytes
    generalize data.take m = d at hb ⊢
    rw [hb]
    rw [List.length_append, Nat.add_sub_cancel, List.take_left]
  rw [← List.append_assoc, hcut, ← hsplit, load_of_layout H] at hfull
  -- both layouts of the whole file agree
  have hX : IsSSTable data t'.header t'.mph t'.offsets hw' mw' (records' ++ data.drop m) := by
    refine ⟨H'.header, H'.few, ?_, ?_⟩
    · rw [hdrop, hr']
      obtain ⟨hle, hany⟩ := C40_in_bounds r' _ _ hL'
      have := hany ((0 :: r').drop mw'.length ++ data.drop m)
      rw [← List.append_assoc, List.take_append_drop] at this
      exact this
    · have hb := H'.bytes
      conv_lhs => rw [hsplit, hb]
      simp only [List.append_assoc]
  obtain ⟨-, u1⟩ := isSSTable_takeAt H
  obtain ⟨-, u2⟩ := isSSTable_takeAt hX
  rw [Res.ok.injEq] at hfull
  subst hfull
  have hmw : mw.length = mw'.length := by
    have h3 := hX.lookup
    rw [hL] at h3
    simpa using h3
  have l1 := u1.2.1
  have l2 := u2.2.1
  simp only [List.length_append, u32_length, List.length_drop] at l1 l2
  have hb := congrArg List.length H'.bytes
  simp only [List.length_append, u32_length, List.length_take] at hb
  omega

example : loadsWith (sampleTable ++ [1, 2, 3]) (fun t => t.mph.verify matches .hashes _ _) = true ∧
    loadsWith (sampleTable.take 155) (fun _ => true) = false := by decide +kernel

/-- The sample file is a table file with a lookup table verified by hash. -/
theorem sample_layout : ∃ t seed hs hw mw records, loadSSTable sampleTable = .ok t ∧ t.mph.verify = .hashes seed hs ∧
    IsSSTable sampleTable t.header t.mph t.offsets hw mw records := by
  have h : loadsWith sampleTable (fun t => t.mph.verify matches .hashes _ _) = true := by decide +kernel
  unfold loadsWith at h
  split at h
  · rename_i t e
    obtain ⟨hw, mw, records, H, -⟩ := layout_of_load e
    cases hv : t.mph.verify with
    | hashes seed hs => exact ⟨t, seed, hs, hw, mw, records, e, hv, H⟩
    | keys ks => simp only [hv] at h; exact absurd h (by decide)
  · simp at h

example : ∃ t, ∀ records', ∃ n, loadSSTable (sampleTable.take n ++ records') = .ok t := by
  obtain ⟨t, seed, hs, hw, mw, records, e, hv, H⟩ := sample_layout
  exact ⟨t, fun records' => ⟨_, C97_records_ignored _ t seed hs hv hw mw records H e records'⟩⟩

/-- The version of the sample file is changed. -/
example : ∃ l, ∀ (t' : SSTable) hw' mw' records', hw'.length = l →
    ¬ IsSSTable ([0, 0, 0, 2] ++ sampleTable.drop 4) t'.header t'.mph t'.offsets hw' mw' records' := by
  obtain ⟨t, seed, hs, hw, mw, records, e, hv, H⟩ := sample_layout
  have h4 : 4 ≤ hw.length := by
    obtain ⟨st, et, -, -, h⟩ := H.header.bytes
    rw [h]
    simp only [List.length_append, List.length_cons]
    omega
  refine ⟨hw.length, fun t' hw' mw' records' hl => ?_⟩
  exact C96_header_partial [] (sampleTable.drop 4) [0, 0, 0, 1] [0, 0, 0, 2] (by decide) rfl t t' hw mw records hw' mw' records' H
    (.inl ⟨by decide, h4⟩) hl

end Poodle.Props
