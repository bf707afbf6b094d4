import Verif.Lemmas.Crc
import Verif.Lemmas.Value
import Verif.Lemmas.MphCodec
import Verif.Props.Consensus
import Verif.Spec.SSTable

/-
Lemmas for loading table files.
-/

namespace Poodle

open Spec Props

/-- `w` stands at position `pos` of the data, up to position `p`. -/
def TakeAt (data : Bytes) (pos : Nat) (w : Bytes) (p : Nat) : Prop :=
  data.drop pos = w ++ data.drop p ∧ p = pos + w.length ∧ p ≤ data.length

theorem takeAt_of {data pre w post : Bytes} (h : data = pre ++ (w ++ post)) (pos p : Nat) (hp : pos = pre.length)
    (hq : p = (pre ++ w).length) : TakeAt data pos w p := by
  subst h hp hq
  refine ⟨?_, by simp, by simp⟩
  rw [List.drop_left, ← List.append_assoc, List.drop_left]

theorem TakeAt.prefix {data w : Bytes} {pos p : Nat} (h : TakeAt data pos w p) : w <+: data.drop pos := ⟨_, h.1.symm⟩

theorem goFrom_ok {data : Bytes} {pos : Nat} (h : pos ≤ data.length) : goFrom data pos = .ok (data.drop pos) := if_pos h

theorem u32_eq_beBytes (n : Nat) : u32 n = beBytes 4 n := by
  simp [u32, beBytes]

theorem u32_beVal (b : Bytes) (h : b.length = 4) : u32 (beVal b) = b := by
  rw [u32_eq_beBytes, ← h, beBytes_beVal]

theorem beVal_u32 (n : Nat) (h : n < 2 ^ 32) : beVal (u32 n) = n := by
  rw [u32_eq_beBytes, beVal_beBytes, Nat.mod_eq_of_lt (by simpa using h)]

theorem u32_length (n : Nat) : (u32 n).length = 4 := rfl

theorem goSlice_takeAt {data w : Bytes} {pos p : Nat} (h : TakeAt data pos w p) : goSlice data pos p = .ok w := by
  obtain ⟨h1, h2, h3⟩ := h
  rw [goSlice, if_pos ⟨by omega, by omega, by omega⟩]
  simp only [Res.ok.injEq, Int.toNat_natCast]
  rw [List.drop_take, h1, h2, Nat.add_sub_cancel_left, List.take_left]

theorem ssU32_ok_iff (data : Bytes) (pos n p : Nat) : ssU32 data pos = .ok (n, p) ↔ n < 2 ^ 32 ∧ TakeAt data pos (u32 n) p := by
  rw [ssU32]
  split
  · rename_i h
    refine ⟨fun h => by simp at h, fun ⟨h1, h2⟩ => ?_⟩
    have := h2.2; rw [u32_length] at this; omega
  · rename_i h
    have e : data.drop pos = (data.drop pos).take 4 ++ data.drop (pos + 4) := by
      rw [← List.drop_drop, List.take_append_drop]
    have hl : ((data.drop pos).take 4).length = 4 := by rw [List.length_take, List.length_drop]; omega
    have ht : TakeAt data pos ((data.drop pos).take 4) (pos + 4) := ⟨e, by rw [hl], by omega⟩
    have := goSlice_takeAt ht
    push_cast at this
    rw [this, Res.bind_ok, Res.ok.injEq, Prod.mk.injEq]
    constructor
    · rintro ⟨rfl, rfl⟩
      have hlt := beVal_lt ((data.drop pos).take 4)
      rw [hl] at hlt
      refine ⟨by simpa using hlt, ?_⟩
      rw [u32_beVal _ hl]; exact ht
    · rintro ⟨h1, h2⟩
      have h3 : (data.drop pos).take 4 = u32 n := by rw [h2.1]; exact List.take_left' (u32_length n)
      rw [h3, beVal_u32 n h1]
      exact ⟨rfl, by have := h2.2.1; rw [u32_length] at this; exact this.symm⟩

theorem ssU32_ne_panic (data : Bytes) (pos : Nat) : ssU32 data pos ≠ .panic := by
  rw [ssU32]
  split
  · simp
  · rename_i h
    rw [goSlice, if_pos ⟨by omega, by omega, by omega⟩]; simp

theorem ssValue_ok_iff {data : Bytes} {pos : Nat} (hpos : pos ≤ data.length) (v : StdValue) (p : Nat) :
    ssValue data pos = .ok (v, p) ↔ IsValue v ∧ TakeAt data pos v.buf p := by
  rw [ssValue, goFrom_ok hpos, Res.bind_ok]
  constructor
  · intro h
    obtain ⟨⟨v', n⟩, h1, h2⟩ := Res.bind_eq_ok.mp h
    simp only [Res.ok.injEq, Prod.mk.injEq] at h2
    obtain ⟨rfl, rfl⟩ := h2
    obtain ⟨rest, h3, -, h4⟩ := (decodeStd_ok_iff _ _ _).mp h1
    have hl := congrArg List.length h3
    rw [List.length_drop, List.length_append] at hl
    refine ⟨h4, ?_, rfl, by omega⟩
    rw [← List.drop_drop, h3, List.drop_left]
  · rintro ⟨h1, h2, h3, h4⟩
    rw [(decodeStd_ok_iff (data.drop pos) v v.buf.length).mpr ⟨_, h2, rfl, h1⟩, Res.bind_ok, h3]

theorem ssValue_ne_panic {data : Bytes} {pos : Nat} (hpos : pos ≤ data.length) : ssValue data pos ≠ .panic := by
  rw [ssValue, goFrom_ok hpos, Res.bind_ok]
  rcases h : decodeStd (data.drop pos) with ⟨v, n⟩ | - | -
  · simp
  · simp
  · exact absurd h (decodeStd_ne_panic _)

theorem ctime_buf_length (t : CTime) : t.buf.length = match t with | .ledger _ => 5 | .raft _ _ _ => 13 := by
  cases t with
  | ledger e => rw [ledger_buf]; simp [beBytes_length]
  | raft t m c => rw [raft_buf]; simp [beBytes_length]

theorem isTime_length {w : Bytes} {t : CTime} (h : IsTime w t) : w.length = t.buf.length := by
  rw [ctime_buf_length]
  cases h <;> rfl

theorem newConsensusTime_ok_iff (buf : Bytes) (t : CTime) : newConsensusTime buf = .ok t ↔ ∃ w rest, buf = w ++ rest ∧ IsTime w t := by
  have hb : ∀ (e : Bytes) (x : UInt32), e.length = 4 → (x.toNat = bigEndian e ↔ e = u32 x.toNat) := by
    intro e x he
    rw [← beVal_eq_bigEndian]
    constructor
    · intro h; rw [h, u32_beVal e he]
    · intro h; rw [h, beVal_u32 _ x.toNat_lt]
  rw [(C61_parse_iff buf t).2]
  constructor
  · rintro (⟨e, rest, rfl, he, x, rfl, hx⟩ | ⟨a, b, c, rest, rfl, ha, hbl, hc, x, y, z, rfl, hx, hy, hz⟩)
    · rw [(hb e x he).mp hx]
      exact ⟨_, rest, by simp, IsTime.ledger x⟩
    · rw [(hb a x ha).mp hx, (hb b y hbl).mp hy, (hb c z hc).mp hz]
      exact ⟨_, rest, by simp, IsTime.raft x y z⟩
  · rintro ⟨w, rest, rfl, h⟩
    cases h with
    | ledger e => exact Or.inl ⟨u32 e.toNat, rest, by simp, rfl, e, rfl, (hb _ _ rfl).mpr rfl⟩
    | raft x y z =>
      exact Or.inr ⟨u32 x.toNat, u32 y.toNat, u32 z.toNat, rest, by simp, rfl, rfl, rfl, x, y, z, rfl, (hb _ _ rfl).mpr rfl,
        (hb _ _ rfl).mpr rfl, (hb _ _ rfl).mpr rfl⟩

theorem ssTime_ok_iff {data : Bytes} {pos : Nat} (hpos : pos ≤ data.length) (t : CTime) (p : Nat) :
    ssTime data pos = .ok (t, p) ↔ ∃ w, IsTime w t ∧ TakeAt data pos w p := by
  rw [ssTime, goFrom_ok hpos, Res.bind_ok]
  constructor
  · intro h
    obtain ⟨t', h1, h2⟩ := Res.bind_eq_ok.mp h
    simp only [Res.ok.injEq, Prod.mk.injEq] at h2
    obtain ⟨rfl, rfl⟩ := h2
    obtain ⟨w, rest, h3, h4⟩ := (newConsensusTime_ok_iff _ _).mp h1
    have hl := congrArg List.length h3
    rw [List.length_drop, List.length_append] at hl
    have hw := isTime_length h4
    refine ⟨w, h4, ?_, by omega, by omega⟩
    rw [← List.drop_drop, h3, ← hw, List.drop_left]
  · rintro ⟨w, h1, h2, h3, h4⟩
    rw [(newConsensusTime_ok_iff (data.drop pos) t).mpr ⟨w, _, h2, h1⟩, Res.bind_ok, h3, isTime_length h1]

theorem ssTime_ne_panic {data : Bytes} {pos : Nat} (hpos : pos ≤ data.length) : ssTime data pos ≠ .panic := by
  rw [ssTime, goFrom_ok hpos, Res.bind_ok]
  rcases h : newConsensusTime (data.drop pos) with t | - | -
  · simp
  · simp
  · exact absurd h (C61_parse_iff _ (.ledger 0)).1

theorem ssCid_ok_iff {data : Bytes} {pos : Nat} (hpos : pos ≤ data.length) (c : ConsensusID) (p : Nat) :
    ssCid data pos = .ok (c, p) ↔ IsCid c.buf c ∧ TakeAt data pos c.buf p := by
  rw [ssCid, goFrom_ok hpos, Res.bind_ok]
  constructor
  · intro h
    obtain ⟨c', h1, h2⟩ := Res.bind_eq_ok.mp h
    simp only [Res.ok.injEq, Prod.mk.injEq] at h2
    obtain ⟨rfl, rfl⟩ := h2
    have h3 := (C62_parse_iff _ _).mp h1
    obtain ⟨rest, h4⟩ := h3.pre
    have hl := congrArg List.length h4
    rw [List.length_drop, List.length_append] at hl
    refine ⟨{ h3 with pre := List.prefix_rfl }, ?_, rfl, by omega⟩
    rw [← List.drop_drop, ← h4, List.drop_left]
  · rintro ⟨h1, h2, h3, h4⟩
    rw [(C62_parse_iff (data.drop pos) c).mpr { h1 with pre := ⟨_, h2.symm⟩ }, Res.bind_ok, h3]

theorem ssCid_panic_iff {data : Bytes} {pos : Nat} (hpos : pos ≤ data.length) : ssCid data pos = .panic ↔ pos = data.length := by
  rw [ssCid, goFrom_ok hpos, Res.bind_ok]
  have : (newMappedConsensusID (data.drop pos) >>= fun c => (.ok (c, pos + c.buf.length) : Res (ConsensusID × Nat))) = .panic ↔
      newMappedConsensusID (data.drop pos) = .panic := by
    rcases newMappedConsensusID (data.drop pos) with c | - | - <;> simp
  rw [this, C85_panics_iff_partial, List.drop_eq_nil_iff]
  omega

theorem ssCrc_ok_iff {data part : Bytes} {start pos : Nat} (h : TakeAt data start part pos) (p : Nat) :
    ssCrc data start pos = .ok p ↔ TakeAt data pos (u32 (crc32 part).toNat) p := by
  rw [ssCrc, goSlice_takeAt h, Res.bind_ok]
  constructor
  · intro h
    obtain ⟨⟨c, next⟩, h1, h2⟩ := Res.bind_eq_ok.mp h
    simp only at h2
    split at h2
    · simp at h2
    · rename_i hc
      simp only [ne_eq, Decidable.not_not] at hc
      rw [Res.ok.injEq] at h2
      subst h2
      rw [hc]
      exact ((ssU32_ok_iff _ _ _ _).mp h1).2
  · intro h2
    rw [(ssU32_ok_iff _ _ _ _).mpr ⟨(crc32 part).isLt, h2⟩, Res.bind_ok]
    simp

theorem ssCrc_ne_panic {data : Bytes} {start pos : Nat} (h1 : start ≤ pos) (h2 : pos ≤ data.length) : ssCrc data start pos ≠ .panic := by
  rw [ssCrc, goSlice, if_pos ⟨by omega, by omega, by omega⟩, Res.bind_ok]
  rcases h : ssU32 data pos with ⟨c, n⟩ | - | -
  · rw [Res.bind_ok]; simp only; split <;> simp
  · simp
  · exact absurd h (ssU32_ne_panic _ _)

theorem takeAt_append {data a b : Bytes} {pos p : Nat} :
    TakeAt data pos (a ++ b) p ↔ ∃ q, TakeAt data pos a q ∧ TakeAt data q b p := by
  constructor
  · rintro ⟨h1, h2, h3⟩
    rw [List.length_append] at h2
    have e : data.drop (pos + a.length) = b ++ data.drop p := by
      rw [← List.drop_drop, h1, List.append_assoc, List.drop_left]
    refine ⟨pos + a.length, ⟨?_, rfl, by omega⟩, e, by omega, h3⟩
    rw [e, h1, List.append_assoc]
  · rintro ⟨q, ⟨h1, h2, h3⟩, h4, h5, h6⟩
    refine ⟨by rw [h1, h4, List.append_assoc], by rw [List.length_append]; omega, h6⟩

theorem takeAt_unique {data a b : Bytes} {pos p q : Nat} (h1 : TakeAt data pos a p) (h2 : TakeAt data pos b q) (hl : a.length = b.length) :
    a = b ∧ p = q := by
  have h := h1.1.symm.trans h2.1
  exact ⟨(List.append_inj h hl).1, by have := h1.2.1; have := h2.2.1; omega⟩

theorem ssHeader_ok_iff (data : Bytes) (h : SSHeader) (p : Nat) : ssHeader data = .ok (h, p) ↔
    ∃ hw, IsSSHeader hw h ∧ TakeAt data 0 (hw ++ u32 (crc32 hw).toNat) p := by
  constructor
  · intro e
    rw [ssHeader] at e
    obtain ⟨⟨version, p1⟩, e1, e⟩ := Res.bind_eq_ok.mp e
    obtain ⟨-, t1⟩ := (ssU32_ok_iff _ _ _ _).mp e1
    simp only at e
    split at e
    · simp at e
    rename_i hv
    simp only [ne_eq, Decidable.not_not] at hv
    subst hv
    obtain ⟨⟨cid, p2⟩, e2, e⟩ := Res.bind_eq_ok.mp e
    obtain ⟨s2, t2⟩ := (ssCid_ok_iff t1.2.2 _ _).mp e2
    obtain ⟨⟨domain, p3⟩, e3, e⟩ := Res.bind_eq_ok.mp e
    obtain ⟨s3, t3⟩ := (ssValue_ok_iff t2.2.2 _ _).mp e3
    obtain ⟨⟨table, p4⟩, e4, e⟩ := Res.bind_eq_ok.mp e
    obtain ⟨s4, t4⟩ := (ssValue_ok_iff t3.2.2 _ _).mp e4
    obtain ⟨⟨st, p5⟩, e5, e⟩ := Res.bind_eq_ok.mp e
    obtain ⟨w5, s5, t5⟩ := (ssTime_ok_iff t4.2.2 _ _).mp e5
    obtain ⟨⟨et, p6⟩, e6, e⟩ := Res.bind_eq_ok.mp e
    obtain ⟨w6, s6, t6⟩ := (ssTime_ok_iff t5.2.2 _ _).mp e6
    obtain ⟨⟨sk, p7⟩, e7, e⟩ := Res.bind_eq_ok.mp e
    obtain ⟨s7, t7⟩ := (ssValue_ok_iff t6.2.2 _ _).mp e7
    obtain ⟨⟨ek, p8⟩, e8, e⟩ := Res.bind_eq_ok.mp e
    obtain ⟨s8, t8⟩ := (ssValue_ok_iff t7.2.2 _ _).mp e8
    obtain ⟨⟨level, p9⟩, e9, e⟩ := Res.bind_eq_ok.mp e
    obtain ⟨s9, t9⟩ := (ssU32_ok_iff _ _ _ _).mp e9
    obtain ⟨⟨count, p10⟩, e10, e⟩ := Res.bind_eq_ok.mp e
    obtain ⟨s10, t10⟩ := (ssU32_ok_iff _ _ _ _).mp e10
    simp only at e
    split at e
    · simp at e
    rename_i hc
    have hw := takeAt_append.mpr ⟨_, takeAt_append.mpr ⟨_, takeAt_append.mpr ⟨_, takeAt_append.mpr ⟨_, takeAt_append.mpr ⟨_,
      takeAt_append.mpr ⟨_, takeAt_append.mpr ⟨_, takeAt_append.mpr ⟨_, takeAt_append.mpr ⟨_, t1, t2⟩, t3⟩, t4⟩, t5⟩, t6⟩, t7⟩, t8⟩, t9⟩,
      t10⟩
    obtain ⟨p11, e11, e⟩ := Res.bind_eq_ok.mp e
    have t11 := (ssCrc_ok_iff hw _).mp e11
    simp only [Res.ok.injEq, Prod.mk.injEq] at e
    obtain ⟨rfl, rfl⟩ := e
    refine ⟨_, ⟨rfl, s2, s3, s4, s7, s8, s9, ?_, w5, w6, s5, s6, rfl⟩, takeAt_append.mpr ⟨_, hw, t11⟩⟩
    rw [sstableMaxRecords] at hc
    simp only
    omega
  · rintro ⟨hw, ⟨hv, s2, s3, s4, s7, s8, s9, s10, w5, w6, s5, s6, rfl⟩, t⟩
    obtain ⟨version, cid, domain, table, st, et, sk, ek, level, count⟩ := h
    simp only at *
    subst hv
    obtain ⟨p10, thw, t11⟩ := takeAt_append.mp t
    obtain ⟨p9, t, t10⟩ := takeAt_append.mp thw
    obtain ⟨p8, t, t9⟩ := takeAt_append.mp t
    obtain ⟨p7, t, t8⟩ := takeAt_append.mp t
    obtain ⟨p6, t, t7⟩ := takeAt_append.mp t
    obtain ⟨p5, t, t6⟩ := takeAt_append.mp t
    obtain ⟨p4, t, t5⟩ := takeAt_append.mp t
    obtain ⟨p3, t, t4⟩ := takeAt_append.mp t
    obtain ⟨p2, t, t3⟩ := takeAt_append.mp t
    obtain ⟨p1, t1, t2⟩ := takeAt_append.mp t
    have e1 : ssU32 data 0 = .ok (1, p1) := (ssU32_ok_iff _ _ _ _).mpr ⟨by omega, t1⟩
    rw [ssHeader, e1, Res.bind_ok]
    simp only [ne_eq, not_true, if_false]
    rw [(ssCid_ok_iff t1.2.2 _ _).mpr ⟨s2, t2⟩, Res.bind_ok]
    simp only
    rw [(ssValue_ok_iff t2.2.2 _ _).mpr ⟨s3, t3⟩, Res.bind_ok]
    simp only
    rw [(ssValue_ok_iff t3.2.2 _ _).mpr ⟨s4, t4⟩, Res.bind_ok]
    simp only
    rw [(ssTime_ok_iff t4.2.2 _ _).mpr ⟨w5, s5, t5⟩, Res.bind_ok]
    simp only
    rw [(ssTime_ok_iff t5.2.2 _ _).mpr ⟨w6, s6, t6⟩, Res.bind_ok]
    simp only
    rw [(ssValue_ok_iff t6.2.2 _ _).mpr ⟨s7, t7⟩, Res.bind_ok]
    simp only
    rw [(ssValue_ok_iff t7.2.2 _ _).mpr ⟨s8, t8⟩, Res.bind_ok]
    simp only
    rw [(ssU32_ok_iff _ _ _ _).mpr ⟨s9, t9⟩, Res.bind_ok]
    simp only
    rw [(ssU32_ok_iff _ _ _ _).mpr ⟨by omega, t10⟩, Res.bind_ok]
    simp only
    rw [if_neg (by rw [sstableMaxRecords]; omega), (ssCrc_ok_iff thw _).mpr t11, Res.bind_ok]

theorem bind_eq_panic {α β : Type} {x : Res α} {f : α → Res β} : (x >>= f) = .panic ↔ x = .panic ∨ ∃ a, x = .ok a ∧ f a = .panic := by
  cases x <;> simp

/-- Loading the header panics only on a file consisting of the version. -/
theorem ssHeader_panic_iff (data : Bytes) : ssHeader data = .panic ↔ data = [0, 0, 0, 1] := by
  constructor
  · intro e
    rw [ssHeader] at e
    obtain e | ⟨⟨version, p1⟩, e1, e⟩ := bind_eq_panic.mp e
    · exact absurd e (ssU32_ne_panic _ _)
    obtain ⟨-, t1⟩ := (ssU32_ok_iff _ _ _ _).mp e1
    simp only at e
    split at e
    · simp at e
    rename_i hv
    simp only [ne_eq, Decidable.not_not] at hv
    subst hv
    obtain e | ⟨⟨cid, p2⟩, e2, e⟩ := bind_eq_panic.mp e
    · rw [ssCid_panic_iff t1.2.2] at e
      have := t1.1
      rw [e, List.drop_zero, List.drop_length, List.append_nil] at this
      rw [this]; rfl
    exfalso
    obtain ⟨s2, t2⟩ := (ssCid_ok_iff t1.2.2 _ _).mp e2
    obtain e | ⟨⟨domain, p3⟩, e3, e⟩ := bind_eq_panic.mp e
    · exact ssValue_ne_panic t2.2.2 e
    obtain ⟨s3, t3⟩ := (ssValue_ok_iff t2.2.2 _ _).mp e3
    obtain e | ⟨⟨table, p4⟩, e4, e⟩ := bind_eq_panic.mp e
    · exact ssValue_ne_panic t3.2.2 e
    obtain ⟨s4, t4⟩ := (ssValue_ok_iff t3.2.2 _ _).mp e4
    obtain e | ⟨⟨st, p5⟩, e5, e⟩ := bind_eq_panic.mp e
    · exact ssTime_ne_panic t4.2.2 e
    obtain ⟨w5, s5, t5⟩ := (ssTime_ok_iff t4.2.2 _ _).mp e5
    obtain e | ⟨⟨et, p6⟩, e6, e⟩ := bind_eq_panic.mp e
    · exact ssTime_ne_panic t5.2.2 e
    obtain ⟨w6, s6, t6⟩ := (ssTime_ok_iff t5.2.2 _ _).mp e6
    obtain e | ⟨⟨sk, p7⟩, e7, e⟩ := bind_eq_panic.mp e
    · exact ssValue_ne_panic t6.2.2 e
    obtain ⟨s7, t7⟩ := (ssValue_ok_iff t6.2.2 _ _).mp e7
    obtain e | ⟨⟨ek, p8⟩, e8, e⟩ := bind_eq_panic.mp e
    · exact ssValue_ne_panic t7.2.2 e
    obtain ⟨s8, t8⟩ := (ssValue_ok_iff t7.2.2 _ _).mp e8
    obtain e | ⟨⟨level, p9⟩, e9, e⟩ := bind_eq_panic.mp e
    · exact ssU32_ne_panic _ _ e
    obtain e | ⟨⟨count, p10⟩, e10, e⟩ := bind_eq_panic.mp e
    · exact ssU32_ne_panic _ _ e
    obtain ⟨s10, t10⟩ := (ssU32_ok_iff _ _ _ _).mp e10
    simp only at e
    split at e
    · simp at e
    obtain e | ⟨p11, e11, e⟩ := bind_eq_panic.mp e
    · exact ssCrc_ne_panic (Nat.zero_le _) t10.2.2 e
    · simp at e
  · rintro rfl
    decide +kernel

theorem ssOffsets_ok_iff (n : Nat) (data : Bytes) (pos : Nat) (hpos : pos ≤ data.length) (l : List UInt32) (p : Nat) :
    ssOffsets n data pos = .ok (l, p) ↔ l.length = n ∧ TakeAt data pos (l.flatMap fun x => u32 x.toNat) p := by
  induction n generalizing pos l p with
  | zero =>
    rw [ssOffsets]
    simp only [Res.ok.injEq, Prod.mk.injEq]
    constructor
    · rintro ⟨rfl, rfl⟩; exact ⟨rfl, by simp, by simp, hpos⟩
    · rintro ⟨h1, h2⟩
      obtain rfl := List.length_eq_zero_iff.mp h1
      exact ⟨rfl, h2.2.1.symm⟩
  | succ n ih =>
    rw [ssOffsets]
    by_cases hl : pos + 4 ≤ data.length
    · have e : data.drop pos = (data.drop pos).take 4 ++ data.drop (pos + 4) := by
        rw [← List.drop_drop, List.take_append_drop]
      have h4 : ((data.drop pos).take 4).length = 4 := by rw [List.length_take, List.length_drop]; omega
      have ht : TakeAt data pos ((data.drop pos).take 4) (pos + 4) := ⟨e, by rw [h4], by omega⟩
      have hs := goSlice_takeAt ht
      push_cast at hs
      rw [hs, Res.bind_ok]
      have hb : beVal ((data.drop pos).take 4) < 2 ^ 32 := by
        have := beVal_lt ((data.drop pos).take 4); rw [h4] at this; simpa using this
      have hu : u32 (UInt32.ofNat (beVal ((data.drop pos).take 4))).toNat = (data.drop pos).take 4 := by
        rw [UInt32.toNat_ofNat', Nat.mod_eq_of_lt hb, u32_beVal _ h4]
      constructor
      · intro h
        obtain ⟨⟨l', p'⟩, h1, h2⟩ := Res.bind_eq_ok.mp h
        simp only [Res.ok.injEq, Prod.mk.injEq] at h2
        obtain ⟨rfl, rfl⟩ := h2
        obtain ⟨h3, h5⟩ := (ih _ hl _ _).mp h1
        refine ⟨by rw [List.length_cons, h3], ?_⟩
        rw [List.flatMap_cons, hu]
        exact takeAt_append.mpr ⟨_, ht, h5⟩
      · rintro ⟨h1, h2⟩
        rcases l with - | ⟨x, l⟩
        · simp at h1
        rw [List.flatMap_cons] at h2
        obtain ⟨q, h3, h5⟩ := takeAt_append.mp h2
        obtain ⟨h6, rfl⟩ := takeAt_unique h3 ht (by rw [h4, u32_length])
        rw [(ih _ hl l p).mpr ⟨by simpa using h1, h5⟩, Res.bind_ok]
        simp only [Res.ok.injEq, Prod.mk.injEq, List.cons.injEq, and_true]
        rw [← h6, beVal_u32 _ x.toNat_lt]
        simp
    · constructor
      · intro h
        rw [goSlice, if_neg (by omega)] at h
        simp at h
      · rintro ⟨h1, h2⟩
        rcases l with - | ⟨x, l⟩
        · simp at h1
        rw [List.flatMap_cons] at h2
        obtain ⟨q, h3, h5⟩ := takeAt_append.mp h2
        have h6 := h3.2
        rw [u32_length] at h6
        omega

theorem ssOffsets_panic_iff (n : Nat) (data : Bytes) (pos : Nat) (hpos : pos ≤ data.length) :
    ssOffsets n data pos = .panic ↔ data.length < pos + 4 * n := by
  induction n generalizing pos with
  | zero => rw [ssOffsets]; simp; omega
  | succ n ih =>
    rw [ssOffsets, goSlice]
    by_cases hl : pos + 4 ≤ data.length
    · rw [if_pos ⟨by omega, by omega, by omega⟩, Res.bind_ok]
      rw [bind_eq_panic, ih _ hl]
      constructor
      · rintro (h | ⟨a, h1, h2⟩)
        · omega
        · simp at h2
      · intro h; left; omega
    · rw [if_neg (by omega)]
      simp; omega

theorem newMphTable_consumed {buf : Bytes} {t : MphTable KeyObj} {n : Nat} (h : newMphTable buf = .ok (t, n)) : n ≤ buf.length := by
  obtain ⟨magic, r, -, -, -, e⟩ := load_head_inv h
  rw [loadTail] at e
  split at e
  · obtain ⟨⟨nk, r1⟩, -, e⟩ := Res.bind_eq_ok.mp e
    obtain ⟨⟨ks, r2⟩, -, e⟩ := Res.bind_eq_ok.mp e
    simp only [Res.ok.injEq, Prod.mk.injEq] at e
    omega
  · obtain ⟨⟨vs, r1⟩, -, e⟩ := Res.bind_eq_ok.mp e
    obtain ⟨⟨nh, r2⟩, -, e⟩ := Res.bind_eq_ok.mp e
    obtain ⟨⟨hs, r3⟩, -, e⟩ := Res.bind_eq_ok.mp e
    simp only [Res.ok.injEq, Prod.mk.injEq] at e
    omega

theorem takeAt_length {data : Bytes} {pos n : Nat} (h : pos + n ≤ data.length) : TakeAt data pos ((data.drop pos).take n) (pos + n) := by
  refine ⟨?_, ?_, h⟩
  · rw [← List.drop_drop, List.take_append_drop]
  · rw [List.length_take, List.length_drop]; omega

theorem ssIndex_ok_iff (data : Bytes) (pos : Nat) (hpos : pos ≤ data.length) (mph : MphTable KeyObj) (offsets : List UInt32) (p : Nat) :
    ssIndex data pos = .ok (mph, offsets, p) ↔ ∃ mw, newMphTable (data.drop pos) = .ok (mph, mw.length) ∧ offsets.length ≤ 2 ^ 20 ∧
      TakeAt data pos ((mw ++ u32 offsets.length ++ offsets.flatMap (fun x => u32 x.toNat)) ++
        u32 (crc32 (mw ++ u32 offsets.length ++ offsets.flatMap (fun x => u32 x.toNat))).toNat) p := by
  rw [ssIndex, goFrom_ok hpos, Res.bind_ok]
  constructor
  · intro e
    obtain ⟨⟨m, n⟩, e1, e⟩ := Res.bind_eq_ok.mp e
    obtain ⟨⟨size, p2⟩, e2, e⟩ := Res.bind_eq_ok.mp e
    obtain ⟨s2, t2⟩ := (ssU32_ok_iff _ _ _ _).mp e2
    have hn := newMphTable_consumed e1
    rw [List.length_drop] at hn
    have t1 := takeAt_length (data := data) (pos := pos) (n := n) (by omega)
    have hl : ((data.drop pos).take n).length = n := by rw [List.length_take, List.length_drop]; omega
    simp only at e
    split at e
    · simp at e
    rename_i hs
    obtain ⟨⟨o, p3⟩, e3, f⟩ := Res.bind_eq_ok.mp e
    clear e
    obtain ⟨rfl, t3⟩ := (ssOffsets_ok_iff _ _ _ t2.2.2 _ _).mp e3
    have hw := takeAt_append.mpr ⟨_, takeAt_append.mpr ⟨_, t1, t2⟩, t3⟩
    obtain ⟨p4, e4, g⟩ := Res.bind_eq_ok.mp f
    have t4 := (ssCrc_ok_iff hw _).mp e4
    simp only [Res.ok.injEq, Prod.mk.injEq] at g
    obtain ⟨rfl, rfl, rfl⟩ := g
    refine ⟨(data.drop pos).take n, by rw [hl]; exact e1, ?_, takeAt_append.mpr ⟨_, hw, t4⟩⟩
    rw [sstableMaxRecords] at hs
    omega
  · rintro ⟨mw, e1, hs, t⟩
    obtain ⟨p3, thw, t4⟩ := takeAt_append.mp t
    obtain ⟨p2, t, t3⟩ := takeAt_append.mp thw
    obtain ⟨p1, t1, t2⟩ := takeAt_append.mp t
    rw [e1, Res.bind_ok]
    simp only
    rw [← t1.2.1, (ssU32_ok_iff _ _ _ _).mpr ⟨by omega, t2⟩, Res.bind_ok]
    simp only
    rw [if_neg (by rw [sstableMaxRecords]; omega), (ssOffsets_ok_iff _ _ _ t2.2.2 _ _).mpr ⟨rfl, t3⟩, Res.bind_ok]
    simp only
    rw [(ssCrc_ok_iff thw _).mpr t4, Res.bind_ok]

/-- Loading the lookup table panics if that of the hash table does, or if fewer offsets follow than announced. -/
theorem ssIndex_panic_iff (data : Bytes) (pos : Nat) (hpos : pos ≤ data.length) : ssIndex data pos = .panic ↔
    newMphTable (data.drop pos) = .panic ∨ ∃ mph mw size rest, newMphTable (data.drop pos) = .ok (mph, mw.length) ∧
      data.drop pos = mw ++ u32 size ++ rest ∧ size ≤ 2 ^ 20 ∧ rest.length < 4 * size := by
  rw [ssIndex, goFrom_ok hpos, Res.bind_ok]
  constructor
  · intro e
    obtain e | ⟨⟨m, n⟩, e1, e⟩ := bind_eq_panic.mp e
    · exact Or.inl e
    obtain e | ⟨⟨size, p2⟩, e2, e⟩ := bind_eq_panic.mp e
    · exact absurd e (ssU32_ne_panic _ _)
    obtain ⟨s2, t2⟩ := (ssU32_ok_iff _ _ _ _).mp e2
    have hn := newMphTable_consumed e1
    rw [List.length_drop] at hn
    have t1 := takeAt_length (data := data) (pos := pos) (n := n) (by omega)
    have hl : ((data.drop pos).take n).length = n := by rw [List.length_take, List.length_drop]; omega
    simp only at e
    split at e
    · simp at e
    rename_i hs
    obtain e | ⟨⟨o, p3⟩, e3, f⟩ := bind_eq_panic.mp e
    · rw [ssOffsets_panic_iff _ _ _ t2.2.2] at e
      have hw := takeAt_append.mpr ⟨_, t1, t2⟩
      refine Or.inr ⟨m, (data.drop pos).take n, size, data.drop p2, by rw [hl]; exact e1, hw.1, ?_, ?_⟩
      · rw [sstableMaxRecords] at hs; omega
      · rw [List.length_drop]; have := t2.2.2; omega
    · obtain ⟨rfl, t3⟩ := (ssOffsets_ok_iff _ _ _ t2.2.2 _ _).mp e3
      obtain e | ⟨p4, e4, g⟩ := bind_eq_panic.mp f
      · exact absurd e (ssCrc_ne_panic (by have := t2.2.1; have := t3.2.1; simp only; omega) t3.2.2)
      · simp at g
  · rintro (h | ⟨mph, mw, size, rest, h1, h2, h3, h4⟩)
    · rw [h]; rfl
    · have hl := congrArg List.length h2
      rw [List.length_drop, List.length_append, List.length_append, u32_length] at hl
      have t2 : TakeAt data (pos + mw.length) (u32 size) (pos + mw.length + 4) := by
        refine ⟨?_, rfl, by omega⟩
        rw [← List.drop_drop, Nat.add_assoc, ← List.drop_drop (j := pos), h2, List.append_assoc, List.drop_left, ← List.append_assoc,
          List.drop_left' (by rw [List.length_append, u32_length])]
      rw [h1, Res.bind_ok]
      simp only
      rw [(ssU32_ok_iff _ _ _ _).mpr ⟨by omega, t2⟩, Res.bind_ok]
      simp only
      rw [if_neg (by rw [sstableMaxRecords]; omega), (ssOffsets_panic_iff _ _ _ t2.2.2).mpr (by omega)]
      rfl

end Poodle
