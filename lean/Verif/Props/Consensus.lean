import Verif.Lemmas.Conv
import Verif.Spec.Consensus

/-
Properties C57-C62 and C85: consensus times and ids (/repo/src/util/consensus_util.go).
-/

namespace Poodle.Props
open Poodle Poodle.Spec

theorem uint32At_eq (pre : Bytes) (x : UInt32) (post : Bytes) :
    uint32At (pre ++ beBytes 4 x.toNat ++ post) pre.length = .ok x := by
  have hl := beBytes_length 4 x.toNat
  rw [uint32At, if_neg (by simp only [List.length_append]; omega), List.append_assoc, List.drop_left]
  rw [List.take_left' hl, beVal_beBytes, Res.ok.injEq]
  apply UInt32.toNat_inj.mp
  rw [UInt32.toNat_ofNat', show (256 ^ 4 : Nat) = 2 ^ 32 by decide, Nat.mod_mod, Nat.mod_eq_of_lt x.toNat_lt]

/-! ### C57 Ledger time round trip and order -/

theorem ledger_buf (e : UInt32) : (CTime.ledger e).buf = [1] ++ beBytes 4 e.toNat ++ [] := by
  simp [CTime.buf, putUint32]

/-- C57: five bytes, magic 1 and the big endian epoch, which parse back whatever follows. -/
theorem C57_ledger_roundtrip (e : UInt32) : (CTime.ledger e).buf.length = 5 ∧ (CTime.ledger e).buf.head? = some 1 ∧
    bigEndian ((CTime.ledger e).buf.drop 1) = e.toNat ∧
    ∀ rest, newConsensusTime ((CTime.ledger e).buf ++ rest) = .ok (.ledger e) := by
  rw [ledger_buf]
  refine ⟨by simp [beBytes_length], rfl, ?_, fun rest => ?_⟩
  · have hd : ([1] ++ beBytes 4 e.toNat ++ []).drop 1 = beBytes 4 e.toNat := by simp
    rw [hd, ← beVal_eq_bigEndian, beVal_beBytes, Nat.mod_eq_of_lt]
    exact e.toNat_lt
  · have h := uint32At_eq [1] e rest
    rw [List.append_nil]
    rw [List.append_assoc] at h ⊢
    simp only [List.cons_append, List.nil_append, List.length_cons, List.length_nil] at h ⊢
    rw [newConsensusTime, if_pos rfl, if_neg (by simp [beBytes_length]), h]
    rfl

/-- C57: the six comparisons are those of the epochs. -/
theorem C57_ledger_order (a b : UInt32) :
    (CTime.ledger a).gt (some (.ledger b)) = .ok (decide (b.toNat < a.toNat)) ∧
    (CTime.ledger a).ge (some (.ledger b)) = .ok (decide (b.toNat ≤ a.toNat)) ∧
    (CTime.ledger a).eq (some (.ledger b)) = .ok (decide (a.toNat = b.toNat)) ∧
    (CTime.ledger a).ne (some (.ledger b)) = .ok (decide (a.toNat ≠ b.toNat)) ∧
    (CTime.ledger a).lt (some (.ledger b)) = .ok (decide (a.toNat < b.toNat)) ∧
    (CTime.ledger a).le (some (.ledger b)) = .ok (decide (a.toNat ≤ b.toNat)) := by
  have he : (a == b) = decide (a.toNat = b.toNat) := by
    rw [Bool.eq_iff_iff]; simp [UInt32.toNat_inj]
  have hn : (a != b) = decide (a.toNat ≠ b.toNat) := by
    rw [bne, he]; simp
  refine ⟨rfl, rfl, ?_, ?_, rfl, rfl⟩
  · simp only [CTime.eq, he]
  · simp only [CTime.ne, hn]

example : (CTime.ledger 258).buf = [1, 0, 0, 1, 2] ∧ (CTime.ledger 5).gt (some (.ledger 3)) = .ok true := by decide +kernel

/-! ### C58 Raft time order -/

/-- The components of a raft time. -/
def raftKey (t m c : UInt32) : Nat × Nat × Nat := (t.toNat, m.toNat, c.toNat)

instance (a b : Nat × Nat × Nat) : Decidable (LexLt3 a b) := by unfold LexLt3; infer_instance

/-- The claim of C58. -/
def RaftOrder : Prop :=
  ∀ t m c t' m' c' : UInt32,
    let a := CTime.raft t m c
    let b := some (CTime.raft t' m' c')
    let x := raftKey t m c
    let y := raftKey t' m' c'
    a.gt b = .ok (decide (LexLt3 y x)) ∧ a.ge b = .ok (decide (LexLt3 y x ∨ x = y)) ∧ a.eq b = .ok (decide (x = y)) ∧
    a.ne b = .ok (decide (x ≠ y)) ∧ a.lt b = .ok (decide (LexLt3 x y)) ∧ a.le b = .ok (decide (LexLt3 x y ∨ x = y))

/-- C58 is false: (2,0,0) is reported less than (1,1,0) although it is greater. -/
theorem C58_refuted : ¬ RaftOrder := by
  intro h
  have := (h 2 0 0 1 1 0).2.2.2.2.1
  revert this
  decide +kernel

/-- C58 for GT, GE, EQ and NE: exactly the lexicographic order. -/
theorem C58_gt_ge_eq_ne_partial (t m c t' m' c' : UInt32) :
    (CTime.raft t m c).gt (some (.raft t' m' c')) = .ok (decide (LexLt3 (raftKey t' m' c') (raftKey t m c))) ∧
    (CTime.raft t m c).ge (some (.raft t' m' c')) =
      .ok (decide (LexLt3 (raftKey t' m' c') (raftKey t m c) ∨ raftKey t m c = raftKey t' m' c')) ∧
    (CTime.raft t m c).eq (some (.raft t' m' c')) = .ok (decide (raftKey t m c = raftKey t' m' c')) ∧
    (CTime.raft t m c).ne (some (.raft t' m' c')) = .ok (decide (raftKey t m c ≠ raftKey t' m' c')) := by
  have hE : raftKey t m c = raftKey t' m' c' ↔ t = t' ∧ m = m' ∧ c = c' := by
    simp only [raftKey, Prod.mk.injEq, UInt32.toNat_inj]
  refine ⟨?_, ?_, ?_, ?_⟩
  · simp only [CTime.gt, gt_iff_lt, UInt32.lt_iff_toNat_lt, raftKey, LexLt3]
    split_ifs <;> refine congrArg Res.ok (Eq.symm ?_) <;> first | (refine decide_eq_true ?_; omega) | (refine decide_eq_false ?_; omega)
  · simp only [CTime.ge, gt_iff_lt, UInt32.lt_iff_toNat_lt, raftKey, LexLt3, Prod.mk.injEq]
    split_ifs <;> refine congrArg Res.ok (Eq.symm ?_) <;> first | (refine decide_eq_true ?_; omega) | (refine decide_eq_false ?_; omega)
  · rw [CTime.eq, show decide (raftKey t m c = raftKey t' m' c') = decide (t = t' ∧ m = m' ∧ c = c') from decide_eq_decide.mpr hE]
    by_cases h1 : t = t' <;> by_cases h2 : m = m' <;> by_cases h3 : c = c' <;> simp [h1, h2, h3]
  · rw [CTime.ne, show decide (raftKey t m c ≠ raftKey t' m' c') = decide (¬ (t = t' ∧ m = m' ∧ c = c')) from decide_eq_decide.mpr (not_congr hE)]
    by_cases h1 : t = t' <;> by_cases h2 : m = m' <;> by_cases h3 : c = c' <;> simp [h1, h2, h3]

/-- C58 for LT, exactly: it holds when any one component is less; so it is the lexicographic order exactly when a later
component is not less while an earlier one is greater. -/
theorem C58_lt_partial (t m c t' m' c' : UInt32) :
    (CTime.raft t m c).lt (some (.raft t' m' c')) =
      .ok (decide (t.toNat < t'.toNat ∨ m.toNat < m'.toNat ∨ c.toNat < c'.toNat)) ∧
    ((CTime.raft t m c).lt (some (.raft t' m' c')) = .ok (decide (LexLt3 (raftKey t m c) (raftKey t' m' c'))) ↔
      ¬ (t'.toNat < t.toNat ∧ (m.toNat < m'.toNat ∨ c.toNat < c'.toNat)) ∧
      ¬ (t.toNat = t'.toNat ∧ m'.toNat < m.toNat ∧ c.toNat < c'.toNat)) := by
  have h : (CTime.raft t m c).lt (some (.raft t' m' c')) =
      .ok (decide (t.toNat < t'.toNat ∨ m.toNat < m'.toNat ∨ c.toNat < c'.toNat)) := by
    simp only [CTime.lt, UInt32.lt_iff_toNat_lt]
    split_ifs <;> refine congrArg Res.ok (Eq.symm ?_) <;> first | (refine decide_eq_true ?_; omega) | (refine decide_eq_false ?_; omega)
  refine ⟨h, ?_⟩
  rw [h, Res.ok.injEq, decide_eq_decide]
  simp only [raftKey, LexLt3]
  omega

/-- C58 for LE, exactly: it always answers true; so it is right exactly when the left side is not greater. -/
theorem C58_le_partial (t m c t' m' c' : UInt32) :
    (CTime.raft t m c).le (some (.raft t' m' c')) = .ok true ∧
    ((CTime.raft t m c).le (some (.raft t' m' c')) =
        .ok (decide (LexLt3 (raftKey t m c) (raftKey t' m' c') ∨ raftKey t m c = raftKey t' m' c')) ↔
      ¬ LexLt3 (raftKey t' m' c') (raftKey t m c)) := by
  have h : (CTime.raft t m c).le (some (.raft t' m' c')) = .ok true := by
    simp only [CTime.le]; split_ifs <;> rfl
  refine ⟨h, ?_⟩
  rw [h]
  simp only [Res.ok.injEq, raftKey, LexLt3, Prod.mk.injEq]
  rw [eq_comm, decide_eq_true_eq]
  omega

example : (CTime.raft 2 0 0).lt (some (.raft 1 1 0)) = .ok true ∧ (CTime.raft 2 0 0).gt (some (.raft 1 1 0)) = .ok true ∧
    (CTime.raft 2 0 0).le (some (.raft 1 0 0)) = .ok true ∧ LexLt3 (raftKey 1 9 9) (raftKey 2 0 0) := by decide +kernel

/-! ### C59 Raft time round trip -/

/-- The claim of C59. -/
def RaftRoundTrip : Prop := ∀ t m c : UInt32, newConsensusTime (CTime.raft t m c).buf = .ok (.raft t m c)

theorem raft_buf (t m c : UInt32) : (CTime.raft t m c).buf = beBytes 4 t.toNat ++ beBytes 4 m.toNat ++ beBytes 4 c.toNat ++ [0] := by
  have h1 : putUint32 ((List.replicate 13 0).set 0 0x02) 0 t = beBytes 4 t.toNat ++ [0, 0, 0, 0, 0, 0, 0, 0, 0] := by
    simp [putUint32]
  have hl := beBytes_length 4 t.toNat
  have hm := beBytes_length 4 m.toNat
  have h2 : putUint32 (beBytes 4 t.toNat ++ [0, 0, 0, 0, 0, 0, 0, 0, 0]) 4 m
      = beBytes 4 t.toNat ++ beBytes 4 m.toNat ++ [0, 0, 0, 0, 0] := by
    rw [putUint32, List.take_left' hl, List.drop_append, List.drop_eq_nil_of_le (by omega), hl]
    rfl
  have h3 : putUint32 (beBytes 4 t.toNat ++ beBytes 4 m.toNat ++ [0, 0, 0, 0, 0]) 8 c
      = beBytes 4 t.toNat ++ beBytes 4 m.toNat ++ beBytes 4 c.toNat ++ [0] := by
    have hlm : (beBytes 4 t.toNat ++ beBytes 4 m.toNat).length = 8 := by rw [List.length_append]; omega
    rw [putUint32, List.take_left' hlm, List.drop_append, List.drop_eq_nil_of_le (by omega), hlm]
    rfl
  rw [CTime.buf, h1, h2, h3]

/-- C59 is false: no raft time at all survives (proved for every raft time). -/
theorem C59_never_partial (t m c : UInt32) : newConsensusTime (CTime.raft t m c).buf ≠ .ok (.raft t m c) := by
  intro h
  rw [raft_buf] at h
  have hsplit : ∀ x : UInt32, ∃ b0 b1 b2 b3 : UInt8, beBytes 4 x.toNat = [b0, b1, b2, b3] := by
    intro x
    exact ⟨_, _, _, _, rfl⟩
  have hback : ∀ (x : UInt32) (e : Bytes), e.length = 4 → UInt32.ofNat (beVal e) = x → beBytes 4 x.toNat = e := by
    rintro x e he rfl
    have hlt : beVal e < 2 ^ 32 := by
      have := beVal_lt e
      rw [he] at this
      exact this
    rw [UInt32.toNat_ofNat', Nat.mod_eq_of_lt hlt, ← he, beBytes_beVal]
  obtain ⟨a0, a1, a2, a3, ha⟩ := hsplit t
  obtain ⟨b0, b1, b2, b3, hb⟩ := hsplit m
  obtain ⟨c0, c1, c2, c3, hc⟩ := hsplit c
  rw [ha, hb, hc] at h
  simp only [List.cons_append, List.nil_append] at h
  rw [newConsensusTime] at h
  split at h
  · rw [if_neg (by simp), Res.bind_eq_ok] at h
    obtain ⟨e, -, h⟩ := h
    simp at h
  · split at h
    · rename_i hmag
      have u1 : ∀ l : Bytes, ∀ n, n + 4 ≤ l.length → uint32At l n = .ok (UInt32.ofNat (beVal ((l.drop n).take 4))) := by
        intro l n hn
        rw [uint32At, if_neg (by omega)]
      rw [if_neg (by simp), u1 _ _ (by simp), u1 _ _ (by simp), u1 _ _ (by simp)] at h
      simp only [Res.bind_ok, Res.ok.injEq, CTime.raft.injEq] at h
      obtain ⟨h1, h2, h3⟩ := h
      have h1 := (hback _ _ (by simp) h1).symm.trans ha
      have h2 := (hback _ _ (by simp) h2).symm.trans hb
      have h3 := (hback _ _ (by simp) h3).symm.trans hc
      simp only [List.drop_succ_cons, List.drop_zero, List.take_succ_cons, List.take_zero, List.cons.injEq, and_true] at h1 h2 h3
      obtain ⟨e1, e2, e3, e4⟩ := h1
      obtain ⟨e5, e6, e7, e8⟩ := h2
      obtain ⟨e9, e10, e11, e12⟩ := h3
      have : (2 : UInt8) = 0 := by
        rw [← hmag, ← e1, ← e2, ← e3, ← e4, ← e5, ← e6, ← e7, ← e8, ← e9, ← e10, ← e11, ← e12]
      exact absurd this (by decide)
    · simp at h

theorem C59_refuted : ¬ RaftRoundTrip := fun h => C59_never_partial 0 0 0 (h 0 0 0)

example : (CTime.raft 1 2 3).buf = [0, 0, 0, 1, 0, 0, 0, 2, 0, 0, 0, 3, 0] ∧
    newConsensusTime (CTime.raft 0x02000000 2 3).buf = .ok (.raft 0 512 768) := by decide +kernel

/-! ### C60 Mixed-kind time comparisons are errors -/

/-- The kind of a time. -/
def isLedger : CTime → Bool
  | .ledger _ => true
  | .raft _ _ _ => false

/-- C60: all six comparisons of times of different kinds, or with the nil interface, are errors; all comparisons of times of the
same kind answer. -/
theorem C60_mixed_errors (a b : CTime) :
    (isLedger a ≠ isLedger b → a.gt (some b) = .err ∧ a.ge (some b) = .err ∧ a.eq (some b) = .err ∧ a.ne (some b) = .err ∧
      a.lt (some b) = .err ∧ a.le (some b) = .err) ∧
    (isLedger a = isLedger b → (∃ x, a.gt (some b) = .ok x) ∧ (∃ x, a.ge (some b) = .ok x) ∧ (∃ x, a.eq (some b) = .ok x) ∧
      (∃ x, a.ne (some b) = .ok x) ∧ (∃ x, a.lt (some b) = .ok x) ∧ (∃ x, a.le (some b) = .ok x)) ∧
    (a.gt none = .err ∧ a.ge none = .err ∧ a.eq none = .err ∧ a.ne none = .err ∧ a.lt none = .err ∧ a.le none = .err) := by
  rcases a with e | ⟨t, m, c⟩ <;> rcases b with e' | ⟨t', m', c'⟩
  · refine ⟨fun h => absurd rfl h, fun _ => ⟨⟨_, rfl⟩, ⟨_, rfl⟩, ⟨_, rfl⟩, ⟨_, rfl⟩, ⟨_, rfl⟩, ⟨_, rfl⟩⟩, rfl, rfl, rfl, rfl, rfl, rfl⟩
  · exact ⟨fun _ => ⟨rfl, rfl, rfl, rfl, rfl, rfl⟩, fun h => absurd h (by simp [isLedger]), rfl, rfl, rfl, rfl, rfl, rfl⟩
  · exact ⟨fun _ => ⟨rfl, rfl, rfl, rfl, rfl, rfl⟩, fun h => absurd h (by simp [isLedger]), rfl, rfl, rfl, rfl, rfl, rfl⟩
  · obtain ⟨h1, h2, h3, h4⟩ := C58_gt_ge_eq_ne_partial t m c t' m' c'
    exact ⟨fun h => absurd rfl h, fun _ => ⟨⟨_, h1⟩, ⟨_, h2⟩, ⟨_, h3⟩, ⟨_, h4⟩, ⟨_, (C58_lt_partial t m c t' m' c').1⟩,
      ⟨_, (C58_le_partial t m c t' m' c').1⟩⟩, rfl, rfl, rfl, rfl, rfl, rfl⟩

example : isLedger (.ledger 3) ≠ isLedger (.raft 1 2 3) := by decide

/-! ### C61 Consensus time parsing is total -/

/-- C61: NewConsensusTime never panics and succeeds exactly on these byte strings, with these values: magic 1 and at least four
more bytes, or magic 2 and at least twelve more bytes; what follows is ignored. -/
theorem C61_parse_iff (buf : Bytes) (t : CTime) : newConsensusTime buf ≠ .panic ∧ (newConsensusTime buf = .ok t ↔
    (∃ e rest, buf = 1 :: (e ++ rest) ∧ e.length = 4 ∧ ∃ x : UInt32, t = .ledger x ∧ x.toNat = bigEndian e) ∨
    (∃ a b c rest, buf = 2 :: (a ++ b ++ c ++ rest) ∧ a.length = 4 ∧ b.length = 4 ∧ c.length = 4 ∧
      ∃ x y z : UInt32, t = .raft x y z ∧ x.toNat = bigEndian a ∧ y.toNat = bigEndian b ∧ z.toNat = bigEndian c)) := by
  have hof : ∀ (e : Bytes), e.length = 4 → (UInt32.ofNat (beVal e)).toNat = bigEndian e := by
    intro e he
    rw [UInt32.toNat_ofNat', beVal_eq_bigEndian, Nat.mod_eq_of_lt]
    have := beVal_lt e
    rw [beVal_eq_bigEndian, he] at this
    exact this
  have hu : ∀ (pre e rest : Bytes), e.length = 4 → uint32At (pre ++ (e ++ rest)) pre.length = .ok (UInt32.ofNat (beVal e)) := by
    intro pre e rest he
    rw [uint32At, if_neg (by simp only [List.length_append]; omega), List.drop_left, List.take_left' he]
  have hinj : ∀ (x : UInt32) (e : Bytes), e.length = 4 → (UInt32.ofNat (beVal e) = x ↔ x.toNat = bigEndian e) := by
    intro x e he
    rw [← UInt32.toNat_inj, hof e he, eq_comm]
  rcases buf with - | ⟨magic, r⟩
  · simp [newConsensusTime]
  · rw [newConsensusTime]
    split
    · rename_i hm
      subst hm
      split
      · rename_i hl
        simp only [List.length_cons] at hl
        refine ⟨by simp, ⟨fun h => by simp at h, ?_⟩⟩
        rintro (⟨e, rest, he, hel, -⟩ | ⟨a, b, c, rest, he, -⟩)
        · simp only [List.cons.injEq, true_and] at he
          subst he
          simp only [List.length_append] at hl; omega
        · simp at he
      · rename_i hl
        simp only [List.length_cons] at hl
        have e1 : (1 : UInt8) :: r = [1] ++ (r.take 4 ++ r.drop 4) := by rw [List.take_append_drop]; rfl
        have hel : (r.take 4).length = 4 := by rw [List.length_take]; omega
        rw [show uint32At (1 :: r) 1 = .ok (UInt32.ofNat (beVal (r.take 4))) by
          rw [e1]; exact hu [1] (r.take 4) (r.drop 4) hel]
        refine ⟨by simp, ?_⟩
        simp only [Res.bind_ok, Res.ok.injEq]
        constructor
        · rintro rfl
          exact Or.inl ⟨r.take 4, r.drop 4, by rw [List.take_append_drop], hel, _, rfl, hof _ hel⟩
        · rintro (⟨e, rest, he, hel, x, rfl, hx⟩ | ⟨a, b, c, rest, he, -⟩)
          · simp only [List.cons.injEq, true_and] at he
            subst he
            have hel4 : e.length = 4 := by assumption
            rw [List.take_left' hel4, CTime.ledger.injEq, hinj x e hel4]
            exact hx
          · simp at he
    · rename_i hm
      split
      · rename_i hm2
        subst hm2
        split
        · rename_i hl
          simp only [List.length_cons] at hl
          refine ⟨by simp, ⟨fun h => by simp at h, ?_⟩⟩
          rintro (⟨e, rest, he, hel, -⟩ | ⟨a, b, c, rest, he, ha, hb, hc, -⟩)
          · simp at he
          · simp only [List.cons.injEq, true_and] at he
            subst he
            simp only [List.length_append] at hl; omega
        · rename_i hl
          simp only [List.length_cons] at hl
          obtain ⟨a, b, c, rest, rfl, ha, hb, hc⟩ : ∃ a b c rest : Bytes, r = a ++ (b ++ (c ++ rest)) ∧ a.length = 4 ∧ b.length = 4 ∧
              c.length = 4 := by
            refine ⟨r.take 4, (r.drop 4).take 4, ((r.drop 4).drop 4).take 4, ((r.drop 4).drop 4).drop 4, ?_, ?_, ?_, ?_⟩
            · simp only [List.take_append_drop]
            all_goals simp only [List.length_take, List.length_drop]; omega
          have h1 : uint32At (2 :: (a ++ (b ++ (c ++ rest)))) 1 = .ok (UInt32.ofNat (beVal a)) := hu [2] a _ ha
          have h2 : uint32At (2 :: (a ++ (b ++ (c ++ rest)))) 5 = .ok (UInt32.ofNat (beVal b)) := by
            have := hu (2 :: a) b (c ++ rest) hb
            rwa [List.length_cons, ha] at this
          have h3 : uint32At (2 :: (a ++ (b ++ (c ++ rest)))) 9 = .ok (UInt32.ofNat (beVal c)) := by
            have := hu (2 :: (a ++ b)) c rest hc
            rwa [List.length_cons, List.length_append, ha, hb, List.cons_append, List.append_assoc] at this
          rw [h1, h2, h3]
          refine ⟨by simp, ?_⟩
          simp only [Res.bind_ok, Res.ok.injEq]
          constructor
          · rintro rfl
            exact Or.inr ⟨a, b, c, rest, by simp only [List.append_assoc], ha, hb, hc, _, _, _, rfl, hof a ha, hof b hb, hof c hc⟩
          · rintro (⟨e, rest, he, -⟩ | ⟨a', b', c', rest', he, ha', hb', hc', x, y, z, rfl, hx, hy, hz⟩)
            · simp at he
            · simp only [List.cons.injEq, true_and, List.append_assoc] at he
              obtain ⟨ea, he⟩ := List.append_inj he (ha.trans ha'.symm)
              obtain ⟨eb, he⟩ := List.append_inj he (hb.trans hb'.symm)
              obtain ⟨ec, he⟩ := List.append_inj he (hc.trans hc'.symm)
              rw [← ea] at hx
              rw [← eb] at hy
              rw [← ec] at hz
              rw [CTime.raft.injEq, hinj x _ ha, hinj y _ hb, hinj z _ hc]
              exact ⟨hx, hy, hz⟩
      · rename_i hm2
        refine ⟨by simp, ⟨fun h => by simp at h, ?_⟩⟩
        rintro (⟨e, rest, he, -⟩ | ⟨a, b, c, rest, he, -⟩)
        · simp only [List.cons.injEq] at he; exact absurd he.1 hm
        · simp only [List.cons.injEq] at he; exact absurd he.1 hm2

example : newConsensusTime [2, 0, 0, 0, 1, 0, 0, 0, 2, 0, 0, 1, 0, 99] = .ok (.raft 1 2 256) ∧ newConsensusTime [1, 0, 0, 1] = .err ∧
    newConsensusTime [3, 0, 0, 0, 0, 0] = .err := by decide +kernel

/-! ### C62 Consensus id parsing -/

theorem bit_eq (m : UInt8) : ((m >>> 7) &&& 0x01 ≠ 0 ↔ bit m 7 = true) ∧ ((m >>> 6) &&& 0x01 ≠ 0 ↔ bit m 6 = true) ∧
    ((m >>> 5) &&& 0x01 ≠ 0 ↔ bit m 5 = true) ∧ ((m >>> 4) &&& 0x01 ≠ 0 ↔ bit m 4 = true) ∧
    ((m >>> 3) &&& 0x01 ≠ 0 ↔ bit m 3 = true) ∧ (m &&& 0x7 ≠ 0 ↔ m.toNat % 8 ≠ 0) := by
  have h : ∀ n : Fin 256, ((UInt8.ofNat n.val >>> 7) &&& 0x01 ≠ 0 ↔ bit (UInt8.ofNat n.val) 7 = true) ∧
      ((UInt8.ofNat n.val >>> 6) &&& 0x01 ≠ 0 ↔ bit (UInt8.ofNat n.val) 6 = true) ∧
      ((UInt8.ofNat n.val >>> 5) &&& 0x01 ≠ 0 ↔ bit (UInt8.ofNat n.val) 5 = true) ∧
      ((UInt8.ofNat n.val >>> 4) &&& 0x01 ≠ 0 ↔ bit (UInt8.ofNat n.val) 4 = true) ∧
      ((UInt8.ofNat n.val >>> 3) &&& 0x01 ≠ 0 ↔ bit (UInt8.ofNat n.val) 3 = true) ∧
      (UInt8.ofNat n.val &&& 0x7 ≠ 0 ↔ (UInt8.ofNat n.val).toNat % 8 ≠ 0) := by decide +kernel
  have := h ⟨m.toNat, m.toNat_lt⟩
  simpa only [UInt8.ofNat_toNat] using this

theorem cidField_eq (pre r : Bytes) (m b : UInt8) (i : Nat) (hb : (m >>> b) &&& 0x01 ≠ 0 ↔ bit m i = true) (f : Slice) (p : Nat) :
    cidField (pre ++ r) m b pre.length = .ok (f, p) ↔ CidField (bit m i) f ∧ f.bytes <+: r ∧ p = (pre ++ f.bytes).length := by
  rw [cidField]
  by_cases h : bit m i = true
  · rw [if_pos (hb.mpr h), h]
    split
    · rename_i hl
      simp only [List.length_append] at hl
      refine ⟨fun h => by simp at h, ?_⟩
      rintro ⟨hf, hp, -⟩
      rcases hf with ⟨-, hf, -⟩ | ⟨hf, -⟩
      · have := hp.length_le; omega
      · simp at hf
    · rename_i hl
      simp only [List.length_append] at hl
      have hg : goSlice (pre ++ r) (pre.length : Int) (pre.length + 32) = .ok (r.take 32) := by
        rw [goSlice, if_pos ⟨by omega, by omega, by rw [List.length_append]; omega⟩]
        rw [show ((pre.length : Int) + 32).toNat = pre.length + 32 by omega, Int.toNat_natCast, List.take_append,
          List.take_of_length_le (by omega), List.drop_left]
        simp
      have hl32 : (r.take 32).length = 32 := by rw [List.length_take]; omega
      rw [hg]
      simp only [Res.bind_ok, Res.ok.injEq, Prod.mk.injEq]
      constructor
      · rintro ⟨rfl, rfl⟩
        refine ⟨Or.inl ⟨rfl, hl32, by simp⟩, List.take_prefix _ _, ?_⟩
        simp only [Slice.bytes, Option.getD_some, List.length_append, hl32]
      · rintro ⟨hf, hp, rfl⟩
        rcases hf with ⟨-, hf, hn⟩ | ⟨hf, -⟩
        · rcases f with - | f
          · exact absurd rfl hn
          · simp only [Slice.bytes, Option.getD_some] at *
            obtain ⟨r', rfl⟩ := hp
            rw [List.take_left' hf]
            simp [hf]
        · simp at hf
  · rw [if_neg (fun hc => h (hb.mp hc))]
    simp only [Bool.not_eq_true] at h
    rw [h]
    simp only [Res.ok.injEq, Prod.mk.injEq]
    constructor
    · rintro ⟨rfl, rfl⟩
      exact ⟨Or.inr ⟨rfl, rfl⟩, by simp [Slice.bytes], by simp [Slice.bytes]⟩
    · rintro ⟨hf, hp, rfl⟩
      rcases hf with ⟨hf, -⟩ | ⟨-, rfl⟩
      · simp at hf
      · simp [Slice.bytes]

theorem cidField_ne_panic (buf : Bytes) (m b : UInt8) (pos : Nat) : cidField buf m b pos ≠ .panic := by
  rw [cidField]
  split
  · split
    · simp
    · rename_i hl
      rw [goSlice, if_pos ⟨by omega, by omega, by omega⟩]
      simp
  · simp

theorem goSlice_prefix (a r : Bytes) : goSlice (a ++ r) 0 (a.length : Int) = .ok a := by
  rw [goSlice, if_pos ⟨by omega, by omega, by rw [List.length_append]; omega⟩]
  simp

theorem goSlice_mid (pre a r : Bytes) (x y : Int) (hx : x = pre.length) (hy : y = (pre ++ a).length) :
    goSlice (pre ++ (a ++ r)) x y = .ok a := by
  subst hx hy
  rw [goSlice, if_pos ⟨by omega, by rw [List.length_append]; omega, by simp only [List.length_append]; omega⟩]
  rw [Int.toNat_natCast, Int.toNat_natCast, ← List.append_assoc, List.take_left, List.drop_left]

/-- C62: NewMappedConsensusID accepts exactly the byte strings starting with a consensus id, and then the fields are the
consecutive slices selected by the magic byte and Buf() is the consumed prefix. -/
theorem C62_parse_iff (buf : Bytes) (c : ConsensusID) : newMappedConsensusID buf = .ok c ↔ IsCid buf c := by
  rcases buf with - | ⟨magic, r⟩
  · refine ⟨fun h => by simp [newMappedConsensusID] at h, fun h => ?_⟩
    have := h.pre
    rw [h.encoded] at this
    simp at this
  obtain ⟨b7, b6, b5, b4, b3, bres⟩ := bit_eq magic
  constructor
  · intro h
    rw [newMappedConsensusID] at h
    split at h
    · simp at h
    rename_i h0
    split at h
    · simp at h
    rename_i h1
    rw [Res.bind_eq_ok] at h
    obtain ⟨⟨u, p1⟩, e1, h⟩ := h
    simp only at h
    rw [Res.bind_eq_ok] at h
    obtain ⟨⟨cl, p2⟩, e2, h⟩ := h
    simp only at h
    rw [Res.bind_eq_ok] at h
    obtain ⟨⟨f, p3⟩, e3, h⟩ := h
    simp only at h
    rw [Res.bind_eq_ok] at h
    obtain ⟨⟨s, p4⟩, e4, h⟩ := h
    simp only at h
    have e1' := (cidField_eq [magic] r magic 7 7 b7 u p1).mp e1
    obtain ⟨f1, ⟨r1, rfl⟩, rfl⟩ := e1'
    rw [show magic :: (u.bytes ++ r1) = ([magic] ++ u.bytes) ++ r1 by simp] at e2
    obtain ⟨f2, ⟨r2, rfl⟩, rfl⟩ := (cidField_eq _ _ magic 6 6 b6 cl p2).mp e2
    rw [show magic :: (u.bytes ++ (cl.bytes ++ r2)) = ([magic] ++ u.bytes ++ cl.bytes) ++ r2 by simp] at e3
    obtain ⟨f3, ⟨r3, rfl⟩, rfl⟩ := (cidField_eq _ _ magic 5 5 b5 f p3).mp e3
    rw [show magic :: (u.bytes ++ (cl.bytes ++ (f.bytes ++ r3))) = ([magic] ++ u.bytes ++ cl.bytes ++ f.bytes) ++ r3 by simp] at e4
    obtain ⟨f4, ⟨r4, rfl⟩, rfl⟩ := (cidField_eq _ _ magic 4 4 b4 s p4).mp e4
    have hres : magic.toNat % 8 = 0 := by
      by_contra hc; exact h1 (bres.mpr hc)
    rw [show magic :: (u.bytes ++ (cl.bytes ++ (f.bytes ++ (s.bytes ++ r4)))) = ([magic] ++ u.bytes ++ cl.bytes ++ f.bytes ++ s.bytes) ++ r4
      by simp] at h ⊢
    generalize hP : [magic] ++ u.bytes ++ cl.bytes ++ f.bytes ++ s.bytes = P at h ⊢
    split at h
    · rename_i h3
      split at h
      · simp at h
      · rename_i hl
        simp only [List.length_append] at hl
        have er : r4 = r4.take 32 ++ ((r4.drop 32).take 32 ++ (r4.drop 32).drop 32) := by
          rw [List.take_append_drop, List.take_append_drop]
        have ha : (r4.take 32).length = 32 := by rw [List.length_take]; omega
        have hb : ((r4.drop 32).take 32).length = 32 := by rw [List.length_take, List.length_drop]; omega
        generalize r4.take 32 = a at er ha
        generalize (r4.drop 32).take 32 = b at er hb
        generalize (r4.drop 32).drop 32 = r5 at er
        subst er
        rw [goSlice_mid P a (b ++ r5) _ _ (by omega) (by rw [List.length_append]; omega)] at h
        simp only [Res.bind_ok] at h
        rw [show P ++ (a ++ (b ++ r5)) = (P ++ a) ++ (b ++ r5) by simp,
          goSlice_mid (P ++ a) b r5 _ _ (by rw [List.length_append]; omega) (by simp only [List.length_append]; omega)] at h
        simp only [Res.bind_ok] at h
        rw [show P ++ a ++ (b ++ r5) = (P ++ a ++ b) ++ r5 by simp,
          show ((P.length : Int) + 64) = ((P ++ a ++ b).length : Nat) by simp only [List.length_append]; omega, goSlice_prefix] at h
        simp only [Res.bind_ok, Res.ok.injEq] at h
        subst h
        refine ⟨h0, hres, f1, f2, f3, f4, Or.inl ⟨b3.mp h3, ha, by simp⟩, Or.inl ⟨b3.mp h3, hb, by simp⟩, ?_, ?_⟩
        · rw [← hP]; simp [Slice.bytes]
        · simp only
          exact ⟨r5, by simp⟩
    · rename_i h3
      have h3 : bit magic 3 = false := by
        rw [← Bool.not_eq_true]; exact fun hc => h3 (b3.mpr hc)
      rw [goSlice_prefix] at h
      simp only [Res.bind_ok, Res.ok.injEq] at h
      subst h
      refine ⟨h0, hres, f1, f2, f3, f4, Or.inr ⟨h3, rfl⟩, Or.inr ⟨h3, rfl⟩, ?_, ?_⟩
      · rw [← hP]; simp [Slice.bytes]
      · simp only
        exact ⟨r4, rfl⟩
  · intro h
    rcases c with ⟨m, u, cl, f, s, a, b, cb⟩
    obtain ⟨h0, hres, f1, f2, f3, f4, f5, f6, hbuf, ⟨rest, hpre⟩⟩ := h
    simp only at *
    subst hbuf
    simp only [List.cons_append, List.cons.injEq] at hpre
    obtain ⟨rfl, rfl⟩ := hpre
    rw [newMappedConsensusID, if_neg h0, if_neg (fun hc => bres.mp hc hres)]
    have e1 : cidField (m :: (u.bytes ++ cl.bytes ++ f.bytes ++ s.bytes ++ a.bytes ++ b.bytes ++ rest)) m 7 1
        = .ok (u, ([m] ++ u.bytes).length) := (cidField_eq [m] _ m 7 7 b7 u _).mpr ⟨f1, by simp [List.append_assoc], rfl⟩
    rw [e1, Res.bind_ok]
    simp only
    have e2 : cidField (m :: (u.bytes ++ cl.bytes ++ f.bytes ++ s.bytes ++ a.bytes ++ b.bytes ++ rest)) m 6 ([m] ++ u.bytes).length
        = .ok (cl, ([m] ++ u.bytes ++ cl.bytes).length) := by
      have := (cidField_eq ([m] ++ u.bytes) (cl.bytes ++ f.bytes ++ s.bytes ++ a.bytes ++ b.bytes ++ rest) m 6 6 b6 cl _).mpr
        ⟨f2, by simp [List.append_assoc], rfl⟩
      rw [← this]; simp
    rw [e2, Res.bind_ok]
    simp only
    have e3 : cidField (m :: (u.bytes ++ cl.bytes ++ f.bytes ++ s.bytes ++ a.bytes ++ b.bytes ++ rest)) m 5
        ([m] ++ u.bytes ++ cl.bytes).length = .ok (f, ([m] ++ u.bytes ++ cl.bytes ++ f.bytes).length) := by
      have := (cidField_eq ([m] ++ u.bytes ++ cl.bytes) (f.bytes ++ s.bytes ++ a.bytes ++ b.bytes ++ rest) m 5 5 b5 f _).mpr
        ⟨f3, by simp [List.append_assoc], rfl⟩
      rw [← this]; simp
    rw [e3, Res.bind_ok]
    simp only
    have e4 : cidField (m :: (u.bytes ++ cl.bytes ++ f.bytes ++ s.bytes ++ a.bytes ++ b.bytes ++ rest)) m 4
        ([m] ++ u.bytes ++ cl.bytes ++ f.bytes).length = .ok (s, ([m] ++ u.bytes ++ cl.bytes ++ f.bytes ++ s.bytes).length) := by
      have := (cidField_eq ([m] ++ u.bytes ++ cl.bytes ++ f.bytes) (s.bytes ++ a.bytes ++ b.bytes ++ rest) m 4 4 b4 s _).mpr
        ⟨f4, by simp [List.append_assoc], rfl⟩
      rw [← this]; simp
    rw [e4, Res.bind_ok]
    simp only
    have hP : m :: (u.bytes ++ cl.bytes ++ f.bytes ++ s.bytes ++ a.bytes ++ b.bytes ++ rest)
        = ([m] ++ u.bytes ++ cl.bytes ++ f.bytes ++ s.bytes) ++ (a.bytes ++ (b.bytes ++ rest)) := by simp
    have hQ : m :: (u.bytes ++ cl.bytes ++ f.bytes ++ s.bytes ++ a.bytes ++ b.bytes)
        = ([m] ++ u.bytes ++ cl.bytes ++ f.bytes ++ s.bytes) ++ a.bytes ++ b.bytes := by simp
    rw [hP, hQ]
    generalize [m] ++ u.bytes ++ cl.bytes ++ f.bytes ++ s.bytes = P
    rcases f5 with ⟨h3, ha, han⟩ | ⟨h3, rfl⟩
    · rcases f6 with ⟨-, hb, hbn⟩ | ⟨h3', -⟩
      · rcases a with - | a
        · exact absurd rfl han
        rcases b with - | b
        · exact absurd rfl hbn
        have sb : ∀ x : Bytes, Slice.bytes (some x) = x := fun _ => rfl
        rw [sb] at ha hb
        rw [sb a, sb b]
        rw [if_pos (b3.mpr h3), if_neg (by simp only [List.length_append]; omega),
          goSlice_mid P a (b ++ rest) _ _ (by omega) (by rw [List.length_append]; omega)]
        simp only [Res.bind_ok]
        rw [show P ++ (a ++ (b ++ rest)) = (P ++ a) ++ (b ++ rest) by simp,
          goSlice_mid (P ++ a) b rest _ _ (by rw [List.length_append]; omega) (by simp only [List.length_append]; omega)]
        simp only [Res.bind_ok]
        rw [show P ++ a ++ (b ++ rest) = (P ++ a ++ b) ++ rest by simp,
          show ((P.length : Int) + 64) = ((P ++ a ++ b).length : Nat) by simp only [List.length_append]; omega, goSlice_prefix]
        rfl
      · rw [h3] at h3'; simp at h3'
    · rcases f6 with ⟨h3', -⟩ | ⟨-, rfl⟩
      · rw [h3] at h3'; simp at h3'
      · rw [if_neg (fun hc => by rw [b3.mp hc] at h3; simp at h3), goSlice_prefix]
        simp [Slice.bytes]

/-- C62: parsing succeeds if and only if the magic byte is not zero, its reserved bits are zero, and the buffer is long enough. -/
theorem C62_accepts_iff (m : UInt8) (r : Bytes) : (∃ c, newMappedConsensusID (m :: r) = .ok c) ↔
    m ≠ 0 ∧ m.toNat % 8 = 0 ∧ cidLength m ≤ (m :: r).length := by
  constructor
  · rintro ⟨c, h⟩
    rw [C62_parse_iff] at h
    obtain ⟨h0, hres, f1, f2, f3, f4, f5, f6, hbuf, hpre⟩ := h
    have hl := hpre.length_le
    obtain ⟨rest, hpre⟩ := hpre
    rw [hbuf] at hl hpre
    simp only [List.cons_append, List.cons.injEq] at hpre
    rw [hpre.1] at h0 hres f1 f2 f3 f4 f5 f6
    refine ⟨h0, hres, le_trans ?_ hl⟩
    have hf : ∀ (i : Nat) (f : Slice), CidField (bit m i) f → f.bytes.length = 32 * (bit m i).toNat := by
      rintro i f (⟨h1, h2, -⟩ | ⟨h1, rfl⟩)
      · rw [h1, h2]; rfl
      · rw [h1]; rfl
    rw [cidLength]
    simp only [List.length_cons, List.length_append, hf _ _ f1, hf _ _ f2, hf _ _ f3, hf _ _ f4, hf _ _ f5, hf _ _ f6]
    omega
  · rintro ⟨h0, hres, hl⟩
    let fld (i : Nat) (o : Nat) : Slice := if bit m i then some ((r.drop o).take 32) else none
    have hfl : ∀ i o, o + 32 * (bit m i).toNat ≤ r.length → CidField (bit m i) (fld i o) ∧
        (fld i o).bytes = (r.drop o).take (32 * (bit m i).toNat) := by
      intro i o ho
      simp only [fld]
      cases hb : bit m i with
      | true =>
        rw [hb] at ho
        refine ⟨Or.inl ⟨rfl, ?_, by simp⟩, by simp [Slice.bytes]⟩
        simp only [Slice.bytes, if_true, Option.getD_some, List.length_take, List.length_drop]
        simp only [Bool.toNat_true] at ho
        omega
      | false => exact ⟨Or.inr ⟨rfl, rfl⟩, by simp [Slice.bytes]⟩
    have hjoin : ∀ o k, r.take o ++ (r.drop o).take k = r.take (o + k) := fun o k => by rw [List.take_add]
    simp only [cidLength, List.length_cons] at hl
    obtain ⟨f1, t1⟩ := hfl 7 0 (by omega)
    obtain ⟨f2, t2⟩ := hfl 6 (0 + 32 * (bit m 7).toNat) (by omega)
    obtain ⟨f3, t3⟩ := hfl 5 (0 + 32 * (bit m 7).toNat + 32 * (bit m 6).toNat) (by omega)
    obtain ⟨f4, t4⟩ := hfl 4 (0 + 32 * (bit m 7).toNat + 32 * (bit m 6).toNat + 32 * (bit m 5).toNat) (by omega)
    obtain ⟨f5, t5⟩ := hfl 3 (0 + 32 * (bit m 7).toNat + 32 * (bit m 6).toNat + 32 * (bit m 5).toNat + 32 * (bit m 4).toNat) (by omega)
    obtain ⟨f6, t6⟩ := hfl 3 (0 + 32 * (bit m 7).toNat + 32 * (bit m 6).toNat + 32 * (bit m 5).toNat + 32 * (bit m 4).toNat
      + 32 * (bit m 3).toNat) (by omega)
    generalize fld 7 _ = g1 at f1 t1
    generalize fld 6 _ = g2 at f2 t2
    generalize fld 5 _ = g3 at f3 t3
    generalize fld 4 _ = g4 at f4 t4
    generalize fld 3 (0 + 32 * (bit m 7).toNat + 32 * (bit m 6).toNat + 32 * (bit m 5).toNat + 32 * (bit m 4).toNat) = g5 at f5 t5
    generalize fld 3 _ = g6 at f6 t6
    refine ⟨⟨m, g1, g2, g3, g4, g5, g6, m :: (g1.bytes ++ g2.bytes ++ g3.bytes ++ g4.bytes ++ g5.bytes ++ g6.bytes)⟩,
      (C62_parse_iff _ _).mpr ⟨h0, hres, f1, f2, f3, f4, f5, f6, rfl, ?_⟩⟩
    simp only
    rw [t1, t2, t3, t4, t5, t6, List.drop_zero]
    have h01 : r.take (32 * (bit m 7).toNat) = r.take (0 + 32 * (bit m 7).toNat) := by rw [Nat.zero_add]
    rw [h01, hjoin, hjoin, hjoin, hjoin, hjoin]
    exact List.cons_prefix_cons.mpr ⟨rfl, List.take_prefix _ _⟩

/-- C62: Copy of a parsed id is the same id. -/
theorem C62_copy (buf : Bytes) (c : ConsensusID) (h : newMappedConsensusID buf = .ok c) : c.copy = .ok c := by
  have h1 := (C62_parse_iff buf c).mp h
  have : newMappedConsensusID c.buf = .ok c :=
    (C62_parse_iff c.buf c).mpr { h1 with pre := List.prefix_rfl }
  rw [ConsensusID.copy, this]

example : newMappedConsensusID (0x48 :: (List.replicate 32 1 ++ List.replicate 32 2 ++ List.replicate 32 3 ++ [9])) =
    .ok ⟨0x48, none, some (List.replicate 32 1), none, none, some (List.replicate 32 2), some (List.replicate 32 3),
      0x48 :: (List.replicate 32 1 ++ List.replicate 32 2 ++ List.replicate 32 3)⟩ := by decide +kernel

/-! ### C85 Consensus id parsing does not crash -/

/-- The claim of C85. -/
def CidNoPanic : Prop := ∀ buf, newMappedConsensusID buf ≠ .panic

/-- C85, exactly: only the empty buffer panics. -/
theorem C85_panics_iff_partial (buf : Bytes) : newMappedConsensusID buf = .panic ↔ buf = [] := by
  rcases buf with - | ⟨m, r⟩
  · simp [newMappedConsensusID]
  · simp only [reduceCtorEq, iff_false]
    rw [newMappedConsensusID]
    split
    · simp
    split
    · simp
    rcases h1 : cidField (m :: r) m 7 1 with ⟨u, p1⟩ | - | -
    · rw [Res.bind_ok]
      simp only
      rcases h2 : cidField (m :: r) m 6 p1 with ⟨c, p2⟩ | - | -
      · rw [Res.bind_ok]
        simp only
        rcases h3 : cidField (m :: r) m 5 p2 with ⟨f, p3⟩ | - | -
        · rw [Res.bind_ok]
          simp only
          rcases h4 : cidField (m :: r) m 4 p3 with ⟨s, p4⟩ | - | -
          · rw [Res.bind_ok]
            simp only
            have hb : ∀ b p f p', p ≤ (m :: r).length → cidField (m :: r) m b p = .ok (f, p') → p' ≤ (m :: r).length := by
              intro b p f p' hp h
              rw [cidField] at h
              split at h
              · split at h
                · simp at h
                · rw [Res.bind_eq_ok] at h
                  obtain ⟨x, -, h⟩ := h
                  simp only [Res.ok.injEq, Prod.mk.injEq] at h
                  omega
              · simp only [Res.ok.injEq, Prod.mk.injEq] at h
                omega
            have hp := hb 4 _ _ _ (hb 5 _ _ _ (hb 6 _ _ _ (hb 7 _ _ _ (by simp) h1) h2) h3) h4
            split
            · split
              · simp
              · rename_i hl
                rw [goSlice, if_pos ⟨by omega, by omega, by omega⟩, Res.bind_ok, goSlice, if_pos ⟨by omega, by omega, by omega⟩,
                  Res.bind_ok, goSlice, if_pos ⟨by omega, by omega, by omega⟩]
                simp
            · rw [goSlice, if_pos ⟨by omega, by omega, by omega⟩]
              simp
          · simp
          · exact absurd h4 (cidField_ne_panic _ _ _ _)
        · simp
        · exact absurd h3 (cidField_ne_panic _ _ _ _)
      · simp
      · exact absurd h2 (cidField_ne_panic _ _ _ _)
    · simp
    · exact absurd h1 (cidField_ne_panic _ _ _ _)

theorem C85_refuted : ¬ CidNoPanic := fun h => h [] rfl

end Poodle.Props
