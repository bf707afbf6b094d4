import Verif.Spec.Value
import Verif.Lemmas.Key
import Verif.Lemmas.Conv

namespace Poodle
open Spec

theorem goByte_of_drop {buf rest : Bytes} {b : UInt8} {pos : Nat} (h : buf.drop pos = b :: rest) : goByte buf pos = .ok b := by
  have : buf[pos]? = some b := by
    have := congrArg (fun l => l[0]?) h
    simpa using this
  simp [goByte, this]

theorem be16At_of_drop {buf rest : Bytes} {b c : UInt8} {pos : Nat} (h : buf.drop pos = b :: c :: rest) :
    be16At buf pos = .ok (b.toNat * 256 + c.toNat) := by
  have h2 : buf.drop (pos + 1) = c :: rest := by
    rw [← List.drop_drop, h]; rfl
  simp [be16At, goByte_of_drop h, goByte_of_drop h2]

theorem length_of_drop {buf a b : Bytes} {pos : Nat} (h : buf.drop pos = a ++ b) (hne : a ≠ []) :
    buf.length = pos + a.length + b.length := by
  have := congrArg List.length h
  simp only [List.length_drop, List.length_append] at this
  have : 0 < a.length := List.length_pos_iff.mpr hne
  omega

theorem drop_one {buf : Bytes} {pos : Nat} (h : 1 + pos ≤ buf.length) : ∃ b rest, buf.drop pos = b :: rest := by
  rcases e : buf.drop pos with - | ⟨b, rest⟩
  · rw [List.drop_eq_nil_iff] at e; omega
  · exact ⟨b, rest, rfl⟩

theorem drop_two {buf : Bytes} {pos : Nat} (h : 2 + pos ≤ buf.length) : ∃ b c rest, buf.drop pos = b :: c :: rest := by
  obtain ⟨b, r, e⟩ := drop_one (buf := buf) (pos := pos) (by omega)
  obtain ⟨c, r', e'⟩ := drop_one (buf := buf) (pos := pos + 1) (by omega)
  rw [← List.drop_drop, e] at e'
  exact ⟨b, c, r', by rw [e]; simpa using e'⟩

theorem forall_u8 {P : UInt8 → Prop} (h : ∀ i : Fin 256, P (UInt8.ofNat i)) (m : UInt8) : P m := by
  have := h ⟨m.toNat, m.toNat_lt⟩
  simpa using this

theorem Spec.IsCount.length_le {bits : UInt8} {o : Option Nat} {c : Bytes} (h : IsCount bits o c) : c.length ≤ 2 := by
  cases h <;> simp

theorem Spec.IsCount.lt {bits : UInt8} {o : Option Nat} {c : Bytes} (h : IsCount bits o c) : o.getD 0 < 65536 := by
  cases h with
  | none => simp
  | one b => have := b.toNat_lt; simp; omega
  | two hi lo => have := hi.toNat_lt; have := lo.toNat_lt; simp; omega

/-- Decoding an announced number. -/
theorem decodeCount_of {buf : Bytes} {bits : UInt8} {isSet : Bool} {pos : Nat} {o : Option Nat} {c rest : Bytes}
    (h : IsCount bits o c) (hd : buf.drop pos = c ++ rest) (hs : isSet = true → o = none) :
    decodeCount buf bits isSet pos = .ok (o, pos + c.length) := by
  cases h with
  | none => simp [decodeCount]
  | one b =>
    have hl := length_of_drop hd (by simp)
    have hset : isSet = false := by
      cases isSet
      · rfl
      · exact absurd (hs rfl) (by simp)
    rw [decodeCount, if_neg (by decide), if_pos rfl, hset]
    simp only [Bool.false_eq_true, if_false, List.length_singleton] at hl ⊢
    rw [if_neg (by omega), goByte_of_drop hd]
    simp
  | two hi lo =>
    have hl := length_of_drop hd (by simp)
    have hset : isSet = false := by
      cases isSet
      · rfl
      · exact absurd (hs rfl) (by simp)
    rw [decodeCount, if_neg (by decide), if_neg (by decide), if_pos rfl, hset]
    simp only [Bool.false_eq_true, if_false, List.length_cons, List.length_nil] at hl ⊢
    rw [if_neg (by omega), be16At_of_drop hd]
    simp

/-- The possible outcomes of decoding an announced number. -/
theorem decodeCount_cases (buf : Bytes) (bits : UInt8) (isSet : Bool) (pos : Nat) :
    decodeCount buf bits isSet pos = .err ∨
    ∃ o c rest, IsCount bits o c ∧ buf.drop pos = c ++ rest ∧ (isSet = true → o = none) ∧
      decodeCount buf bits isSet pos = .ok (o, pos + c.length) := by
  by_cases h0 : bits = 0
  · subst h0
    right
    exact ⟨none, [], buf.drop pos, .none, rfl, fun _ => rfl, by simp [decodeCount]⟩
  by_cases h1 : bits = 1
  · subst h1
    by_cases hs : isSet = true
    · left; simp [decodeCount, hs]
    · by_cases hl : buf.length < 1 + pos
      · left; simp [decodeCount, hl, hs]
      · right
        obtain ⟨b, rest, e⟩ := drop_one (buf := buf) (pos := pos) (by omega)
        exact ⟨_, [b], rest, .one b, e, fun h => absurd h hs, decodeCount_of (.one b) e fun h => absurd h hs⟩
  by_cases h2 : bits = 2
  · subst h2
    by_cases hs : isSet = true
    · left; simp [decodeCount, hs]
    · by_cases hl : buf.length < 2 + pos
      · left; simp [decodeCount, hl, hs]
      · right
        obtain ⟨b, c, rest, e⟩ := drop_two (buf := buf) (pos := pos) (by omega)
        exact ⟨_, [b, c], rest, .two b c, e, fun h => absurd h hs, decodeCount_of (.two b c) e fun h => absurd h hs⟩
  · left; simp [decodeCount, h0, h1, h2]

/-- Decoding the content. -/
theorem decodeContent_of {buf : Bytes} {bits : UInt8} {pos : Nat} {o : Option Nat} {l content rest : Bytes}
    (h : IsCount bits o l) (hc : content.length = o.getD 0) (hd : buf.drop pos = l ++ content ++ rest) :
    decodeContent buf bits pos = .ok (content.length, pos + l.length + content.length) := by
  cases h with
  | none =>
    have : content = [] := List.length_eq_zero_iff.mp (by simpa using hc)
    subst this
    simp [decodeContent]
  | one b =>
    simp only [Option.getD_some] at hc
    rw [List.append_assoc] at hd
    have hl := length_of_drop hd (by simp)
    simp only [List.length_append, List.length_singleton] at hl
    rw [decodeContent, if_neg (by decide), if_pos rfl, if_neg (by omega), goByte_of_drop hd, Res.bind_ok, if_neg (by omega), hc]
    simp [Nat.add_assoc]
  | two hi lo =>
    simp only [Option.getD_some] at hc
    rw [List.append_assoc] at hd
    have hl := length_of_drop hd (by simp)
    simp only [List.length_append, List.length_cons, List.length_nil] at hl
    rw [decodeContent, if_neg (by decide), if_neg (by decide), if_pos rfl, if_neg (by omega), be16At_of_drop hd, Res.bind_ok,
      if_neg (by omega), hc]
    simp [Nat.add_assoc]

/-- The possible outcomes of decoding the content. -/
theorem decodeContent_cases (buf : Bytes) (bits : UInt8) (pos : Nat) :
    decodeContent buf bits pos = .err ∨
    ∃ o l content rest, IsCount bits o l ∧ content.length = o.getD 0 ∧ buf.drop pos = l ++ content ++ rest ∧
      decodeContent buf bits pos = .ok (content.length, pos + l.length + content.length) := by
  by_cases h0 : bits = 0
  · subst h0
    right
    exact ⟨none, [], [], buf.drop pos, .none, rfl, rfl, by simp [decodeContent]⟩
  by_cases h1 : bits = 1
  · subst h1
    by_cases hl : buf.length < 1 + pos
    · left; simp [decodeContent, hl]
    · obtain ⟨b, rest, e⟩ := drop_one (buf := buf) (pos := pos) (by omega)
      have hlen : buf.length = pos + 1 + rest.length := by simpa using length_of_drop (a := [b]) (b := rest) e (by simp)
      by_cases hl2 : buf.length < 1 + pos + b.toNat
      · left; simp [decodeContent, hl, goByte_of_drop e, hl2]
      · right
        have hc : (rest.take b.toNat).length = b.toNat := by rw [List.length_take]; omega
        have hd : buf.drop pos = [b] ++ rest.take b.toNat ++ rest.drop b.toNat := by simp [e]
        exact ⟨_, [b], rest.take b.toNat, rest.drop b.toNat, .one b, hc, hd, decodeContent_of (.one b) hc hd⟩
  by_cases h2 : bits = 2
  · subst h2
    by_cases hl : buf.length < 2 + pos
    · left; simp [decodeContent, hl]
    · obtain ⟨b, c, rest, e⟩ := drop_two (buf := buf) (pos := pos) (by omega)
      have hlen : buf.length = pos + 2 + rest.length := by simpa using length_of_drop (a := [b, c]) (b := rest) e (by simp)
      by_cases hl2 : buf.length < 2 + pos + (b.toNat * 256 + c.toNat)
      · left; simp [decodeContent, hl, be16At_of_drop e, hl2]
      · right
        have hc : (rest.take (b.toNat * 256 + c.toNat)).length = b.toNat * 256 + c.toNat := by rw [List.length_take]; omega
        have hd : buf.drop pos = [b, c] ++ rest.take (b.toNat * 256 + c.toNat) ++ rest.drop (b.toNat * 256 + c.toNat) := by simp [e]
        exact ⟨_, [b, c], _, _, .two b c, hc, hd, decodeContent_of (.two b c) hc hd⟩
  · left; simp [decodeContent, h0, h1, h2]

theorem bits_12 (m : UInt8) : m &&& 12 = 0 ↔ ¬ ((m >>> 3) &&& 1 = 1) ∧ ¬ ((m >>> 2) &&& 1 = 1) := by
  exact forall_u8 (P := fun m => m &&& 12 = 0 ↔ ¬ ((m >>> 3) &&& 1 = 1) ∧ ¬ ((m >>> 2) &&& 1 = 1)) (by decide +kernel) m

/-- The content slice. -/
theorem goSlice_of_drop {buf a content rest : Bytes} {pos : Nat} (hpos : pos ≤ buf.length)
    (hd : buf.drop pos = a ++ content ++ rest) :
    goSlice buf (((pos + a.length + content.length : Nat) : Int) - (content.length : Nat)) ((pos + a.length + content.length : Nat) : Int)
      = .ok content := by
  have hl := congrArg List.length hd
  simp only [List.length_drop, List.length_append] at hl
  rw [goSlice, if_pos ⟨by omega, by omega, by omega⟩]
  have e1 : (((pos + a.length + content.length : Nat) : Int) - (content.length : Nat)).toNat = pos + a.length := by omega
  rw [e1, Int.toNat_natCast, List.drop_take]
  have e2 : buf.drop (pos + a.length) = content ++ rest := by
    rw [← List.drop_drop, hd, List.append_assoc, List.drop_left]
  rw [e2, show pos + a.length + content.length - (pos + a.length) = content.length by omega, List.take_left]

/-- A buffer that starts with a value is decoded to it. -/
theorem decodeStd_of_wire {w rest : Bytes} {k : VKind} {n : Nat} {content : Bytes} (h : IsStdWire w k n content) :
    decodeStd (w ++ rest) = .ok ({ buf := w, kind := k, size := n, content := content }, w.length) := by
  cases h with
  | prim m len l content h6 h4 h12 hl hc =>
    obtain ⟨h3, h2⟩ := (bits_12 m).mp h12
    generalize hb : m :: (l ++ content) ++ rest = buf
    have hd : buf.drop 1 = l ++ content ++ rest := by rw [← hb]; simp
    have hlen : buf.length = 1 + l.length + content.length + rest.length := by rw [← hb]; simp; omega
    unfold decodeStd
    rw [if_neg (by omega), goByte_of_drop (b := m) (rest := l ++ content ++ rest) (by rw [← hb]; simp)]
    simp only [Res.bind_ok]
    rw [h6, h4, decodeCount_of .none (rest := buf.drop 1) rfl (by simp)]
    simp only [Res.bind_ok]
    rw [decodeCount_of .none (rest := buf.drop (1 + ([] : Bytes).length)) rfl (by simp)]
    simp only [Res.bind_ok]
    rw [if_neg h3, if_neg h2, decodeContent_of hl hc (rest := rest) (by simpa using hd)]
    simp only [Res.bind_ok]
    rw [goSlice_of_drop (rest := rest) (by simp; omega) (by simpa using hd)]
    simp only [Res.bind_ok, Option.isSome_none, Bool.false_eq_true, if_false, Option.or_none, Option.getD_none,
      Res.ok.injEq, Prod.mk.injEq, StdValue.mk.injEq, and_true, List.length_nil]
    constructor
    · rw [← hb]
      have : 1 + 0 + 0 + l.length + content.length = (m :: (l ++ content)).length := by simp; omega
      rw [this, List.take_left]
    · simp; omega
  | array m _ len c l content h6 h4 h12 hl hc =>
    obtain ⟨h3, h2⟩ := (bits_12 m).mp h12
    generalize hb : m :: (c ++ l ++ content) ++ rest = buf
    have hd : buf.drop 1 = c ++ (l ++ content ++ rest) := by rw [← hb]; simp
    have hd2 : buf.drop (1 + c.length) = l ++ content ++ rest := by rw [← List.drop_drop, hd, List.drop_left]
    have hlen : buf.length = 1 + c.length + l.length + content.length + rest.length := by rw [← hb]; simp; omega
    unfold decodeStd
    rw [if_neg (by omega), goByte_of_drop (b := m) (rest := c ++ l ++ content ++ rest) (by rw [← hb]; simp)]
    simp only [Res.bind_ok]
    rw [h4, decodeCount_of h6 hd (by simp)]
    simp only [Res.bind_ok]
    rw [decodeCount_of .none (rest := buf.drop (1 + c.length)) rfl (by simp)]
    simp only [Res.bind_ok]
    rw [if_neg h3, if_neg h2, decodeContent_of hl hc (rest := rest) (by simpa using hd2)]
    simp only [Res.bind_ok]
    rw [goSlice_of_drop (rest := rest) (by simp; omega) (by simpa using hd2)]
    simp only [Res.bind_ok, Option.isSome_some, if_true, Option.some_or, Option.getD_some,
      Res.ok.injEq, Prod.mk.injEq, StdValue.mk.injEq, and_true, List.length_nil]
    constructor
    · rw [← hb]
      have : 1 + c.length + 0 + l.length + content.length = (m :: (c ++ l ++ content)).length := by simp; omega
      rw [this, List.take_left]
    · simp; omega
  | records m _ len c l content h6 h4 h12 hl hc =>
    obtain ⟨h3, h2⟩ := (bits_12 m).mp h12
    generalize hb : m :: (c ++ l ++ content) ++ rest = buf
    have hd : buf.drop 1 = c ++ (l ++ content ++ rest) := by rw [← hb]; simp
    have hd2 : buf.drop (1 + c.length) = l ++ content ++ rest := by rw [← List.drop_drop, hd, List.drop_left]
    have hlen : buf.length = 1 + c.length + l.length + content.length + rest.length := by rw [← hb]; simp; omega
    unfold decodeStd
    rw [if_neg (by omega), goByte_of_drop (b := m) (rest := c ++ l ++ content ++ rest) (by rw [← hb]; simp)]
    simp only [Res.bind_ok]
    rw [h6, decodeCount_of .none (rest := buf.drop 1) rfl (by simp)]
    simp only [Res.bind_ok]
    rw [decodeCount_of h4 (rest := l ++ content ++ rest) (by simpa using hd) (by simp)]
    simp only [Res.bind_ok]
    rw [if_neg h3, if_neg h2, decodeContent_of hl hc (rest := rest) (by simpa using hd2)]
    simp only [Res.bind_ok]
    rw [goSlice_of_drop (rest := rest) (by simp; omega) (by simpa using hd2)]
    simp only [Res.bind_ok, Option.isSome_some, Option.isSome_none, Bool.false_eq_true, if_false, if_true, Option.none_or, Option.getD_some,
      Res.ok.injEq, Prod.mk.injEq, StdValue.mk.injEq, and_true, List.length_nil]
    constructor
    · rw [← hb]
      have : 1 + 0 + c.length + l.length + content.length = (m :: (c ++ l ++ content)).length := by simp; omega
      rw [this, List.take_left]
    · simp; omega

theorem Spec.IsCount.of_zero {o : Option Nat} {c : Bytes} (h : IsCount 0 o c) : o = Option.none ∧ c = [] := by
  generalize hz : (0 : UInt8) = z at h
  cases h with
  | none => exact ⟨rfl, rfl⟩
  | one b => exact absurd hz (by decide)
  | two a b => exact absurd hz (by decide)

theorem Spec.IsCount.none_zero {z : UInt8} {c : Bytes} (h : IsCount z Option.none c) : z = 0 ∧ c = [] := by
  cases h; exact ⟨rfl, rfl⟩

/-- The only outcomes of decoding are an error and the value the buffer starts with. -/
theorem decodeStd_cases (buf : Bytes) : decodeStd buf = .err ∨
    ∃ w rest k n content, buf = w ++ rest ∧ IsStdWire w k n content ∧
      decodeStd buf = .ok ({ buf := w, kind := k, size := n, content := content }, w.length) := by
  rcases buf with - | ⟨m, tail⟩
  · left; rfl
  have main : decodeStd (m :: tail) = .err ∨ ∃ w rest k n content, m :: tail = w ++ rest ∧ IsStdWire w k n content := by
    rcases decodeCount_cases (m :: tail) ((m >>> 6) &&& 3) false 1 with h | ⟨o1, c1, r1, i1, e1, -, h1⟩
    · left
      unfold decodeStd
      rw [if_neg (by simp), goByte_of_drop (b := m) (rest := tail) rfl]
      simp only [Res.bind_ok]
      rw [h]; rfl
    have hl1 : 1 + c1.length ≤ (m :: tail).length := by
      have := congrArg List.length e1
      simp only [List.length_drop, List.length_append, List.length_cons] at this ⊢; omega
    rcases decodeCount_cases (m :: tail) ((m >>> 4) &&& 3) o1.isSome (1 + c1.length) with h | ⟨o2, c2, r2, i2, e2, hs, h2⟩
    · left
      unfold decodeStd
      rw [if_neg (by simp), goByte_of_drop (b := m) (rest := tail) rfl]
      simp only [Res.bind_ok]
      rw [h1]
      simp only [Res.bind_ok]
      rw [h]; rfl
    have hl2 : 1 + c1.length + c2.length ≤ (m :: tail).length := by
      have := congrArg List.length e2
      simp only [List.length_drop, List.length_append] at this ⊢; omega
    by_cases h12 : m &&& 12 = 0
    swap
    · left
      unfold decodeStd
      rw [if_neg (by simp), goByte_of_drop (b := m) (rest := tail) rfl]
      simp only [Res.bind_ok]
      rw [h1]
      simp only [Res.bind_ok]
      rw [h2]
      simp only [Res.bind_ok]
      by_cases h3 : (m >>> 3) &&& 1 = 1
      · rw [if_pos h3]
      · rw [if_neg h3, if_pos]
        by_contra hc
        exact h12 ((bits_12 m).mpr ⟨h3, hc⟩)
    rcases decodeContent_cases (m :: tail) (m &&& 3) (1 + c1.length + c2.length) with h | ⟨o3, l, content, r3, i3, hc, e3, h3⟩
    · left
      unfold decodeStd
      rw [if_neg (by simp), goByte_of_drop (b := m) (rest := tail) rfl]
      simp only [Res.bind_ok]
      rw [h1]
      simp only [Res.bind_ok]
      rw [h2]
      simp only [Res.bind_ok]
      rw [if_neg ((bits_12 m).mp h12).1, if_neg ((bits_12 m).mp h12).2, h]; rfl
    right
    have ht : tail = c1 ++ r1 := e1
    have ht2 : r1 = c2 ++ r2 := by
      rw [← List.drop_drop, e1, List.drop_left] at e2; exact e2
    have ht3 : r2 = l ++ content ++ r3 := by
      rw [← List.drop_drop, e2, List.drop_left] at e3; exact e3
    rcases o1 with - | n1
    · obtain ⟨z1, rfl⟩ := i1.none_zero
      rcases o2 with - | n2
      · obtain ⟨z2, rfl⟩ := i2.none_zero
        exact ⟨m :: (l ++ content), r3, .prim, 0, content, by rw [ht, ht2, ht3]; simp, .prim m o3 l content z1 z2 h12 i3 hc⟩
      · exact ⟨m :: (c2 ++ l ++ content), r3, .records, n2, content, by rw [ht, ht2, ht3]; simp,
          .records m n2 o3 c2 l content z1 i2 h12 i3 hc⟩
    · obtain rfl := hs rfl
      obtain ⟨z2, rfl⟩ := i2.none_zero
      exact ⟨m :: (c1 ++ l ++ content), r3, .array, n1, content, by rw [ht, ht2, ht3]; simp,
          .array m n1 o3 c1 l content i1 z2 h12 i3 hc⟩
  rcases main with h | ⟨w, rest, k, n, content, e, hw⟩
  · exact Or.inl h
  · exact Or.inr ⟨w, rest, k, n, content, e, hw, by rw [e]; exact decodeStd_of_wire hw⟩

theorem decodeStd_ne_panic (buf : Bytes) : decodeStd buf ≠ .panic := by
  rcases decodeStd_cases buf with h | ⟨_, _, _, _, _, -, -, h⟩ <;> rw [h] <;> simp

theorem decodeStd_ok_iff (buf : Bytes) (d : StdValue) (n : Nat) : decodeStd buf = .ok (d, n) ↔
    ∃ rest, buf = d.buf ++ rest ∧ n = d.buf.length ∧ IsStdWire d.buf d.kind d.size d.content := by
  constructor
  · intro h
    rcases decodeStd_cases buf with h' | ⟨w, rest, k, m, content, e, hw, h'⟩
    · rw [h'] at h; exact absurd h (by simp)
    · rw [h'] at h
      cases h
      exact ⟨rest, e, rfl, hw⟩
  · rintro ⟨rest, rfl, rfl, hw⟩
    exact decodeStd_of_wire hw

theorem Spec.IsStdWire.ne_nil {w : Bytes} {k : VKind} {n : Nat} {content : Bytes} (h : IsStdWire w k n content) : w ≠ [] := by
  cases h <;> simp

theorem Spec.IsStdWire.size_lt {w : Bytes} {k : VKind} {n : Nat} {content : Bytes} (h : IsStdWire w k n content) : n < 65536 := by
  cases h with
  | prim => omega
  | array m _ len c l content h6 => exact h6.lt
  | records m _ len c l content _ h4 => exact h4.lt

theorem Spec.IsStdWire.content_lt {w : Bytes} {k : VKind} {n : Nat} {content : Bytes} (h : IsStdWire w k n content) :
    content.length < 65536 ∧ content.length < w.length := by
  cases h with
  | prim m len l _ _ _ _ hl hc => refine ⟨hc ▸ hl.lt, ?_⟩; simp
  | array m _ len c l _ _ _ _ hl hc => refine ⟨hc ▸ hl.lt, ?_⟩; simp; omega
  | records m _ len c l _ _ _ _ hl hc => refine ⟨hc ▸ hl.lt, ?_⟩; simp; omega

end Poodle
