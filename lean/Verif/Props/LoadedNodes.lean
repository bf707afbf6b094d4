import Verif.Spec.LoadedNodes
import Verif.Props.KeyWire
import Verif.Props.PrefixKids

/-
C229: nodes loaded one by one.
-/

namespace Poodle.Props
open Poodle Poodle.Spec

/-! ### Reading the bytes -/

theorem wireNumber_drop {buf rest : Bytes} {v : Nat} (h : WireNumber buf v rest) : ∃ n, n ≤ buf.length ∧ buf.drop n = rest := by
  cases h with
  | absent => exact ⟨0, by simp, rfl⟩
  | present p rest v _ _ _ _ => exact ⟨p.length, by simp, List.drop_left⟩

theorem number_ok_iff (buf : Bytes) (hgo : buf.length < 2 ^ 63) (v : Nat) (rest : Bytes) :
    WireNumber buf v rest ↔ ∃ n, decodeUvarint64 buf = .ok (v, n) ∧ buf.drop n = rest := by
  by_cases hne : buf = []
  · subst hne
    constructor
    · intro h
      generalize hb : ([] : Bytes) = b at h
      cases h with
      | absent => exact ⟨0, rfl, rfl⟩
      | present p rest v h1 _ _ _ =>
        have := h1.length_pos
        have := congrArg List.length hb
        simp only [List.length_append, List.length_nil] at this; omega
    · rintro ⟨n, h, rfl⟩
      have : v = 0 := by
        have e : decodeUvarint64 [] = .ok (0, 0) := rfl
        rw [e] at h
        simp only [Res.ok.injEq, Prod.mk.injEq] at h
        exact h.1.symm
      subst this
      simpa using WireNumber.absent
  · constructor
    · intro h
      cases h with
      | absent => exact absurd rfl hne
      | present p rest v h1 h2 h3 h4 =>
        exact ⟨p.length, (C04_decodeUvarint64_ok_iff_partial _ hne hgo _ _).mpr ⟨p, rest, rfl, h1, h2, h3, rfl, h4⟩, List.drop_left⟩
    · rintro ⟨n, h, rfl⟩
      obtain ⟨p, rest, rfl, h1, h2, h3, rfl, h4⟩ := (C04_decodeUvarint64_ok_iff_partial _ hne hgo _ _).mp h
      rw [List.drop_left]
      exact .present p rest v h1 h2 h3 h4

theorem string_ok_iff (buf : Bytes) (hgo : buf.length < 2 ^ 63) (d rest : Bytes) :
    WireString buf d rest ↔ ∃ n, decodeVarchar buf = .ok (d, n) ∧ buf.drop n = rest := by
  constructor
  · intro h
    have h1 := wireString_drop h
    refine ⟨buf.length - rest.length, (varchar_ok_iff buf hgo _ _).mpr ⟨by omega, ?_⟩, h1⟩
    rw [h1]; exact h
  · rintro ⟨n, h, rfl⟩
    exact ((varchar_ok_iff buf hgo _ _).mp h).2

theorem blank_iff (buf : Bytes) (hgo : buf.length < 2 ^ 63) : BlankBytes buf ↔ ∃ n, decodeUvarint64 buf = .ok (0, n) := by
  constructor
  · rintro ⟨rest, h⟩
    obtain ⟨n, h, -⟩ := (number_ok_iff buf hgo _ _).mp h
    exact ⟨n, h⟩
  · rintro ⟨n, h⟩
    exact ⟨_, (number_ok_iff buf hgo _ _).mpr ⟨n, h, rfl⟩⟩

theorem drop_fits {buf : Bytes} (hgo : buf.length < 2 ^ 63) (n : Nat) : (buf.drop n).length < 2 ^ 63 := by
  rw [List.length_drop]; omega

theorem simple_ok {buf d : Bytes} {n : Nat} : (∃ b, decodeSimple buf = .ok (d, b, n)) ↔ decodeVarchar buf = .ok (d, n) := by
  unfold decodeSimple
  rcases e : decodeVarchar buf with ⟨d', n'⟩ | - | - <;> simp

theorem entry_iff (buf : Bytes) (hgo : buf.length < 2 ^ 63) (key : Bytes) (po : Nat) :
    EntryBytes buf key po ↔ ∃ mark n1 n2 n3 d b n4, decodeUvarint64 buf = .ok (mark, n1) ∧ mark ≠ 0 ∧
      decodeVarchar (buf.drop n1) = .ok (key, n2) ∧ key ≠ [] ∧ decodeUvarint64 ((buf.drop n1).drop n2) = .ok (po, n3) ∧
      decodeSimple (((buf.drop n1).drop n2).drop n3) = .ok (d, b, n4) := by
  constructor
  · rintro ⟨mark, b1, b2, b3, d, rest, h1, h2, h3, h4, h5, h6⟩
    obtain ⟨n1, g1, rfl⟩ := (number_ok_iff _ hgo _ _).mp h1
    obtain ⟨n2, g2, rfl⟩ := (string_ok_iff _ (drop_fits hgo _) _ _).mp h3
    obtain ⟨n3, g3, rfl⟩ := (number_ok_iff _ (drop_fits (drop_fits hgo _) _) _ _).mp h5
    obtain ⟨n4, g4, rfl⟩ := (string_ok_iff _ (drop_fits (drop_fits (drop_fits hgo _) _) _) _ _).mp h6
    obtain ⟨b, g4⟩ := simple_ok.mpr g4
    exact ⟨mark, n1, n2, n3, d, b, n4, g1, h2, g2, h4, g3, g4⟩
  · rintro ⟨mark, n1, n2, n3, d, b, n4, g1, h2, g2, h4, g3, g4⟩
    exact ⟨mark, _, _, _, d, _, (number_ok_iff _ hgo _ _).mpr ⟨n1, g1, rfl⟩, h2, (string_ok_iff _ (drop_fits hgo _) _ _).mpr ⟨n2, g2, rfl⟩, h4,
      (number_ok_iff _ (drop_fits (drop_fits hgo _) _) _ _).mpr ⟨n3, g3, rfl⟩,
      (string_ok_iff _ (drop_fits (drop_fits (drop_fits hgo _) _) _) _ _).mpr ⟨n4, simple_ok.mp ⟨b, g4⟩, rfl⟩⟩

/-! ### The nodes as the specification sees them -/

/-- A loaded node, whatever `decoded` is where the bytes are those of a node without content. -/
structure SeesRaw (t : LNode) (a : ALoaded) : Prop where
  bytes : t.buf = a.bytes
  offset : t.offset = a.offset
  kids : a.kids = t.children.map (contents compare)
  good : ∀ m, t.children = some m → GoodMap compare m
  fits : t.buf.length < 2 ^ 63
  blank : BlankBytes t.buf → t.nodeKey = none ∧ t.nodeValue = none ∧ t.parent = a.given

/-- A loaded node. -/
def SeesNode (t : LNode) (a : ALoaded) : Prop := SeesRaw t a ∧ (t.decoded = true ↔ BlankBytes t.buf)

/-- All loaded nodes, the node `n` perhaps not yet decoded. -/
structure SeesBut (h : LMem) (s : ATable) (n : Nat) : Prop where
  length : h.nodes.length = s.nodes.length
  nodes : ∀ (i : Nat) (t : LNode) (a : ALoaded), h.nodes[i]? = some t → s.nodes[i]? = some a → SeesRaw t a ∧ (t.decoded = true → BlankBytes t.buf) ∧
    (i ≠ n → BlankBytes t.buf → t.decoded = true)
  known : ∀ o, h.known.lookup o = s.known o
  valid : ∀ o p, s.known o = some p → p < s.nodes.length

/-- All loaded nodes. -/
def SeesAll (h : LMem) (s : ATable) : Prop := ∀ n, SeesBut h s n

theorem SeesBut.all {h : LMem} {s : ATable} {n : Nat} (hs : SeesBut h s n)
    (hn : ∀ t, h.nodes[n]? = some t → BlankBytes t.buf → t.decoded = true) : SeesAll h s := by
  intro m
  refine ⟨hs.length, fun i t a h1 h2 => ?_, hs.known, hs.valid⟩
  obtain ⟨g1, g2, g3⟩ := hs.nodes i t a h1 h2
  refine ⟨g1, g2, fun _ hb => ?_⟩
  by_cases hi : i = n
  · subst hi; exact hn t h1 hb
  · exact g3 hi hb

theorem SeesAll.node {h : LMem} {s : ATable} (hs : SeesAll h s) {i : Nat} {t : LNode} {a : ALoaded} (h1 : h.nodes[i]? = some t)
    (h2 : s.nodes[i]? = some a) : SeesNode t a := by
  obtain ⟨g1, g2, -⟩ := (hs 0).nodes i t a h1 h2
  refine ⟨g1, g2, fun hb => ?_⟩
  exact ((hs (i + 1)).nodes i t a h1 h2).2.2 (by omega) hb

theorem upd_get (h : LMem) (id i : Nat) (f : LNode → LNode) : (h.upd id f).nodes[i]? = if id = i then (h.nodes[i]?).map f else h.nodes[i]? := by
  simp only [LMem.upd, List.getElem?_modify]
  split <;> simp

/-- An assignment that the specification does not see. -/
theorem SeesBut.upd {h : LMem} {s : ATable} {n : Nat} (hs : SeesBut h s n) (f : LNode → LNode)
    (hf : ∀ t a, h.nodes[n]? = some t → SeesRaw t a → SeesRaw (f t) a ∧ (f t).decoded = t.decoded ∧ (f t).buf = t.buf) : SeesBut (h.upd n f) s n := by
  refine ⟨by simpa [LMem.upd] using hs.length, fun i t a h1 h2 => ?_, hs.known, hs.valid⟩
  rw [upd_get] at h1
  split at h1
  · rename_i hi
    subst hi
    rcases e : h.nodes[n]? with - | t0
    · rw [e] at h1; cases h1
    · rw [e] at h1
      obtain rfl : f t0 = t := by simpa using h1
      obtain ⟨g1, g2, g3⟩ := hs.nodes n t0 a e h2
      obtain ⟨k1, k2, k3⟩ := hf t0 a e g1
      rw [k2, k3]
      exact ⟨k1, g2, g3⟩
  · exact hs.nodes i t a h1 h2

/-- Putting the node below its parent. -/
theorem attach_spec {h : LMem} {s : ATable} {n : Nat} (hs : SeesBut h s n) (hn : n < s.nodes.length) (p : Nat) (hp : p < s.nodes.length)
    (a : ALoaded) (ha : s.nodes[n]? = some a) (key : Bytes) (len : Nat) :
    ((h.attach n p a.offset key len).2 = .panic ∧ SeesBut (h.attach n p a.offset key len).1 s n ∧
      ∀ f, (s.nodes[p]?).bind (·.kids) = some f → ∃ e, (f e).isSome ∧ key <+: e ∧ key ≠ e) ∨
    ((h.attach n p a.offset key len).2 = .ok len ∧ SeesBut (h.attach n p a.offset key len).1 ((s.adopt p key n).know a.offset n) n ∧
      ∃ f, (s.nodes[p]?).bind (·.kids) = some f ∧ (f key = none → ¬ ∃ e, (f e).isSome ∧ key <+: e ∧ key ≠ e)) := by
  obtain ⟨b, hb⟩ : ∃ b, s.nodes[p]? = some b := ⟨_, List.getElem?_eq_getElem hp⟩
  obtain ⟨t, ht⟩ : ∃ t, h.nodes[p]? = some t := ⟨_, List.getElem?_eq_getElem (by rw [hs.length]; exact hp)⟩
  obtain ⟨g1, g2, g3⟩ := hs.nodes p t b ht hb
  unfold LMem.attach
  rw [ht, hb, Option.bind_some, Option.bind_some]
  rcases hm : t.children with - | m
  · simp only
    refine .inl ⟨trivial, hs, fun f hf => ?_⟩
    rw [g1.kids, hm] at hf
    cases hf
  · simp only
    have hgood := g1.good m hm
    have hk : b.kids = some (contents compare m) := by rw [g1.kids, hm]; rfl
    rw [childOps_eq]
    rcases put_step bytesOps_lawful.1 m hgood key n with ⟨-, h1⟩ | ⟨m', h1, h2, h3⟩
    · rw [h1]
      simp only
      refine .inl ⟨trivial, ?_, fun f hf => ?_⟩
      · refine ⟨by simpa [LMem.upd] using hs.length, fun i t' a' e1 e2 => ?_, hs.known, hs.valid⟩
        rw [upd_get] at e1
        split at e1
        · rename_i hi
          subst hi
          rw [ht] at e1
          obtain rfl : { t with children := some m } = t' := by simpa using e1
          rw [hb] at e2
          cases e2
          rw [← hm]
          exact ⟨g1, g2, g3⟩
        · exact hs.nodes i t' a' e1 e2
      · rw [hk] at hf
        cases hf
        obtain ⟨p1, -, p3, -⟩ := bytes_calls m hgood key
        exact p3 ((p1 n).mp (by rw [h1]))
    · rw [h1]
      simp only
      refine .inr ⟨trivial, ⟨by simpa [LMem.upd, ATable.know, ATable.adopt] using hs.length, fun i t' a' e1 e2 => ?_, fun o => ?_,
        fun o q hq => ?_⟩, _, hk, fun h4 h5 => ?_⟩
      · have e1' : (h.upd p ({ · with children := some m' })).nodes[i]? = some t' := e1
        rw [upd_get] at e1'
        have e2' : (s.nodes.modify p fun a => { a with kids := a.kids.map fun f => f.put compare key n })[i]? = some a' := e2
        rw [List.getElem?_modify] at e2'
        by_cases hi : p = i
        · subst hi
          rw [if_pos rfl, ht] at e1'
          rw [hb] at e2'
          obtain rfl : { t with children := some m' } = t' := by simpa using e1'
          have e2'' : { b with kids := b.kids.map fun f => f.put compare key n } = a' := by simpa using e2'
          subst e2''
          refine ⟨⟨g1.bytes, g1.offset, ?_, fun m'' hm'' => ?_, g1.fits, g1.blank⟩, g2, g3⟩
          · simp only [hk, Option.map_some, h3]
          · cases hm''; exact h2
        · rw [if_neg hi] at e1'
          have e3 : s.nodes[i]? = some a' := by simpa [hi] using e2'
          exact hs.nodes i t' a' e1' e3
      · have := hs.known o
        simp only [ATable.know, ATable.adopt]
        rw [List.lookup_cons]
        by_cases ho : o = a.offset
        · simp [ho]
        · have hb : (o == a.offset) = false := by simpa using ho
          rw [if_neg ho, hb, ← this]
      · have : (if o = a.offset then some n else s.known o) = some q := hq
        have hl : (((s.adopt p key n).know a.offset n).nodes).length = s.nodes.length := by simp [ATable.know, ATable.adopt]
        rw [hl]
        split at this
        · cases this; exact hn
        · exact hs.valid o q this
      · obtain ⟨p1, -, -, p4⟩ := bytes_calls m hgood key
        have := (p1 n).mpr (p4 h4 h5)
        rw [h1] at this
        cases this

/-- Reading the bytes of a node. -/
theorem decode_spec {h : LMem} {s : ATable} {n : Nat} (hs : SeesBut h s n) {a : ALoaded} (ha : s.nodes[n]? = some a) :
    ((h.decode n).2 = .panic ∧ SeesAll (h.decode n).1 s ∧ ¬ BlankBytes a.bytes ∧ ∀ key p, s.Names n key p →
      ∀ f, (s.nodes[p]?).bind (·.kids) = some f → ∃ e, (f e).isSome ∧ key <+: e ∧ key ≠ e) ∨
    ((h.decode n).2 = .err ∧ SeesAll (h.decode n).1 s ∧ (¬ ∃ key p, s.Names n key p) ∧ ¬ BlankBytes a.bytes) ∨
    ∃ len s', (h.decode n).2 = .ok len ∧ s.Read n s' ∧ SeesAll (h.decode n).1 s' ∧ ∀ key p, s.Names n key p →
      ∃ f, (s.nodes[p]?).bind (·.kids) = some f ∧ (f key = none → ¬ ∃ e, (f e).isSome ∧ key <+: e ∧ key ≠ e) := by
  have hn : n < s.nodes.length := (List.getElem?_eq_some_iff.mp ha).1
  obtain ⟨t, ht⟩ : ∃ t, h.nodes[n]? = some t := ⟨_, List.getElem?_eq_getElem (by rw [hs.length]; exact hn)⟩
  obtain ⟨g1, g2, g3⟩ := hs.nodes n t a ht ha
  have hbytes := g1.bytes
  have hfit := g1.fits
  have names : ∀ key p, s.Names n key p ↔ ∃ po, EntryBytes t.buf key po ∧ s.known (po % 2 ^ 32) = some p := by
    intro key p
    constructor
    · rintro ⟨a', po, e1, e2, e3⟩
      rw [ha] at e1; cases e1
      exact ⟨po, hbytes ▸ e2, e3⟩
    · rintro ⟨po, e2, e3⟩
      exact ⟨a, po, ha, hbytes ▸ e2, e3⟩
  rw [← hbytes]
  -- with no blank bytes, the exception is none
  have full : ∀ h' s', SeesBut h' s' n → (∀ t', h'.nodes[n]? = some t' → t'.buf = t.buf) → ¬ BlankBytes t.buf → SeesAll h' s' := by
    intro h' s' h1 h2 h3
    exact h1.all fun t' e hb => absurd (h2 t' e ▸ hb) h3
  have same : ∀ (f : LNode → LNode), (∀ u, (f u).buf = u.buf) → ∀ h' : LMem, (∀ t', h'.nodes[n]? = some t' → t'.buf = t.buf) →
      ∀ t', (h'.upd n f).nodes[n]? = some t' → t'.buf = t.buf := by
    intro f hf h' h1 t' e
    rw [upd_get, if_pos rfl] at e
    rcases e0 : h'.nodes[n]? with - | u
    · rw [e0] at e; cases e
    · rw [e0] at e
      obtain rfl : f u = t' := by simpa using e
      rw [hf, h1 u e0]
  have same0 : ∀ t', h.nodes[n]? = some t' → t'.buf = t.buf := by
    intro t' e; rw [ht] at e; cases e; rfl
  unfold LMem.decode
  rw [ht]
  simp only
  rcases e1 : decodeUvarint64 t.buf with ⟨mark, n1⟩ | - | -
  rotate_left
  · have hnb : ¬ BlankBytes t.buf := by rw [blank_iff _ hfit]; simp [e1]
    refine .inr (.inl ⟨rfl, full _ _ hs same0 hnb, ?_, hnb⟩)
    rintro ⟨key, p, hN⟩
    obtain ⟨po, hE, -⟩ := (names key p).mp hN
    obtain ⟨_, _, _, _, _, _, _, h1, -⟩ := (entry_iff _ hfit _ _).mp hE
    rw [e1] at h1; cases h1
  · exact absurd e1 (C04_decodeUvarint64_no_panic_partial _)
  simp only
  by_cases hmark : mark = 0
  · rw [if_pos hmark]
    subst hmark
    have hb : BlankBytes t.buf := (blank_iff _ hfit).mpr ⟨n1, e1⟩
    have hno : ¬ ∃ key p, s.Names n key p := by
      rintro ⟨key, p, hN⟩
      obtain ⟨po, hE, -⟩ := (names key p).mp hN
      obtain ⟨_, _, _, _, _, _, _, h1, h2, -⟩ := (entry_iff _ hfit _ _).mp hE
      rw [e1] at h1; cases h1; exact h2 rfl
    refine .inr (.inr ⟨n1, s, rfl, .other hno, ?_, fun key p hN => absurd ⟨key, p, hN⟩ hno⟩)
    · have : SeesBut (h.upd n ({ · with decoded := true })) s n := by
        refine ⟨by simpa [LMem.upd] using hs.length, fun i t' a' e1 e2 => ?_, hs.known, hs.valid⟩
        rw [upd_get] at e1
        split at e1
        · rename_i hi
          subst hi
          rw [ht] at e1
          obtain rfl : { t with decoded := true } = t' := by simpa using e1
          rw [ha] at e2; cases e2
          exact ⟨⟨g1.bytes, g1.offset, g1.kids, g1.good, g1.fits, g1.blank⟩, fun _ => hb, fun _ _ => rfl⟩
        · exact hs.nodes i t' a' e1 e2
      refine this.all fun t' e _ => ?_
      rw [upd_get, if_pos rfl, ht] at e
      obtain rfl : { t with decoded := true } = t' := by simpa using e
      rfl
  rw [if_neg hmark]
  have hnb : ¬ BlankBytes t.buf := by
    rw [blank_iff _ hfit]
    rintro ⟨m, hm⟩
    rw [e1] at hm; cases hm; exact hmark rfl
  have noPanic : ∀ (_ : ¬ ∃ key po, EntryBytes t.buf key po), ∀ key p, s.Names n key p →
      ∀ f, (s.nodes[p]?).bind (·.kids) = some f → ∃ e, (f e).isSome ∧ key <+: e ∧ key ≠ e := by
    intro h1 key p hN
    obtain ⟨po, hE, -⟩ := (names key p).mp hN
    exact absurd ⟨key, po, hE⟩ h1
  have noNames : ∀ (_ : ¬ ∃ key po, EntryBytes t.buf key po), ¬ ∃ key p, s.Names n key p := by
    rintro h1 ⟨key, p, hN⟩
    obtain ⟨po, hE, -⟩ := (names key p).mp hN
    exact h1 ⟨key, po, hE⟩
  rcases e2 : decodeVarchar (t.buf.drop n1) with ⟨key, n2⟩ | - | -
  rotate_left
  · have : ¬ ∃ key po, EntryBytes t.buf key po := by
      rintro ⟨key, po, hE⟩
      obtain ⟨_, _, _, _, _, _, _, h1, -, h2, -⟩ := (entry_iff _ hfit _ _).mp hE
      rw [e1] at h1; cases h1; rw [e2] at h2; cases h2
    exact .inr (.inl ⟨rfl, full _ _ hs same0 hnb, noNames this, hnb⟩)
  · have : ¬ ∃ key po, EntryBytes t.buf key po := by
      rintro ⟨key, po, hE⟩
      obtain ⟨_, _, _, _, _, _, _, h1, -, h2, -⟩ := (entry_iff _ hfit _ _).mp hE
      rw [e1] at h1; cases h1; rw [e2] at h2; cases h2
    exact .inl ⟨rfl, full _ _ hs same0 hnb, hnb, noPanic this⟩
  simp only
  by_cases hkey : key = []
  · rw [if_pos hkey]
    have : ¬ ∃ key po, EntryBytes t.buf key po := by
      rintro ⟨key', po, hE⟩
      obtain ⟨_, _, _, _, _, _, _, h1, -, h2, h3, -⟩ := (entry_iff _ hfit _ _).mp hE
      rw [e1] at h1; cases h1; rw [e2] at h2; cases h2; exact h3 hkey
    exact .inr (.inl ⟨rfl, full _ _ hs same0 hnb, noNames this, hnb⟩)
  rw [if_neg hkey]
  have hs1 : SeesBut (h.upd n ({ · with nodeKey := some key })) s n := by
    refine hs.upd _ fun t' a' e r => ⟨⟨r.bytes, r.offset, r.kids, r.good, r.fits, fun hb => ?_⟩, rfl, rfl⟩
    have : t'.buf = t.buf := same0 t' e
    exact absurd (this ▸ hb) hnb
  have same1 := same ({ · with nodeKey := some key }) (fun _ => rfl) h same0
  have hkn1 : (h.upd n ({ · with nodeKey := some key })).known = h.known := rfl
  generalize hh1 : h.upd n ({ · with nodeKey := some key }) = h1 at *
  rcases e3 : decodeUvarint64 ((t.buf.drop n1).drop n2) with ⟨po, n3⟩ | - | -
  rotate_left
  · have : ¬ ∃ key po, EntryBytes t.buf key po := by
      rintro ⟨key, po, hE⟩
      obtain ⟨_, _, _, _, _, _, _, h1, -, h2, -, h3, -⟩ := (entry_iff _ hfit _ _).mp hE
      rw [e1] at h1; cases h1; rw [e2] at h2; cases h2; rw [e3] at h3; cases h3
    exact .inr (.inl ⟨rfl, full _ _ hs1 same1 hnb, noNames this, hnb⟩)
  · exact absurd e3 (C04_decodeUvarint64_no_panic_partial _)
  simp only
  rw [hkn1, hs.known]
  rcases e4 : s.known (po % 2 ^ 32) with - | p
  · refine .inr (.inl ⟨rfl, full _ _ hs1 same1 hnb, ?_, hnb⟩)
    rintro ⟨key', p, hN⟩
    obtain ⟨po', hE, hk⟩ := (names key' p).mp hN
    obtain ⟨_, _, _, _, _, _, _, h1, -, h2, -, h3, -⟩ := (entry_iff _ hfit _ _).mp hE
    rw [e1] at h1; cases h1; rw [e2] at h2; cases h2; rw [e3] at h3; cases h3
    rw [e4] at hk; cases hk
  simp only
  have hs2 : SeesBut (h1.upd n ({ · with parent := some p })) s n := by
    refine hs1.upd _ fun t' a' e r => ⟨⟨r.bytes, r.offset, r.kids, r.good, r.fits, fun hb => ?_⟩, rfl, rfl⟩
    have : t'.buf = t.buf := same1 t' e
    exact absurd (this ▸ hb) hnb
  have same2 := same ({ · with parent := some p }) (fun _ => rfl) h1 same1
  generalize hh2 : h1.upd n ({ · with parent := some p }) = h2 at *
  rcases e5 : decodeSimple (((t.buf.drop n1).drop n2).drop n3) with ⟨v, b, n4⟩ | - | -
  rotate_left
  · have : ¬ ∃ key po, EntryBytes t.buf key po := by
      rintro ⟨key, po, hE⟩
      obtain ⟨_, _, _, _, _, _, _, h1, -, h2, -, h3, h4⟩ := (entry_iff _ hfit _ _).mp hE
      rw [e1] at h1; cases h1; rw [e2] at h2; cases h2; rw [e3] at h3; cases h3; rw [e5] at h4; cases h4
    exact .inr (.inl ⟨rfl, full _ _ hs2 same2 hnb, noNames this, hnb⟩)
  · have : ¬ ∃ key po, EntryBytes t.buf key po := by
      rintro ⟨key, po, hE⟩
      obtain ⟨_, _, _, _, _, _, _, h1, -, h2, -, h3, h4⟩ := (entry_iff _ hfit _ _).mp hE
      rw [e1] at h1; cases h1; rw [e2] at h2; cases h2; rw [e3] at h3; cases h3; rw [e5] at h4; cases h4
    exact .inl ⟨rfl, full _ _ hs2 same2 hnb, hnb, noPanic this⟩
  simp only
  have hs3 : SeesBut (h2.upd n ({ · with nodeValue := some v })) s n := by
    refine hs2.upd _ fun t' a' e r => ⟨⟨r.bytes, r.offset, r.kids, r.good, r.fits, fun hb => ?_⟩, rfl, rfl⟩
    have : t'.buf = t.buf := same2 t' e
    exact absurd (this ▸ hb) hnb
  have same3 := same ({ · with nodeValue := some v }) (fun _ => rfl) h2 same2
  generalize hh3 : h2.upd n ({ · with nodeValue := some v }) = h3 at *
  have hE : EntryBytes t.buf key po := (entry_iff _ hfit _ _).mpr ⟨mark, n1, n2, n3, v, b, n4, e1, hmark, e2, hkey, e3, e5⟩
  have hN : s.Names n key p := (names key p).mpr ⟨po, hE, e4⟩
  have uniq : ∀ key' p', s.Names n key' p' → key' = key ∧ p' = p := by
    intro key' p' hN'
    obtain ⟨po', hE', hk'⟩ := (names key' p').mp hN'
    obtain ⟨_, _, _, _, _, _, _, h1, -, h2, -, h3, -⟩ := (entry_iff _ hfit _ _).mp hE'
    rw [e1] at h1; cases h1; rw [e2] at h2; cases h2; rw [e3] at h3; cases h3
    rw [e4] at hk'; cases hk'
    exact ⟨rfl, rfl⟩
  have hoff : t.offset = a.offset := g1.offset
  rw [hoff]
  have hfin : ∀ s', SeesBut (h3.attach n p a.offset key (n1 + n2 + n3 + n4 + n1)).1 s' n → (∃ a', s'.nodes[n]? = some a' ∧ a'.bytes = a.bytes) →
      SeesAll (h3.attach n p a.offset key (n1 + n2 + n3 + n4 + n1)).1 s' := by
    rintro s' h1 ⟨a', h2, h3'⟩
    refine h1.all fun t' e hb => ?_
    have := (h1.nodes n t' a' e h2).1.bytes
    rw [this, h3', ← hbytes] at hb
    exact absurd hb hnb
  rcases attach_spec hs3 hn p (hs.valid _ _ e4) a ha key (n1 + n2 + n3 + n4 + n1) with ⟨r1, r2, r3⟩ | ⟨r1, r2, r3⟩
  · refine .inl ⟨r1, hfin _ r2 ⟨a, ha, rfl⟩, hnb, fun key' p' hN' => ?_⟩
    obtain ⟨rfl, rfl⟩ := uniq key' p' hN'
    exact r3
  · refine .inr (.inr ⟨_, _, r1, .entry a key p ha hN, hfin _ r2 ?_, fun key' p' hN' => ?_⟩)
    rotate_left
    · obtain ⟨rfl, rfl⟩ := uniq key' p' hN'
      exact r3
    simp only [ATable.know, ATable.adopt, List.getElem?_modify]
    rw [ha]
    by_cases hpn : p = n
    · simp [hpn]
    · simp [hpn]

/-! ### Histories -/

theorem sees_push {h : LMem} {s : ATable} (hs : SeesAll h s) (given : Option Nat) (buf : Bytes) (offset : Nat)
    (c : Option (SortedMap Bytes Nat)) (hc : ∀ m, c = some m → GoodMap compare m) (hbuf : buf.length < 2 ^ 63) :
    SeesBut { h with nodes := h.nodes ++ [rawLNode given buf offset c] } (s.push ⟨buf, offset, given, c.map (contents compare)⟩) s.nodes.length := by
  have h0 := hs s.nodes.length
  have hl := h0.length
  refine ⟨by simp [ATable.push, hl], fun i t a e1 e2 => ?_, h0.known, fun o p hp => ?_⟩
  · simp only [ATable.push] at e1 e2
    by_cases hi : i < s.nodes.length
    · rw [List.getElem?_append_left hi] at e2
      rw [List.getElem?_append_left (by omega)] at e1
      exact h0.nodes i t a e1 e2
    · have hlt := (List.getElem?_eq_some_iff.mp e2).1
      have : i = s.nodes.length := by simp at hlt; omega
      subst this
      rw [List.getElem?_append_right (by omega), hl] at e1
      simp only [Nat.sub_self, List.getElem?_cons_zero, Option.some.injEq, Nat.le_refl, List.getElem?_append_right] at e1 e2
      subst e1 e2
      exact ⟨⟨rfl, rfl, rfl, hc, hbuf, fun _ => ⟨rfl, rfl, rfl⟩⟩, by simp [rawLNode], fun hn => absurd rfl hn⟩
  · have := h0.valid o p hp
    simp only [ATable.push, List.length_append]
    omega

theorem sees_lose {h h' : LMem} {s : ATable} {a : ALoaded} (hs : SeesAll h s) (hs' : SeesAll h' (s.push a)) :
    SeesAll (h'.lose h.nodes.length) s := by
  intro n
  have h0 := hs n
  have h1 := hs' n
  have hl := h1.length
  simp only [ATable.push, List.length_append, List.length_singleton] at hl
  refine ⟨by simp only [LMem.lose, List.length_take]; have := h0.length; omega, fun i t b e1 e2 => ?_, h1.known, h0.valid⟩
  have hi := (List.getElem?_eq_some_iff.mp e2).1
  refine h1.nodes i t b ?_ ?_
  · simp only [LMem.lose] at e1
    rw [List.getElem?_take, if_pos (by rw [h0.length]; exact hi)] at e1
    exact e1
  · simp only [ATable.push]
    rw [List.getElem?_append_left hi]; exact e2

theorem lexec_spec {h : LMem} {s : ATable} (hs : SeesAll h s) (o : LOp) (ho : o.Fits) :
    ((h.exec o).2 ≠ .ok () ∧ SeesAll (h.exec o).1 s) ∨ ((h.exec o).2 = .ok () ∧ ∃ s', s.Completes o s' ∧ SeesAll (h.exec o).1 s') := by
  have hl := (hs 0).length
  cases o with
  | load parent buf offset =>
    have hp := sees_push hs parent buf offset (some .new) (by intro m hm; cases hm; exact new_good) ho
    rw [← hl] at hp
    have ha : (s.push ⟨buf, offset, parent, (some SortedMap.new).map (contents compare)⟩).nodes[h.nodes.length]? =
        some ⟨buf, offset, parent, (some SortedMap.new).map (contents compare)⟩ := by simp [ATable.push, hl]
    have hk : (some SortedMap.new).map (contents compare) = some (FMap.empty : FMap Bytes Nat) := by rw [Option.map_some, contents_new]
    simp only [LMem.exec]
    rcases decode_spec hp ha with ⟨r1, r2, -⟩ | ⟨r1, r2, r3, -⟩ | ⟨len, s', r1, r2, r3, -⟩
    · rw [r1]
      exact .inl ⟨by simp, sees_lose hs r2⟩
    · rw [r1]
      refine .inr ⟨rfl, _, ?_, r2⟩
      rw [hk] at r3 ⊢
      simp only [ATable.Completes]
      rw [← hl]
      exact ATable.Read.other r3
    · rw [r1]
      refine .inr ⟨rfl, s', ?_, r3⟩
      rw [hk] at r2
      simp only [ATable.Completes]
      rw [← hl]
      exact r2
  | know offset n =>
    simp only [LMem.exec]
    split
    · rename_i hn
      refine .inr ⟨rfl, _, rfl, fun m => ?_⟩
      have h0 := hs m
      refine ⟨h0.length, h0.nodes, fun o => ?_, fun o p hp => ?_⟩
      · simp only [ATable.know]
        rw [List.lookup_cons]
        by_cases ho : o = offset
        · simp [ho]
        · have hb : (o == offset) = false := by simpa using ho
          rw [if_neg ho, hb, ← h0.known o]
      · have : (if o = offset then some n else s.known o) = some p := hp
        change p < s.nodes.length
        split at this
        · cases this; omega
        · exact h0.valid o p this
    · exact .inl ⟨by simp, hs⟩
  | again n =>
    simp only [LMem.exec]
    rcases ha : s.nodes[n]? with - | a
    · have : h.nodes[n]? = none := by
        rw [List.getElem?_eq_none_iff] at ha ⊢; omega
      left
      unfold LMem.decode
      rw [this]
      exact ⟨by simp [Res.bind], hs⟩
    · rcases decode_spec (hs n) ha with ⟨r1, r2, -⟩ | ⟨r1, r2, r3, -⟩ | ⟨len, s', r1, r2, r3, -⟩
      · rw [r1]; exact .inl ⟨by simp [Res.bind], r2⟩
      · rw [r1]; exact .inl ⟨by simp [Res.bind], r2⟩
      · rw [r1]; exact .inr ⟨rfl, s', r2, r3⟩
  | copy n =>
    simp only [LMem.exec]
    rcases ht : h.nodes[n]? with - | t
    · exact .inl ⟨by simp, hs⟩
    · simp only
      have hn := (List.getElem?_eq_some_iff.mp ht).1
      obtain ⟨a, ha⟩ : ∃ a, s.nodes[n]? = some a := ⟨_, List.getElem?_eq_getElem (by omega)⟩
      obtain ⟨g, -⟩ := hs.node ht ha
      have hp := sees_push hs none t.buf t.offset none (by simp) g.fits
      rw [← hl] at hp
      have ha' : (s.push ⟨t.buf, t.offset, none, (none : Option (SortedMap Bytes Nat)).map (contents compare)⟩).nodes[h.nodes.length]? =
        some ⟨t.buf, t.offset, none, (none : Option (SortedMap Bytes Nat)).map (contents compare)⟩ := by simp [ATable.push, hl]
      rcases decode_spec hp ha' with ⟨r1, r2, -⟩ | ⟨r1, r2, r3, -⟩ | ⟨len, s', r1, r2, r3, -⟩
      · rw [r1]
        exact .inl ⟨by simp, sees_lose hs r2⟩
      · rw [r1]
        exact .inl ⟨by simp, sees_lose hs r2⟩
      · rw [r1]
        refine .inr ⟨rfl, s', ⟨a, ha, ?_⟩, r3⟩
        rw [← g.bytes, ← g.offset, ← hl]
        exact r2
  | unsupported n => exact .inl ⟨by simp [LMem.exec], hs⟩

theorem lrun_spec (os : List LOp) (hos : ∀ o ∈ os, o.Fits) (h : LMem) (s : ATable) (hs : SeesAll h s) :
    ∃ s', ATable.Runs s os (h.run os).2 s' ∧ SeesAll (h.run os).1 s' := by
  induction os generalizing h s with
  | nil => exact ⟨s, .nil _, hs⟩
  | cons o os ih =>
    simp only [LMem.run]
    rcases lexec_spec hs o (hos o (by simp)) with ⟨r1, r2⟩ | ⟨r1, s1, r2, r3⟩
    · obtain ⟨s', i1, i2⟩ := ih (fun o ho => hos o (by simp [ho])) _ _ r2
      exact ⟨s', .fail _ _ _ _ _ _ r1 i1, i2⟩
    · obtain ⟨s', i1, i2⟩ := ih (fun o ho => hos o (by simp [ho])) _ _ r3
      exact ⟨s', by rw [r1]; exact .ok _ _ _ _ _ _ r2 i1, i2⟩

theorem kids_answer {t : LNode} (hd : t.decoded = true) {a : ALoaded} (g : SeesRaw t a) : KidsAnswer t a.kids := by
  have := bytesOps_lawful.1.trans
  rw [g.kids]
  rcases hm : t.children with - | m
  · simp [KidsAnswer, LNode.getChildren, LNode.childSize, LNode.getChild, hd, hm]
  · have hgood := g.good m hm
    simp only [Option.map_some, KidsAnswer]
    refine ⟨⟨treeEntries m.root, by simp [LNode.getChildren, hd, hm], ?_, ?_, fun k c => ?_⟩, fun k => ?_⟩
    · simp only [LNode.childSize, hd, not_true_eq_false, if_false, hm, treeEntries_eq, hgood.size]
    · rw [treeEntries_eq]; exact hgood.increasing
    · rw [treeEntries_eq]
      unfold contents lookL
      constructor
      · intro h
        rw [(findL_eq_some_iff hgood.increasing).mpr ⟨h, Std.ReflOrd.compare_self⟩]
        rfl
      · intro h
        rcases e : findL compare k (entries m.root) with - | x
        · rw [e] at h; cases h
        · rw [e] at h
          obtain ⟨h1, h2⟩ := (findL_eq_some_iff hgood.increasing).mp e
          have h3 := Std.LawfulEqCmp.compare_eq_iff_eq.mp h2
          simp only [Option.map_some, Option.some.injEq] at h
          obtain ⟨k', c'⟩ := x
          simp only at h3 h
          subst h3 h
          exact h1
    · simp only [LNode.getChild, hd, not_true_eq_false, if_false, hm, childOps_eq]
      rcases get_step bytesOps_lawful.1 m hgood k with ⟨-, h1⟩ | h1
      · rw [h1]
        refine ⟨by simp, by simp, fun hc => absurd ((bytes_calls m hgood k).2.2.1 h1) hc⟩
      · rw [h1]
        rcases contents compare m k with - | c
        · simp
        · simp

theorem node_answers {t : LNode} {a : ALoaded} (g : SeesNode t a) : NodeAnswers t a := by
  obtain ⟨g, gd⟩ := g
  refine ⟨by simp [LNode.fixed, g.bytes, g.offset], fun hb => ?_, fun hb => ?_⟩
  · rw [← g.bytes] at hb
    have hd := gd.mpr hb
    obtain ⟨b1, b2, b3⟩ := g.blank hb
    exact ⟨hd, by simp [LNode.key, hd, b1], by simp [LNode.value, hd, b2], by simp [LNode.getParent, hd, b3], kids_answer hd g⟩
  · rw [← g.bytes] at hb
    have hd : t.decoded = false := by
      rcases h : t.decoded with - | -
      · rfl
      · exact absurd (gd.mp h) hb
    simp [LNode.isDecoded, LNode.key, LNode.value, LNode.getParent, LNode.getChildren, LNode.childSize, LNode.getChild, hd]

/-- The nodes after a history of calls. -/
def loadedAfter (os : List LOp) : LMem := (LMem.run ⟨[], []⟩ os).1

theorem sees_start : SeesAll ⟨[], []⟩ .start := fun n => ⟨rfl, by simp, fun _ => rfl, by simp [ATable.start]⟩

/-- The full claim of C229: a loaded node finds the nodes that were loaded below it. -/
def LoadedKidsFound : Prop := ∀ (os : List LOp) (s : ATable) (n : Nat) (a : ALoaded) (t : LNode) (f : FMap Bytes Nat) (k : Bytes) (c : Nat),
  (∀ o ∈ os, o.Fits) → ATable.Runs .start os (LMem.run ⟨[], []⟩ os).2 s → s.nodes[n]? = some a → (loadedAfter os).nodes[n]? = some t →
    a.kids = some f → f k = some c → t.getChild k = .ok (some c)

/-- C229, exactly: in every history of loading nodes, decoding them again, copying them, entering them in the table of known nodes, and of
calls that are not supported, the nodes have as children what the specification says, and each node answers all questions about these if it
is without content, and panics on all questions otherwise. -/
theorem C229_nodes_partial (os : List LOp) (hos : ∀ o ∈ os, o.Fits) :
    ∃ s, ATable.Runs .start os (LMem.run ⟨[], []⟩ os).2 s ∧ (loadedAfter os).nodes.length = s.nodes.length ∧
      (∀ o, (loadedAfter os).known.lookup o = s.known o) ∧
      ∀ (n : Nat) (t : LNode) (a : ALoaded), (loadedAfter os).nodes[n]? = some t → s.nodes[n]? = some a → NodeAnswers t a := by
  obtain ⟨s, h1, h2⟩ := lrun_spec os hos _ _ sees_start
  exact ⟨s, h1, (h2 0).length, (h2 0).known, fun n t a e1 e2 => node_answers (h2.node e1 e2)⟩

/-- C229, which nodes can be loaded: those without content always; those with bytes that name a key and a known node exactly if this is no
copy and, where it has no child with that key yet, no child with a key that strictly continues it.  Calls that are not supported report an
error and change nothing. -/
theorem C229_loads_partial (os : List LOp) (hos : ∀ o ∈ os, o.Fits) :
    ∃ s, ATable.Runs .start os (LMem.run ⟨[], []⟩ os).2 s ∧ (∀ n, (loadedAfter os).exec (.unsupported n) = (loadedAfter os, .err)) ∧
      ∀ (parent : Option Nat) (buf : Bytes) (offset : Nat), buf.length < 2 ^ 63 →
        (BlankBytes buf → ((loadedAfter os).exec (.load parent buf offset)).2 = .ok ()) ∧
        ∀ (key : Bytes) (po p : Nat) (a : ALoaded), EntryBytes buf key po → s.known (po % 2 ^ 32) = some p → s.nodes[p]? = some a →
          (a.kids = none → ((loadedAfter os).exec (.load parent buf offset)).2 = .panic) ∧
          ∀ f, a.kids = some f →
            (¬ Continued f key → ((loadedAfter os).exec (.load parent buf offset)).2 = .ok ()) ∧
            (f key = none → Continued f key → ((loadedAfter os).exec (.load parent buf offset)).2 = .panic) := by
  obtain ⟨s, h1, hs⟩ := lrun_spec os hos _ _ sees_start
  refine ⟨s, h1, fun _ => rfl, fun parent buf offset hbuf => ?_⟩
  change SeesAll (loadedAfter os) s at hs
  generalize loadedAfter os = h at hs
  have hl := (hs 0).length
  have hp := sees_push hs parent buf offset (some .new) (by intro m hm; cases hm; exact new_good) hbuf
  rw [← hl] at hp
  have ha : (s.push ⟨buf, offset, parent, (some SortedMap.new).map (contents compare)⟩).nodes[h.nodes.length]? =
      some ⟨buf, offset, parent, (some SortedMap.new).map (contents compare)⟩ := by simp [ATable.push, hl]
  have names : ∀ key po p, EntryBytes buf key po → s.known (po % 2 ^ 32) = some p →
      (s.push ⟨buf, offset, parent, (some SortedMap.new).map (contents compare)⟩).Names h.nodes.length key p :=
    fun key po p hE hk => ⟨_, po, ha, hE, hk⟩
  have parents : ∀ (p : Nat) (a : ALoaded), s.nodes[p]? = some a →
      ((s.push ⟨buf, offset, parent, (some SortedMap.new).map (contents compare)⟩).nodes[p]?).bind (·.kids) = a.kids := by
    intro p a hp
    simp only [ATable.push]
    rw [List.getElem?_append_left (List.getElem?_eq_some_iff.mp hp).1, hp]
    rfl
  simp only [LMem.exec]
  rcases decode_spec hp ha with ⟨r1, -, r3, r4⟩ | ⟨r1, -, r3, r4⟩ | ⟨len, s', r1, -, -, r4⟩
  · rw [r1]
    refine ⟨fun hb => absurd hb r3, fun key po p a hE hk hpa => ⟨fun _ => rfl, fun f hf => ⟨fun hc => ?_, fun _ _ => rfl⟩⟩⟩
    exact absurd (r4 key p (names key po p hE hk) f ((parents p a hpa).trans hf)) hc
  · rw [r1]
    exact ⟨fun hb => absurd hb r4, fun key po p a hE hk hpa => absurd ⟨key, p, names key po p hE hk⟩ r3⟩
  · rw [r1]
    refine ⟨fun _ => rfl, fun key po p a hE hk hpa => ?_⟩
    obtain ⟨f, g1, g2⟩ := r4 key p (names key po p hE hk)
    rw [parents p a hpa] at g1
    refine ⟨fun h => (by rw [h] at g1; cases g1), fun f' hf' => ⟨fun _ => rfl, fun h2 h3 => ?_⟩⟩
    rw [hf'] at g1
    cases g1
    exact absurd h3 (g2 h2)

/-- A node without content that is known at 0, "a" and "b" below it, and "c" below "a". -/
def sampleLoads : List LOp :=
  [.load none [0] 0, .know 0 0, .load none [1, 1, 97, 0, 1, 7] 2, .load none [1, 1, 98, 0, 1, 8] 9, .load none [1, 1, 99, 2, 1, 9] 3]

theorem sampleLoads_fit : ∀ o ∈ sampleLoads, o.Fits := by
  simp [sampleLoads, LOp.Fits]

example := C229_nodes_partial sampleLoads sampleLoads_fit
example := C229_loads_partial sampleLoads sampleLoads_fit

/-- The bytes of a node without content and those of "a" below the node at 0. -/
example : BlankBytes [0] ∧ EntryBytes [1, 1, 97, 0, 1, 7] [97] 0 :=
  ⟨(blank_iff _ (by decide)).mpr ⟨1, by decide +kernel⟩, (entry_iff _ (by decide) _ _).mpr ⟨1, 1, 2, 1, [7], [1, 7], 2, by decide +kernel⟩⟩

/-- "ab" and then "a" below the same node: the second panics. -/
example : (LMem.run ⟨[], []⟩ [.load none [0] 0, .know 0 0, .load none [1, 2, 97, 98, 0, 1, 7] 2, .load none [1, 1, 97, 0, 1, 7] 9]).2 =
    [.ok (), .ok (), .ok (), .panic] := by decide +kernel

/-- The node without content finds its children. -/
example : ((loadedAfter sampleLoads).nodes[0]?).map (fun t => (t.getChild [97], t.getChild [98], t.childSize)) =
    some (.ok (some 1), .ok (some 2), .ok 2) := by decide +kernel
example : (LMem.run ⟨[], []⟩ sampleLoads).2 = [.ok (), .ok (), .ok (), .ok (), .ok ()] := by decide +kernel

/-- C229 is false: "a" has the child "c", but panics when asked for it. -/
theorem C229_refuted : ¬ LoadedKidsFound := by
  intro h
  obtain ⟨s, h1, h2⟩ := lrun_spec sampleLoads sampleLoads_fit _ _ sees_start
  change SeesAll (loadedAfter sampleLoads) s at h2
  have hl : (loadedAfter sampleLoads).nodes.length = 4 := by decide +kernel
  obtain ⟨t, ht⟩ : ∃ t, (loadedAfter sampleLoads).nodes[1]? = some t := ⟨_, List.getElem?_eq_getElem (by omega)⟩
  obtain ⟨a, ha⟩ : ∃ a, s.nodes[1]? = some a := ⟨_, List.getElem?_eq_getElem (by have := (h2 0).length; omega)⟩
  obtain ⟨g, -⟩ := h2.node ht ha
  have hm : (((loadedAfter sampleLoads).nodes[1]?).bind (·.children)).map (fun m => contents compare m [99]) = some (some 3) := by decide +kernel
  have hp : ((loadedAfter sampleLoads).nodes[1]?).map (fun t => t.getChild [99]) = some .panic := by decide +kernel
  rw [ht] at hm hp
  simp only [Option.bind_some, Option.map_some, Option.some.injEq] at hm hp
  rcases hc : t.children with - | m
  · rw [hc] at hm; cases hm
  · rw [hc] at hm
    have hk := g.kids
    rw [hc, Option.map_some] at hk
    have := h sampleLoads s 1 a t _ [99] 3 sampleLoads_fit h1 ha ht hk (by simpa using hm)
    rw [hp] at this
    cases this

end Poodle.Props
