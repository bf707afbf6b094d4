import Verif.Props.KeyWire
import Verif.Props.MphSize

/-
C38: exactly which tables verified by key survive being saved.
-/

namespace Poodle.Props
open Poodle Poodle.Spec

theorem wireLists_suffix {buf rest : Bytes} {dss : List (List Bytes)} (h : WireLists buf dss rest) : rest <:+ buf := by
  induction h with
  | nil buf => exact List.suffix_refl _
  | cons buf ds mid dss rest h1 _ ih =>
    have := (wireList_drop h1).2
    exact ih.trans (by rw [← this]; exact List.drop_suffix _ _)

theorem loadKeys_lists (n : Nat) (buf : Bytes) (hgo : buf.length ≤ 11728124029610) (l : List KeyObj) (r : Bytes)
    (h : loadKeys n buf = .ok (l, r)) : l.length = n ∧ ∃ dss, l.map KeyObj.subKeys = dss.map (List.map some) ∧ WireLists buf dss r := by
  induction n generalizing buf l with
  | zero =>
    simp only [loadKeys, Res.ok.injEq, Prod.mk.injEq] at h
    obtain ⟨rfl, rfl⟩ := h
    exact ⟨rfl, [], rfl, .nil _⟩
  | succ n ih =>
    rw [loadKeys, Res.bind_eq_ok] at h
    obtain ⟨⟨m, len⟩, h1, h⟩ := h
    simp only at h
    split at h
    · simp at h
    · rw [Res.bind_eq_ok] at h
      obtain ⟨⟨ks, b⟩, h2, h⟩ := h
      simp only [Res.ok.injEq, Prod.mk.injEq] at h
      obtain ⟨rfl, rfl⟩ := h
      obtain ⟨-, ds, mid, e1, e2, e3⟩ := (C202_key_ok_iff_partial buf hgo m len).mp h1
      have hmid : buf.drop len = mid := by
        have := (wireList_drop e2).2
        rw [← this]; congr 1; omega
      rw [hmid] at h2
      obtain ⟨i1, dss, i2, i3⟩ := ih mid (by omega) ks h2
      exact ⟨by simp [i1], ds :: dss, by simp [i2, KeyObj.subKeys, e1], .cons _ _ _ _ _ e2 i3⟩

theorem lists_loadKeys {buf rest : Bytes} {dss : List (List Bytes)} (h : WireLists buf dss rest) (hgo : buf.length ≤ 11728124029610) :
    ∃ l, loadKeys dss.length buf = .ok (l, rest) ∧ l.map KeyObj.subKeys = dss.map (List.map some) := by
  induction h with
  | nil buf => exact ⟨[], rfl, rfl⟩
  | cons buf ds mid dss rest h1 h2 ih =>
    have hm := (wireList_drop h1).2
    have hle : mid.length ≤ buf.length := by rw [← hm, List.length_drop]; omega
    obtain ⟨l, i1, i2⟩ := ih (by omega)
    have hd := (C202_key_ok_iff_partial buf hgo ⟨ds.map some, buf⟩ (buf.length - mid.length)).mpr ⟨rfl, ds, mid, rfl, h1, by omega⟩
    refine ⟨.mapped ⟨ds.map some, buf⟩ :: l, ?_, by simp [i2, KeyObj.subKeys]⟩
    rw [List.length_cons, loadKeys, hd, Res.bind_ok]
    simp only
    rw [if_neg (by omega), hm, i1]
    rfl

/-- C38 for tables verified by key, exactly, for all keys in any state: the saved table, followed by anything, is loaded again with the same
length and the same answers if and only if the bytes that the keys have, one after the other, and what follows, start with the sub keys of
the keys, and what follows is what is left. -/
theorem C38_exact_partial (f : UInt32 → Slice → UInt32) (order : List (Nat × List Nat) → List (Nat × List Nat))
    (hord : ∀ l, (order l).Perm l) (fuel : Nat) (vs : UInt32) (keys : List KeyObj) (hlen : keys.length ≤ 2 ^ 31)
    (t : MphTable KeyObj) (h : mphBuild (keyMphOps f) order fuel vs keys true = .ok t)
    (enc : Bytes) (he : t.encode = .ok enc) (rest : Bytes) (hb : (enc ++ rest).length ≤ 2 ^ 43) (bufs : List Bytes)
    (hbufs : keys.map mphKeyBuf = bufs.map .ok) :
    (∃ t', newMphTable (enc ++ rest) = .ok (t', enc.length) ∧ ∀ s, t'.lookup (keyMphOps f) s = t.lookup (keyMphOps f) s) ↔
      ∃ dss : List (List Bytes), keys.map KeyObj.subKeys = dss.map (List.map some) ∧ WireLists (bufs.flatten ++ rest) dss rest := by
  have hB := built_of_ok hord h
  have hf := hB.fits32 hlen
  have hv := hB.verify
  simp only [if_true] at hv
  rw [encode_eq, hv] at he
  simp only at he
  rw [Res.bind_eq_ok] at he
  obtain ⟨bs, hbs, he⟩ := he
  simp only [Res.ok.injEq] at he
  obtain ⟨bufs', hb', rfl⟩ := mphKeyBufs_parts keys bs hbs
  obtain rfl : bufs' = bufs := by
    have : bufs'.map Res.ok = bufs.map Res.ok := hb'.symm.trans hbufs
    exact (List.map_injective_iff.mpr fun a b e => by cases e; rfl) this
  subst he
  have hgo : (bufs'.flatten ++ rest).length ≤ 11728124029610 := by
    simp only [List.length_append] at hb ⊢; omega
  have hload : newMphTable (1 :: mphHead t ++ be32 keys.length ++ bufs'.flatten ++ rest) =
      (loadKeys keys.length (bufs'.flatten ++ rest)) >>= fun x => .ok (⟨t.level0, t.level0Mask, t.level1, t.level1Mask, .keys x.1⟩,
        (1 :: mphHead t ++ be32 keys.length ++ bufs'.flatten ++ rest).length - x.2.length) := by
    rw [List.append_assoc, List.append_assoc, load_head t hf 1 (Or.inr rfl), loadTail, if_pos rfl, readU32_be32, Res.bind_ok]
    simp only
    rw [Nat.mod_eq_of_lt (by omega)]
  rw [hload]
  constructor
  · rintro ⟨t', h1, h2⟩
    rw [Res.bind_eq_ok] at h1
    obtain ⟨⟨l, r⟩, h3, h1⟩ := h1
    simp only [Res.ok.injEq, Prod.mk.injEq] at h1
    obtain ⟨rfl, h1⟩ := h1
    obtain ⟨i1, dss, i2, i3⟩ := loadKeys_lists _ _ hgo l r h3
    have hsuf := wireLists_suffix i3
    have hr : r = rest := by
      have hle := hsuf.length_le
      have : r.length = rest.length := by simp only [List.length_append] at h1 hle; omega
      exact List.IsSuffix.eq_of_length (List.suffix_of_suffix_length_le hsuf (List.suffix_append _ _) (by omega)) this
    subst hr
    refine ⟨dss, ?_, i3⟩
    rw [← i2]
    apply List.ext_getElem?
    intro i
    rw [List.getElem?_map, List.getElem?_map]
    rcases hk : keys[i]? with - | k
    · rw [List.getElem?_eq_none_iff] at hk
      rw [List.getElem?_eq_none_iff.mpr (by omega)]
    · obtain ⟨hi, seed, s0, s1⟩ := built_index hB hk
      have hlt := (List.getElem?_eq_some_iff.mp hk).1
      have hn : (UInt32.ofNat i).toNat = i := by rw [UInt32.toNat_ofNat', Nat.mod_eq_of_lt hi]
      obtain ⟨k', hk'⟩ : ∃ k', l[i]? = some k' := ⟨l[i], List.getElem?_eq_getElem (by omega)⟩
      have := h2 k
      simp only [keyMphOps] at s0 s1
      unfold MphTable.lookup at this
      simp only [s0, s1, hv, hn, hk, hk', keyMphOps, KeyObj.equal?_eq, Res.ok.injEq, Prod.mk.injEq, true_and, decide_true,
        decide_eq_true_eq] at this
      rw [hk']
      simpa using this
  · rintro ⟨dss, h1, h2⟩
    have hl : dss.length = keys.length := by simpa using (congrArg List.length h1).symm
    obtain ⟨l, i1, i2⟩ := lists_loadKeys h2 hgo
    rw [hl] at i1
    rw [i1, Res.bind_ok]
    refine ⟨_, by simp only [Res.ok.injEq, Prod.mk.injEq]; exact ⟨rfl, by simp only [List.length_append]; omega⟩, fun s => ?_⟩
    have hs : ∀ n : Nat, (l[n]?).map KeyObj.subKeys = (keys[n]?).map KeyObj.subKeys := by
      intro n; rw [← List.getElem?_map, ← List.getElem?_map, i2, h1]
    unfold MphTable.lookup
    rw [hv]
    simp only
    split
    · rfl
    · split
      · rfl
      · rename_i n _
        have := hs n.toNat
        generalize l[n.toNat]? = o1 at this ⊢
        generalize keys[n.toNat]? = o2 at this ⊢
        rcases o1 with - | k1
        · rcases o2 with - | k2
          · rfl
          · simp at this
        · rcases o2 with - | k2
          · simp at this
          · simp only [Option.map_some, Option.some.injEq] at this
            simp only [keyMphOps, KeyObj.equal?_eq, this]

/-- A key that was decoded from a longer buffer. -/
def longKeyTable : MphTable KeyObj := ⟨[0], 0, [0], 0, .keys [.mapped ⟨[some [5]], [1, 1, 5, 9]⟩]⟩

example := C38_exact_partial (fun seed s => murmurHash seed s.bytes) id (fun l => List.Perm.refl l) 1 20 [.mapped ⟨[some [5]], [1, 1, 5, 9]⟩]
  (by decide) longKeyTable (by decide +kernel)
  [1, 0, 0, 0, 1, 0, 0, 0, 0, 0, 0, 0, 0, 0, 0, 0, 1, 0, 0, 0, 0, 0, 0, 0, 0, 0, 0, 0, 1, 1, 1, 5, 9] (by decide +kernel) [] (by decide)
  [[1, 1, 5, 9]] rfl

/-- The bytes left over in front of what follows make up no key, so the condition fails: nothing may be left of `1 1 5 9` after `5`. -/
example : ¬ ∃ dss : List (List Bytes), [[some [5]]] = dss.map (List.map (some : Bytes → Slice)) ∧ WireLists ([[1, 1, 5, 9]].flatten ++ []) dss [] := by
  rintro ⟨dss, h1, h2⟩
  have hl : dss.length = 1 := by simpa using (congrArg List.length h1).symm
  obtain ⟨l, h3, -⟩ := lists_loadKeys h2 (by decide)
  rw [hl] at h3
  have : loadKeys 1 ([[1, 1, 5, 9]].flatten ++ []) = .ok ([.mapped ⟨[some [5]], [1, 1, 5, 9]⟩], [9]) := by decide +kernel
  rw [this] at h3
  simp at h3

/-- The condition holds for two keys that are saved as they are. -/
example : ∃ dss : List (List Bytes), [[some [5]], [some [6], some []]] = dss.map (List.map (some : Bytes → Slice)) ∧
    WireLists ([[1, 1, 5], [2, 1, 6, 0]].flatten ++ [7]) dss [7] := by
  obtain ⟨-, dss, h1, h2⟩ := loadKeys_lists 2 ([[1, 1, 5], [2, 1, 6, 0]].flatten ++ [7]) (by decide)
    [.mapped ⟨[some [5]], [1, 1, 5, 2, 1, 6, 0, 7]⟩, .mapped ⟨[some [6], some []], [2, 1, 6, 0, 7]⟩] [7] (by decide +kernel)
  exact ⟨dss, h1, h2⟩

end Poodle.Props
