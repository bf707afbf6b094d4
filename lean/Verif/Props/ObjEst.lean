import Verif.Spec.ObjEst
import Verif.Props.ObjCopy

/-
Properties C118, C119: size estimates of objects over histories of calls, and which objects have bytes
(/repo/src/util/value_util.go, /repo/src/util/record_util.go).
-/

namespace Poodle.Props
open Poodle Spec

/-! ### Encoding keeps the estimates of lists and records -/

/-- An object without its encoding; estimates of record lists and records are kept. -/
def quiet : VNode → VNode
  | .prim d _ _ => .prim d false []
  | .array l _ _ _ => .array l false [] 0
  | .list l _ _ e => .list l false [] e
  | .record r => .record { r with key := r.key.map bareKey, encoded := false, buf := [] }
  | n => n

/-- The same objects but for encodings. -/
def Quiet (h h' : VHeap) : Prop := h'.map quiet = h.map quiet

theorem Quiet.get {h h' : VHeap} (s : Quiet h h') (i : Nat) : (h'[i]?).map quiet = (h[i]?).map quiet := by
  rw [← List.getElem?_map, ← List.getElem?_map, s]

theorem Quiet.trans {a b c : VHeap} (h1 : Quiet a b) (h2 : Quiet b c) : Quiet a c := Eq.trans h2 h1

theorem Quiet.set {h : VHeap} {i : Nat} {n n' : VNode} (hn : (h[i]?).map quiet = some (quiet n)) (hb : quiet n' = quiet n) :
    Quiet h (h.set i n') := by
  unfold Quiet
  rw [List.map_set, hb]
  apply List.ext_getElem?
  intro j
  rw [List.getElem?_set]
  split
  · rename_i e
    subst e
    rw [List.getElem?_map, hn]
    obtain ⟨m, hm, -⟩ := Option.map_eq_some_iff.mp hn
    rw [List.length_map, if_pos (List.getElem?_eq_some_iff.mp hm).1]
  · rfl

theorem encodeElems_quiet {E : VHeap → Nat → VHeap × Option (Res Bytes)} (hE : ∀ h i, Quiet h (E h i).1) (h : VHeap) (l : List Nat) :
    Quiet h (encodeElems E h l).1 := by
  induction l generalizing h with
  | nil => rfl
  | cons i l ih =>
    rw [encodeElems]
    have q := hE h i
    generalize E h i = x at *
    obtain ⟨h', r⟩ := x
    rcases r with _ | (b | _ | _)
    · exact q
    · have q2 := ih h'
      simp only
      generalize encodeElems E h' l = y at *
      obtain ⟨h'', r⟩ := y
      rcases r with _ | (b | _ | _) <;> exact q.trans q2
    · exact q
    · exact q

theorem encodePart_quiet {E : VHeap → Nat → VHeap × Option (Res Bytes)} (hE : ∀ h i, Quiet h (E h i).1) (h : VHeap) (v : Option Nat) :
    Quiet h (encodePart E h v).1 := by
  unfold encodePart
  cases v with
  | none => rfl
  | some i =>
    simp only
    cases h[i]? with
    | none => rfl
    | some n =>
      simp only
      split
      · rfl
      · have q := hE h i
        generalize E h i = x at *
        obtain ⟨h', r⟩ := x
        rcases r with _ | (b | _ | _) <;> exact q

theorem encode_quiet (f : Nat) (h : VHeap) (i : Nat) : Quiet h (h.encode f i).1 := by
  induction f generalizing h i with
  | zero => rfl
  | succ f ih =>
    rw [VHeap.encode]
    cases hn : h[i]? with
    | none => rfl
    | some n =>
      cases n with
      | prim d e b =>
        simp only
        cases encodePrimitive d with
        | ok w => exact Quiet.set (n := .prim d e b) (by rw [hn]; rfl) rfl
        | _ => rfl
      | array l e b est =>
        simp only
        cases countHeader 6 l.length with
        | ok mc =>
          have q := encodeElems_quiet ih h l
          simp only
          generalize encodeElems (VHeap.encode f) h l = x at *
          obtain ⟨h', r⟩ := x
          have hq : (h'[i]?).map quiet = some (quiet (.array l e b est)) := by rw [q.get i, hn]; rfl
          rcases r with _ | (content | _ | _)
          · exact q
          · simp only
            cases withContent mc.1 mc.2 content with
            | ok w => exact q.trans (Quiet.set hq rfl)
            | _ => exact q
          · exact q
          · exact q
        | _ => rfl
      | list l e b est =>
        simp only
        cases countHeader 4 l.length with
        | ok mc =>
          have q := encodeElems_quiet ih h l
          simp only
          generalize encodeElems (VHeap.encode f) h l = x at *
          obtain ⟨h', r⟩ := x
          have hq : (h'[i]?).map quiet = some (quiet (.list l e b est)) := by rw [q.get i, hn]; rfl
          rcases r with _ | (content | _ | _)
          · exact q
          · simp only
            cases withContent mc.1 mc.2 content with
            | ok w => exact q.trans (Quiet.set hq rfl)
            | _ => exact q
          · exact q
          · exact q
        | _ => rfl
      | record r =>
        simp only
        have q0 : Quiet h (h.set i (.record { r with key := encodedKey r.key })) :=
          Quiet.set (n := .record r) (by rw [hn]; rfl) (by simp [quiet, bare_encodedKey])
        generalize h.set i (.record { r with key := encodedKey r.key }) = h0 at *
        cases recKeyPart r.key with
        | ok mb =>
          have q1 := encodePart_quiet ih h0 r.value
          simp only
          generalize encodePart (VHeap.encode f) h0 r.value = x at *
          obtain ⟨h1, r1⟩ := x
          rcases r1 with _ | (o1 | _ | _)
          · exact q0.trans q1
          · have q2 := encodePart_quiet ih h1 r.scheme
            simp only
            generalize encodePart (VHeap.encode f) h1 r.scheme = x at *
            obtain ⟨h2, r2⟩ := x
            rcases r2 with _ | (o2 | _ | _)
            · exact (q0.trans q1).trans q2
            · have q := (q0.trans q1).trans q2
              refine q.trans (Quiet.set (n := .record r) (by rw [q.get i, hn]; rfl) (by simp [quiet, bare_encodedKey]))
            · exact (q0.trans q1).trans q2
            · exact (q0.trans q1).trans q2
          · exact q0.trans q1
          · exact q0.trans q1
        | _ => exact q0
      | _ => rfl

/-! ### One call -/

theorem run_other {h : VHeap} {op : VOp} (hop : ∀ id d, op ≠ .encode id d) {id : Nat} {n : VNode} (hn : h[id]? = some n)
    (hc : op.changes ≠ some id) : (op.run h)[id]? = some n := by
  rcases run_get h op hop id with e | ⟨e, -⟩ | ⟨e, -⟩
  · rw [e, hn]
  · simp [hn] at e
  · exact absurd e hc

theorem gain_other {h : VHeap} {op : VOp} {id : Nat} (hc : op.changes ≠ some id) : gain h id op = 0 := by
  cases op <;> simp_all [gain, VOp.changes]

theorem elementAt_lt {h : VHeap} {id idx : Nat} {n : VNode} (hn : h[id]? = some n) (hi : idx < (VNode.refs n).length % 65536) :
    elementAt h id idx = (VNode.refs n)[idx]? := by
  simp [elementAt, hn, hi]

theorem elementAt_ge {h : VHeap} {id idx : Nat} {n : VNode} (hn : h[id]? = some n) (hi : ¬ idx < (VNode.refs n).length % 65536) :
    elementAt h id idx = none := by
  simp [elementAt, hn, hi]

theorem list_step {h : VHeap} {id : Nat} {l : List Nat} {e : Bool} {b : Bytes} {x : Int} (hn : h[id]? = some (.list l e b x)) (op : VOp) :
    ∃ l' e' b', (op.run h)[id]? = some (.list l' e' b' (x + gain h id op)) := by
  by_cases hen : ∃ y d, op = .encode y d
  · obtain ⟨y, d, rfl⟩ := hen
    have q := (encode_quiet d h y).get id
    rw [hn] at q
    obtain ⟨n, h1, h2⟩ := Option.map_eq_some_iff.mp q
    simp only [VOp.run, h1, gain]
    cases n <;> simp [quiet] at h2 ⊢
    exact h2.2
  · by_cases hc : op.changes = some id
    · cases op with
      | new o => simp [VOp.changes] at hc
      | encode y d => simp [VOp.changes] at hc
      | copy y d => simp [VOp.changes] at hc
      | append y i =>
        obtain rfl : y = id := by simpa [VOp.changes] using hc
        simp only [VOp.run, VHeap.append, hn, gain, fits, true_and]
        split
        · exact ⟨_, _, _, get_set_self hn _⟩
        · exact ⟨l, e, b, by simpa using hn⟩
      | deleteAt y idx =>
        obtain rfl : y = id := by simpa [VOp.changes] using hc
        simp only [VOp.run, VHeap.deleteAt, hn, gain, if_true]
        by_cases hi : idx < l.length % 65536
        · have hi' : idx < l.length := lt_of_lt_of_le hi (Nat.mod_le _ _)
          rw [if_neg (by omega), elementAt_lt hn hi, show VNode.refs _ = l from rfl, List.getElem?_eq_getElem hi']
          refine ⟨l.take idx ++ l.drop ((idx + 1) % 65536), false, b, (get_set_self hn _).trans ?_⟩
          simp only [Option.elim, List.getD_eq_getElem?_getD, List.getElem?_eq_getElem hi', Option.getD_some]
          rfl
        · rw [if_pos (by omega), elementAt_ge hn hi]
          exact ⟨l, e, b, by simpa using hn⟩
      | setKey y k =>
        obtain rfl : y = id := by simpa [VOp.changes] using hc
        exact ⟨l, e, b, by simp [VOp.run, VHeap.setKey, hn, gain]⟩
      | setValue y k =>
        obtain rfl : y = id := by simpa [VOp.changes] using hc
        exact ⟨l, e, b, by simp [VOp.run, VHeap.setValue, hn, gain]⟩
      | setScheme y k =>
        obtain rfl : y = id := by simpa [VOp.changes] using hc
        exact ⟨l, e, b, by simp [VOp.run, VHeap.setScheme, hn, gain]⟩
      | setTimestamp y k =>
        obtain rfl : y = id := by simpa [VOp.changes] using hc
        exact ⟨l, e, b, by simp [VOp.run, VHeap.setTimestamp, hn, gain]⟩
      | setSignature y r s =>
        obtain rfl : y = id := by simpa [VOp.changes] using hc
        exact ⟨l, e, b, by simp [VOp.run, VHeap.setSignature, hn, gain]⟩
    · rw [gain_other hc, Int.add_zero]
      exact ⟨l, e, b, run_other (fun y d h => hen ⟨y, d, h⟩) hn hc⟩

/-- What encoding does to arrays: nothing, or it stores bytes and their number. -/
def Stored (h h' : VHeap) : Prop := ∀ (id : Nat) (l : List Nat) (e : Bool) (b : Bytes) (x : Int), h[id]? = some (.array l e b x) →
  h'[id]? = some (.array l e b x) ∨ ∃ w : Bytes, h'[id]? = some (.array l true w w.length)

theorem Stored.refl (h : VHeap) : Stored h h := fun _ _ _ _ _ hn => .inl hn

theorem Stored.trans {a b c : VHeap} (h1 : Stored a b) (h2 : Stored b c) : Stored a c := by
  intro id l e bs x hn
  rcases h1 id l e bs x hn with h | ⟨w, h⟩
  · exact h2 id l e bs x h
  · rcases h2 id _ _ _ _ h with g | g
    · exact .inr ⟨w, g⟩
    · exact .inr g

/-- A new content for an object that is no array, or the bytes of an array. -/
theorem Stored.set {h : VHeap} {i : Nat} {n : VNode} (hn : ∀ l e b x, h[i]? = some (.array l e b x) → ∃ w : Bytes, n = .array l true w w.length) :
    Stored h (h.set i n) := by
  intro id l e b x hi
  by_cases e' : i = id
  · subst e'
    obtain ⟨w, rfl⟩ := hn l e b x hi
    exact .inr ⟨w, get_set_self hi _⟩
  · left
    rw [List.getElem?_set_ne e', hi]

theorem encodeElems_stored {E : VHeap → Nat → VHeap × Option (Res Bytes)} (hE : ∀ h i, Stored h (E h i).1) (h : VHeap) (l : List Nat) :
    Stored h (encodeElems E h l).1 := by
  induction l generalizing h with
  | nil => exact .refl h
  | cons i l ih =>
    rw [encodeElems]
    have q := hE h i
    generalize E h i = x at *
    obtain ⟨h', r⟩ := x
    rcases r with _ | (b | _ | _)
    · exact q
    · have q2 := ih h'
      simp only
      generalize encodeElems E h' l = y at *
      obtain ⟨h'', r⟩ := y
      rcases r with _ | (b | _ | _) <;> exact q.trans q2
    · exact q
    · exact q

theorem encodePart_stored {E : VHeap → Nat → VHeap × Option (Res Bytes)} (hE : ∀ h i, Stored h (E h i).1) (h : VHeap) (v : Option Nat) :
    Stored h (encodePart E h v).1 := by
  unfold encodePart
  cases v with
  | none => exact .refl h
  | some i =>
    simp only
    cases h[i]? with
    | none => exact .refl h
    | some n =>
      simp only
      split
      · exact .refl h
      · have q := hE h i
        generalize E h i = x at *
        obtain ⟨h', r⟩ := x
        rcases r with _ | (b | _ | _) <;> exact q

/-- An object keeps its kind and its elements. -/
theorem Quiet.not_array {h h' : VHeap} (q : Quiet h h') {i : Nat} {n : VNode} (hn : h[i]? = some n) (hk : ∀ l e b x, n ≠ .array l e b x)
    (l : List Nat) (e : Bool) (b : Bytes) (x : Int) : h'[i]? ≠ some (.array l e b x) := by
  intro h1
  have := q.get i
  rw [h1, hn, Option.map_some, Option.map_some, Option.some.injEq] at this
  cases n <;> simp [quiet] at this
  exact hk _ _ _ _ rfl

theorem encode_stored (f : Nat) (h : VHeap) (i : Nat) : Stored h (h.encode f i).1 := by
  induction f generalizing h i with
  | zero => exact .refl h
  | succ f ih =>
    rw [VHeap.encode]
    cases hn : h[i]? with
    | none => exact .refl h
    | some n =>
      cases n with
      | prim d e b =>
        simp only
        cases encodePrimitive d with
        | ok w => exact Stored.set (fun l e b x hx => by rw [hn] at hx; cases hx)
        | _ => exact .refl h
      | array l e b est =>
        simp only
        cases countHeader 6 l.length with
        | ok mc =>
          have q := encodeElems_stored ih h l
          have qq := encodeElems_quiet (encode_quiet f) h l
          simp only
          generalize encodeElems (VHeap.encode f) h l = x at *
          obtain ⟨h', r⟩ := x
          rcases r with _ | (content | _ | _)
          · exact q
          · simp only
            cases withContent mc.1 mc.2 content with
            | ok w =>
              refine q.trans (Stored.set (fun l' e' b' x' hx => ⟨w, ?_⟩))
              rcases q i l e b est hn with h1 | ⟨w', h1⟩ <;> rw [h1] at hx <;> cases hx <;> rfl
            | _ => exact q
          · exact q
          · exact q
        | _ => exact .refl h
      | list l e b est =>
        simp only
        cases countHeader 4 l.length with
        | ok mc =>
          have q := encodeElems_stored ih h l
          have qq := encodeElems_quiet (encode_quiet f) h l
          simp only
          generalize encodeElems (VHeap.encode f) h l = x at *
          obtain ⟨h', r⟩ := x
          rcases r with _ | (content | _ | _)
          · exact q
          · simp only
            cases withContent mc.1 mc.2 content with
            | ok w => exact q.trans (Stored.set (fun l' e' b' x' hx => absurd hx (qq.not_array hn (by simp) _ _ _ _)))
            | _ => exact q
          · exact q
          · exact q
        | _ => exact .refl h
      | record r =>
        simp only
        have q0 : Stored h (h.set i (.record { r with key := encodedKey r.key })) :=
          Stored.set (fun l e b x hx => by rw [hn] at hx; cases hx)
        have p0 : Quiet h (h.set i (.record { r with key := encodedKey r.key })) :=
          Quiet.set (n := .record r) (by rw [hn]; rfl) (by simp [quiet, bare_encodedKey])
        generalize h.set i (.record { r with key := encodedKey r.key }) = h0 at *
        cases recKeyPart r.key with
        | ok mb =>
          have q1 := encodePart_stored ih h0 r.value
          have p1 := encodePart_quiet (encode_quiet f) h0 r.value
          simp only
          generalize encodePart (VHeap.encode f) h0 r.value = x at *
          obtain ⟨h1, r1⟩ := x
          rcases r1 with _ | (o1 | _ | _)
          · exact q0.trans q1
          · have q2 := encodePart_stored ih h1 r.scheme
            have p2 := encodePart_quiet (encode_quiet f) h1 r.scheme
            simp only
            generalize encodePart (VHeap.encode f) h1 r.scheme = x at *
            obtain ⟨h2, r2⟩ := x
            rcases r2 with _ | (o2 | _ | _)
            · exact (q0.trans q1).trans q2
            · have p := (p0.trans p1).trans p2
              exact ((q0.trans q1).trans q2).trans (Stored.set (fun l' e' b' x' hx => absurd hx (p.not_array hn (by simp) _ _ _ _)))
            · exact (q0.trans q1).trans q2
            · exact (q0.trans q1).trans q2
          · exact q0.trans q1
          · exact q0.trans q1
        | _ => exact q0
      | _ => exact .refl h

/-- One call on an array whose estimate is the number of its bytes if it is encoded. -/
theorem array_step {h : VHeap} {id : Nat} {l : List Nat} {e : Bool} {b : Bytes} {x : Int} (hn : h[id]? = some (.array l e b x))
    (hx : e = true → x = b.length) (op : VOp) : ∃ l' e' b' x', (op.run h)[id]? = some (.array l' e' b' x') ∧ (e' = true → x' = b'.length) ∧
      (e' = false → x' = x + gain h id op) := by
  by_cases hen : ∃ y d, op = .encode y d
  · obtain ⟨y, d, rfl⟩ := hen
    rcases encode_stored d h y id l e b x hn with h1 | ⟨w, h1⟩
    · exact ⟨l, e, b, x, h1, hx, fun _ => by simp [gain]⟩
    · exact ⟨l, true, w, w.length, h1, fun _ => rfl, by simp⟩
  · have hop : ∀ y d, op ≠ .encode y d := fun y d e => hen ⟨y, d, e⟩
    have same : op.run h = h → gain h id op = 0 → ∃ l' e' b' x', (op.run h)[id]? = some (.array l' e' b' x') ∧ (e' = true → x' = b'.length) ∧
        (e' = false → x' = x + gain h id op) := by
      intro h1 h2
      exact ⟨l, e, b, x, by rw [h1, hn], hx, fun _ => by rw [h2, Int.add_zero]⟩
    by_cases hc : op.changes = some id
    · cases op with
      | new o => simp [VOp.changes] at hc
      | encode y d => simp [VOp.changes] at hc
      | copy y d => simp [VOp.changes] at hc
      | append y i =>
        obtain rfl : y = id := by simpa [VOp.changes] using hc
        by_cases hv : h.isValue i = true
        · refine ⟨l ++ [i], false, b, x + h.est i, ?_, by simp, fun _ => ?_⟩
          · simp only [VOp.run, VHeap.append, hn, hv, if_true]
            exact get_set_self hn _
          · simp [gain, fits, hn, hv]
        · exact same (by simp [VOp.run, VHeap.append, hn, hv]) (by simp [gain, fits, hn, hv])
      | deleteAt y idx =>
        obtain rfl : y = id := by simpa [VOp.changes] using hc
        by_cases hi : idx < l.length % 65536
        · have hi' : idx < l.length := lt_of_lt_of_le hi (Nat.mod_le _ _)
          refine ⟨l.take idx ++ l.drop ((idx + 1) % 65536), false, b, x - h.est (l.getD idx 0), ?_, by simp, fun _ => ?_⟩
          · simp only [VOp.run, VHeap.deleteAt, hn]
            rw [if_neg (by omega)]
            exact get_set_self hn _
          · simp only [gain, if_true]
            rw [elementAt_lt hn hi, show VNode.refs _ = l from rfl, List.getElem?_eq_getElem hi']
            simp only [Option.elim, List.getD_eq_getElem?_getD, List.getElem?_eq_getElem hi', Option.getD_some]
            rfl
        · refine same ?_ ?_
          · simp only [VOp.run, VHeap.deleteAt, hn]
            rw [if_pos (by omega)]
          · simp only [gain, if_true]
            rw [elementAt_ge hn hi]
            rfl
      | setKey y k =>
        obtain rfl : y = id := by simpa [VOp.changes] using hc
        exact same (by simp [VOp.run, VHeap.setKey, hn]) rfl
      | setValue y k =>
        obtain rfl : y = id := by simpa [VOp.changes] using hc
        exact same (by simp [VOp.run, VHeap.setValue, hn]) rfl
      | setScheme y k =>
        obtain rfl : y = id := by simpa [VOp.changes] using hc
        exact same (by simp [VOp.run, VHeap.setScheme, hn]) rfl
      | setTimestamp y k =>
        obtain rfl : y = id := by simpa [VOp.changes] using hc
        exact same (by simp [VOp.run, VHeap.setTimestamp, hn]) rfl
      | setSignature y r s =>
        obtain rfl : y = id := by simpa [VOp.changes] using hc
        exact same (by simp [VOp.run, VHeap.setSignature, hn]) rfl
    · exact ⟨l, e, b, x, run_other hop hn hc, hx, fun _ => by rw [gain_other hc, Int.add_zero]⟩

/-- The parts of the estimate of a record. -/
def estParts (r : RecNode) : Int × Int × Int × Int × Int :=
  (r.estKey, r.estValue, r.estScheme, if r.timestamp.isSome then 8 else 0, if r.sigR.isSome ∧ r.sigS.isSome then 64 else 0)

theorem record_step {h : VHeap} {id : Nat} {r : RecNode} (hn : h[id]? = some (.record r)) (op : VOp) :
    ∃ r', (op.run h)[id]? = some (.record r') ∧ estParts r' =
      ((keySet id h op).getD (estParts r).1, (valueSet id h op).getD (estParts r).2.1, (schemeSet id h op).getD (estParts r).2.2.1,
        (timeSet id h op).getD (estParts r).2.2.2.1, (signatureSet id h op).getD (estParts r).2.2.2.2) := by
  by_cases hen : ∃ y d, op = .encode y d
  · obtain ⟨y, d, rfl⟩ := hen
    have q := (encode_quiet d h y).get id
    rw [hn] at q
    obtain ⟨n, h1, h2⟩ := Option.map_eq_some_iff.mp q
    simp only [VOp.run, h1]
    cases n <;> simp [quiet] at h2
    rename_i r'
    refine ⟨r', rfl, ?_⟩
    obtain ⟨_, _, _, h4, h5, h6, h7, h8, h9⟩ := h2
    simp [estParts, keySet, valueSet, schemeSet, timeSet, signatureSet, *]
  · by_cases hc : op.changes = some id
    · have stay : op.run h = h → (keySet id h op = none ∧ valueSet id h op = none ∧ schemeSet id h op = none ∧ timeSet id h op = none ∧
          signatureSet id h op = none) → ∃ r', (op.run h)[id]? = some (.record r') ∧ estParts r' =
            ((keySet id h op).getD (estParts r).1, (valueSet id h op).getD (estParts r).2.1, (schemeSet id h op).getD (estParts r).2.2.1,
              (timeSet id h op).getD (estParts r).2.2.2.1, (signatureSet id h op).getD (estParts r).2.2.2.2) := by
        rintro e ⟨e1, e2, e3, e4, e5⟩
        exact ⟨r, by rw [e]; exact hn, by rw [e1, e2, e3, e4, e5]; rfl⟩
      cases op with
      | new o => simp [VOp.changes] at hc
      | encode y d => simp [VOp.changes] at hc
      | copy y d => simp [VOp.changes] at hc
      | append y i =>
        obtain rfl : y = id := by simpa [VOp.changes] using hc
        exact stay (by simp [VOp.run, VHeap.append, hn]) ⟨rfl, rfl, rfl, rfl, rfl⟩
      | deleteAt y idx =>
        obtain rfl : y = id := by simpa [VOp.changes] using hc
        exact stay (by simp [VOp.run, VHeap.deleteAt, hn]) ⟨rfl, rfl, rfl, rfl, rfl⟩
      | setKey y k =>
        obtain rfl : y = id := by simpa [VOp.changes] using hc
        refine ⟨{ r with key := some k, encoded := false, estKey := k.estBufSize }, ?_, ?_⟩
        · simp only [VOp.run, VHeap.setKey, hn]; exact get_set_self hn _
        · simp [estParts, keySet, valueSet, schemeSet, timeSet, signatureSet]
      | setValue y i =>
        obtain rfl : y = id := by simpa [VOp.changes] using hc
        cases hv : h.isValue i with
        | true =>
          refine ⟨{ r with value := some i, encoded := false, estValue := h.est i }, ?_, ?_⟩
          · simp only [VOp.run, VHeap.setValue, hn, hv, if_true]; exact get_set_self hn _
          · simp [estParts, keySet, valueSet, schemeSet, timeSet, signatureSet, hv]
        | false => exact stay (by simp [VOp.run, VHeap.setValue, hn, hv]) ⟨rfl, by simp [valueSet, hv], rfl, rfl, rfl⟩
      | setScheme y i =>
        obtain rfl : y = id := by simpa [VOp.changes] using hc
        cases hv : h.isValue i with
        | true =>
          refine ⟨{ r with scheme := some i, encoded := false, estScheme := h.est i }, ?_, ?_⟩
          · simp only [VOp.run, VHeap.setScheme, hn, hv, if_true]; exact get_set_self hn _
          · simp [estParts, keySet, valueSet, schemeSet, timeSet, signatureSet, hv]
        | false => exact stay (by simp [VOp.run, VHeap.setScheme, hn, hv]) ⟨rfl, rfl, by simp [schemeSet, hv], rfl, rfl⟩
      | setTimestamp y t =>
        obtain rfl : y = id := by simpa [VOp.changes] using hc
        refine ⟨{ r with timestamp := t, encoded := false }, ?_, ?_⟩
        · simp only [VOp.run, VHeap.setTimestamp, hn]; exact get_set_self hn _
        · simp [estParts, keySet, valueSet, schemeSet, timeSet, signatureSet]
      | setSignature y R S =>
        obtain rfl : y = id := by simpa [VOp.changes] using hc
        refine ⟨{ r with sigR := R, sigS := S, encoded := false }, ?_, ?_⟩
        · simp only [VOp.run, VHeap.setSignature, hn]; exact get_set_self hn _
        · simp [estParts, keySet, valueSet, schemeSet, timeSet, signatureSet]
    · refine ⟨r, run_other (fun y d h => hen ⟨y, d, h⟩) hn hc, ?_⟩
      have : keySet id h op = none ∧ valueSet id h op = none ∧ schemeSet id h op = none ∧ timeSet id h op = none ∧
          signatureSet id h op = none := by
        cases op <;> simp_all [keySet, valueSet, schemeSet, timeSet, signatureSet, VOp.changes]
      obtain ⟨e1, e2, e3, e4, e5⟩ := this
      rw [e1, e2, e3, e4, e5]
      rfl

theorem atLeastOne_eq (n : Int) : atLeastOne n = max 1 n := by
  unfold atLeastOne
  split <;> omega

theorem history_append (a b : List VOp) : valueHistory (a ++ b) = b.foldl VOp.run (valueHistory a) := by simp [valueHistory]

theorem history_new (ops : List VOp) (o : NewObj) :
    (valueHistory (ops ++ [.new o]))[(valueHistory ops).length]? = some o.node := by
  simp [history_append, VOp.run]

/-! ### C118: estimates over histories -/

/-- The full claim of C118: the estimate of an array is one more than the sum of the estimates of its elements, as they are. -/
def EstimateFollowsElements : Prop :=
  ∀ (ops : List VOp) (id : Nat) (l : List Nat) (e : Bool) (b : Bytes) (x : Int), (valueHistory ops)[id]? = some (.array l e b x) →
    (valueHistory ops).est id = 1 + (l.map (valueHistory ops).est).sum

/-- C118 as stated does not hold: an array that grows after it was appended to another one. -/
theorem C118_refuted : ¬ EstimateFollowsElements := by
  intro h
  have := h [.new .array, .new .array, .append 0 1, .new (.prim (some [7])), .append 1 2] 0 [1] false [] 2 (by decide +kernel)
  revert this
  decide +kernel

/-- C118: the estimate of a list of records is one more than the estimates of the records appended to it, less the estimates of those
deleted from it, each at the time of that call; but at least one. -/
theorem C118_list_partial (ops later : List VOp) (id : Nat) (hid : id = (valueHistory ops).length) :
    (valueHistory (ops ++ [.new .list] ++ later)).est id = max 1 (1 + balance id (valueHistory (ops ++ [.new .list])) later) := by
  have key : ∀ (later : List VOp) (h : VHeap) l e b x, h[id]? = some (.list l e b x) →
      ∃ l' e' b', (later.foldl VOp.run h)[id]? = some (.list l' e' b' (x + balance id h later)) := by
    intro later
    induction later with
    | nil => intro h l e b x hn; exact ⟨l, e, b, by simpa [balance] using hn⟩
    | cons op later ih =>
      intro h l e b x hn
      obtain ⟨l', e', b', h1⟩ := list_step hn op
      obtain ⟨l'', e'', b'', h2⟩ := ih _ _ _ _ _ h1
      exact ⟨l'', e'', b'', by rw [List.foldl_cons, h2, balance, Int.add_assoc]⟩
  obtain ⟨l, e, b, hl⟩ := key later _ _ _ _ _ (hid ▸ history_new ops .list)
  rw [history_append]
  simp only [VHeap.est, hl, VNode.est, atLeastOne_eq]

example := C118_list_partial [.new .record, .new .record] [.append 2 0, .append 2 1, .setTimestamp 0 (some 5), .deleteAt 2 0, .encode 2 3] 2 (by decide +kernel)

/-- C118: the same for value arrays, but whenever one is encoded, also as a part of something else, its estimate becomes the number of its
bytes. -/
theorem C118_array_partial (ops later : List VOp) (id : Nat) (hid : id = (valueHistory ops).length) :
    (valueHistory (ops ++ [.new .array] ++ later)).est id = max 1 (tracked id (valueHistory (ops ++ [.new .array])) 1 later) := by
  have key : ∀ (later : List VOp) (h : VHeap) l e b x, h[id]? = some (.array l e b x) → (e = true → x = b.length) →
      ∃ l' e' b', (later.foldl VOp.run h)[id]? = some (.array l' e' b' (tracked id h x later)) := by
    intro later
    induction later with
    | nil => intro h l e b x hn _; exact ⟨l, e, b, by simpa [tracked] using hn⟩
    | cons op later ih =>
      intro h l e b x hn hx
      obtain ⟨l', e', b', x', h1, h2, h3⟩ := array_step hn hx op
      obtain ⟨l'', e'', b'', h4⟩ := ih _ _ _ _ _ h1 h2
      refine ⟨l'', e'', b'', ?_⟩
      rw [List.foldl_cons, h4, tracked]
      congr 3
      rw [bytesOf, h1]
      cases e' with
      | true => simp [VNode.isEncoded, VNode.getBuf, h2]
      | false => simp [VNode.isEncoded, h3]
  obtain ⟨l, e, b, hl'⟩ := key later _ _ _ _ _ (hid ▸ history_new ops .array) (by simp)
  rw [history_append]
  simp only [VHeap.est, hl', VNode.est, atLeastOne_eq]

example := C118_array_partial [.new (.prim (some [7]))] [.append 1 0, .append 1 0, .deleteAt 1 1] 1 (by decide +kernel)

/-- A history with an array that is encoded as a part of another one, and then changed. -/
example : (valueHistory ([.new (.prim (some [7]))] ++ [.new .array] ++
      [.append 1 0, .new .array, .append 2 1, .encode 2 5, .append 1 0])).est 1 = 8 ∧
    tracked 1 (valueHistory ([.new (.prim (some [7]))] ++ [.new .array])) 1
      [.append 1 0, .new .array, .append 2 1, .encode 2 5, .append 1 0] = 8 ∧
    tracked 1 (valueHistory ([.new (.prim (some [7]))] ++ [.new .array])) 1
      [.append 1 0, .new .array, .append 2 1, .encode 2 5] = 6 := by decide +kernel

/-- In particular, as long as it is not encoded: one more than the sum of the estimates at the times of the calls. -/
theorem C118_array_new_partial (ops later : List VOp) (id : Nat) (hid : id = (valueHistory ops).length)
    (hl : ∀ q, q <+: later → bytesOf (valueHistory (ops ++ [.new .array] ++ q)) id = none) :
    (valueHistory (ops ++ [.new .array] ++ later)).est id = max 1 (1 + balance id (valueHistory (ops ++ [.new .array])) later) := by
  rw [C118_array_partial ops later id hid]
  congr 1
  have key : ∀ (later : List VOp) (h : VHeap) (x : Int), (∀ q, q <+: later → bytesOf (q.foldl VOp.run h) id = none) →
      tracked id h x later = x + balance id h later := by
    intro later
    induction later with
    | nil => intro h x _; simp [tracked, balance]
    | cons op later ih =>
      intro h x hq
      have h1 := hq [op] (by simp)
      simp only [List.foldl_cons, List.foldl_nil] at h1
      rw [tracked, balance, h1, ih]
      · simp only [Option.map_none, Option.getD_none]
        omega
      · intro q hp
        exact hq (op :: q) (by simpa using hp)
  exact key later _ 1 (fun q hp => by have := hl q hp; rwa [history_append] at this)

example : ∀ q, q <+: [VOp.append 1 0, .append 1 0, .deleteAt 1 1] →
    bytesOf (valueHistory ([.new (.prim (some [7]))] ++ [.new .array] ++ q)) 1 = none := by
  intro q hq
  have : q ∈ List.inits [VOp.append 1 0, .append 1 0, .deleteAt 1 1] := (List.mem_inits _ _).mpr hq
  simp only [List.inits, List.mem_cons, List.map_cons, List.map_nil, List.not_mem_nil, or_false] at this
  rcases this with rfl | rfl | rfl | rfl <;> decide +kernel

/-- C118: the estimate of a record is made of the estimates of its parts at the times they were set last. -/
theorem C118_record_partial (ops later : List VOp) (id : Nat) (hid : id = (valueHistory ops).length) (h : VHeap)
    (hh : h = valueHistory (ops ++ [.new .record])) :
    (valueHistory (ops ++ [.new .record] ++ later)).est id = 1 + max 1 (latest (keySet id) h later 0) + max 1 (latest (valueSet id) h later 0) +
      max 1 (latest (schemeSet id) h later 0) + latest (timeSet id) h later 0 + latest (signatureSet id) h later 0 := by
  have key : ∀ (later : List VOp) (h : VHeap) r, h[id]? = some (.record r) →
      ∃ r', (later.foldl VOp.run h)[id]? = some (.record r') ∧ estParts r' =
        (latest (keySet id) h later (estParts r).1, latest (valueSet id) h later (estParts r).2.1,
          latest (schemeSet id) h later (estParts r).2.2.1, latest (timeSet id) h later (estParts r).2.2.2.1,
          latest (signatureSet id) h later (estParts r).2.2.2.2) := by
    intro later
    induction later with
    | nil => intro h r hn; exact ⟨r, hn, rfl⟩
    | cons op later ih =>
      intro h r hn
      obtain ⟨r1, h1, e1⟩ := record_step hn op
      obtain ⟨r2, h2, e2⟩ := ih _ _ h1
      refine ⟨r2, h2, ?_⟩
      rw [e2, e1]
      rfl
  have h0 : h[id]? = some NewObj.record.node := by rw [hh, hid]; exact history_new ops .record
  obtain ⟨r, hr, e⟩ := key later h _ h0
  rw [history_append, ← hh]
  simp only [VHeap.est, hr, VNode.est, atLeastOne_eq]
  simp only [estParts, Prod.mk.injEq, Option.isSome_none, Bool.false_eq_true, if_false, false_and] at e
  obtain ⟨e1, e2, e3, e4, e5⟩ := e
  rw [e1, e2, e3, ← e4, ← e5]
  cases r.timestamp <;> cases r.sigR <;> cases r.sigS <;> simp

example : balance 2 (valueHistory [.new .record, .new .record, .new .list])
      [.append 2 0, .append 2 1, .setTimestamp 0 (some 5), .deleteAt 2 0, .encode 2 3] = -4 ∧
    balance 1 (valueHistory [.new (.prim (some [7])), .new .array]) [.append 1 0, .append 1 0, .deleteAt 1 1] = 2 := by decide +kernel

example : (valueHistory ([.new (.prim (some [7]))] ++ [.new .record] ++
      [.setValue 1 0, .setTimestamp 1 (some 5), .setSignature 1 (some 1) (some 2), .setTimestamp 1 none])).est 1 = 69 := by decide +kernel

/-! ### C119: bytes only after Encode -/

/-- C119: `Buf` of an object panics exactly if `IsEncoded` is false. -/
theorem C119_buf_iff (ops : List VOp) (i : Nat) (n : VNode) (hn : (valueHistory ops)[i]? = some n) :
    (n.getBuf = .panic ↔ n.isEncoded = false) ∧ (n.isEncoded = true → ∃ w, n.getBuf = .ok w) := by
  cases n with
  | prim d e b => cases e <;> simp [VNode.getBuf, VNode.isEncoded]
  | array l e b x => cases e <;> simp [VNode.getBuf, VNode.isEncoded]
  | list l e b x => cases e <;> simp [VNode.getBuf, VNode.isEncoded]
  | record r => cases he : r.encoded <;> simp [VNode.getBuf, VNode.isEncoded, he]
  | _ => simp [VNode.getBuf, VNode.isEncoded]

example := C119_buf_iff [.new .list, .new .record, .append 0 1] 0 (.list [1] false [] 5) (by decide +kernel)

/-- C119: a constructed object has no bytes before a call of `Encode`. -/
theorem C119_not_encoded (ops : List VOp) (i : Nat) (n : VNode) (hn : (valueHistory ops)[i]? = some n) (hc : VNode.constructed n = true)
    (hop : ∀ op ∈ ops, ∀ y d, op ≠ .encode y d) : n.isEncoded = false ∧ n.getBuf = .panic := by
  suffices h : n.isEncoded = false from ⟨h, (C119_buf_iff ops i n hn).1.mpr h⟩
  induction ops using List.reverseRecOn generalizing n with
  | nil => simp [valueHistory] at hn
  | append_singleton ops op ih =>
    rw [history_append] at hn
    simp only [List.foldl_cons, List.foldl_nil] at hn
    rcases run_get (valueHistory ops) op (hop op (by simp)) i with e | ⟨-, m, hm, h2⟩ | ⟨-, m, hm, h2⟩
    · exact ih n (e ▸ hn) hc fun o ho => hop o (by simp [ho])
    · rw [hm] at hn
      obtain rfl := Option.some.inj hn
      exact h2 hc
    · rw [hm] at hn
      obtain rfl := Option.some.inj hn
      exact h2

example : ∃ n, (valueHistory [.new .list, .new .record, .append 0 1])[0]? = some n ∧ VNode.constructed n = true ∧ n.getBuf = .panic :=
  ⟨.list [1] false [] 5, by decide +kernel, rfl, rfl⟩

end Poodle.Props
