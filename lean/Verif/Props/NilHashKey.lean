import Verif.Spec.NilHashKey
import Verif.Props.HashObj

/-
Property C212: calls on a hash map with nil keys (/repo/src/collection/hash_map.go, /repo/src/collection/hash.go,
/repo/src/collection/hashable.go).
-/

namespace Poodle.Props
open Poodle Poodle.Spec HashTab

section
variable {K V : Type}

/-- Two ways to give the methods of keys, the same for keys that are not bad; bad keys cannot be hashed. -/
structure SameMethods (bad : K → Bool) (ops ops' : HashOps K) (t t' : Trap K) : Prop where
  hash : ∀ a, bad a = false → ops.hash a = ops'.hash a
  equal : ∀ a b, bad a = false → bad b = false → ops.equal a b = ops'.equal a b
  hashT : ∀ n a, t n (.hash a) = bad a
  hashT' : ∀ n a, t' n (.hash a) = bad a
  equalT : ∀ n a b, bad a = false → bad b = false → t n (.equal a b) = t' n (.equal a b)

variable {bad : K → Bool} {ops ops' : HashOps K} {t t' : Trap K}

theorem index_same (s : SameMethods bad ops ops' t t') (len : Nat) {k : K} (hk : bad k = false) : index ops len k = index ops' len k := by
  simp only [index, s.hash k hk]

theorem chainFindT_same (s : SameMethods bad ops ops' t t') {k : K} (hk : bad k = false) : ∀ (c : List (K × V)) (n : Nat),
    (∀ e ∈ c, bad e.1 = false) → chainFindT t ops k c n = chainFindT t' ops' k c n
  | [], n, _ => rfl
  | e :: c, n, h => by
    have he : bad e.1 = false := h e (by simp)
    simp only [chainFindT, keyCall, s.equalT n e.1 k he hk, s.equal e.1 k he hk,
      chainFindT_same s hk c _ (fun e he => h e (by simp [he]))]

theorem chainGetT_same (s : SameMethods bad ops ops' t t') {k : K} (hk : bad k = false) : ∀ (c : List (K × V)) (n : Nat),
    (∀ e ∈ c, bad e.1 = false) → chainGetT t ops k c n = chainGetT t' ops' k c n
  | [], n, _ => rfl
  | e :: c, n, h => by
    have he : bad e.1 = false := h e (by simp)
    simp only [chainGetT, keyCall, s.equalT n e.1 k he hk, s.equal e.1 k he hk,
      chainGetT_same s hk c _ (fun e he => h e (by simp [he]))]

theorem rehashChainT_same (s : SameMethods bad ops ops' t t') : ∀ (c : List (K × V)) (arr : List (List (K × V))) (n : Nat),
    (∀ e ∈ c, bad e.1 = false) → rehashChainT t ops arr c n = rehashChainT t' ops' arr c n
  | [], arr, n, _ => rfl
  | e :: c, arr, n, h => by
    have he : bad e.1 = false := h e (by simp)
    simp only [rehashChainT, keyCall, s.hashT, s.hashT', rehash1, index_same s _ he,
      rehashChainT_same s c _ _ (fun e he => h e (by simp [he]))]

theorem rehashT_same (s : SameMethods bad ops ops' t t') : ∀ (cs : List (List (K × V))) (arr : List (List (K × V))) (n : Nat),
    (∀ e ∈ cs.flatten, bad e.1 = false) → rehashT t ops arr cs n = rehashT t' ops' arr cs n
  | [], arr, n, _ => rfl
  | c :: cs, arr, n, h => by
    rw [List.flatten_cons] at h
    simp only [rehashT, rehashChainT_same s c _ _ (fun e he => h e (by simp [he]))]
    rcases rehashChainT t' ops' arr c n with - | ⟨a, m⟩
    · rfl
    · exact rehashT_same s cs a m (fun e he => h e (List.mem_append_right _ he))

theorem resizeIfT_same (s : SameMethods bad ops ops' t t') (h : HashTab K V) (c : Option Int) (n : Nat) (hb : ∀ e ∈ h.all, bad e.1 = false) :
    h.resizeIfT t ops c n = h.resizeIfT t' ops' c n := by
  cases c with
  | none => rfl
  | some c => simp only [resizeIfT, resizeT, rehashT_same s h.array _ _ hb]

theorem mem_all_set {h : HashTab K V} {i : Nat} {c : List (K × V)} {e : K × V} (he : e ∈ (h.array.set i c).flatten) : e ∈ h.all ∨ e ∈ c := by
  obtain ⟨l, hl, he⟩ := List.mem_flatten.mp he
  rcases List.mem_or_eq_of_mem_set hl with h1 | h1
  · exact .inl (List.mem_flatten.mpr ⟨l, h1, he⟩)
  · exact .inr (h1 ▸ he)

theorem mem_bucket {h : HashTab K V} {i : Nat} {c : List (K × V)} (hc : h.array[i]? = some c) {e : K × V} (he : e ∈ c) : e ∈ h.all :=
  List.mem_flatten.mpr ⟨c, List.mem_of_getElem? hc, he⟩

theorem chainFindT_parts {k : K} : ∀ (c : List (K × V)) (n : Nat) {a b : List (K × V)} {o : K × V} {m : Nat},
    chainFindT t ops k c n = some (some (a, o, b), m) → c = a ++ o :: b
  | [], n, a, b, o, m, h => by simp [chainFindT] at h
  | e :: c, n, a, b, o, m, h => by
    simp only [chainFindT] at h
    split at h
    · simp at h
    · split at h
      · simp only [Option.some.injEq, Prod.mk.injEq] at h
        obtain ⟨⟨rfl, rfl, rfl⟩, -⟩ := h
        rfl
      · split at h
        · simp at h
        · rename_i r m' hr
          rcases r with - | ⟨a', o', b'⟩
          · simp at h
          · simp only [Option.map_some, Option.some.injEq, Prod.mk.injEq] at h
            obtain ⟨⟨rfl, rfl, rfl⟩, -⟩ := h
            rw [chainFindT_parts c _ hr]
            rfl

theorem putT_same (s : SameMethods bad ops ops' t t') (pol : ResizePolicy) (h : HashTab K V) (hb : ∀ e ∈ h.all, bad e.1 = false) (k : K) (v : V) :
    h.putT t ops pol k v = h.putT t' ops' pol k v := by
  suffices e : h.putNodeT t ops pol k v = h.putNodeT t' ops' pol k v by rw [putT, putT, e]
  simp only [putNodeT, keyCall, s.hashT, s.hashT']
  cases hk : bad k with
  | true => rfl
  | false =>
    simp only [index_same s _ hk, Bool.false_eq_true, if_false]
    rcases index ops' h.array.length k with - | i
    · rfl
    · simp only
      rcases hc : h.array[i]? with - | c
      · rfl
      · simp only [chainFindT_same s hk c _ (fun e he => hb e (mem_bucket hc he))]
        rcases chainFindT t' ops' k c (0 + 1) with - | ⟨- | ⟨a, o, b⟩, n⟩
        · rfl
        · simp only
          rw [resizeIfT_same s]
          intro e he
          rcases mem_all_set (h := h) he with h1 | h1
          · exact hb e h1
          · rcases List.mem_cons.mp h1 with rfl | h1
            · exact hk
            · exact hb e (mem_bucket hc h1)
        · rfl

theorem removeT_same (s : SameMethods bad ops ops' t t') (pol : ResizePolicy) (h : HashTab K V) (hb : ∀ e ∈ h.all, bad e.1 = false) (k : K) :
    h.removeT t ops pol k = h.removeT t' ops' pol k := by
  suffices e : h.removeNodeT t ops pol k = h.removeNodeT t' ops' pol k by rw [removeT, removeT, e]
  simp only [removeNodeT, keyCall, s.hashT, s.hashT']
  cases hk : bad k with
  | true => rfl
  | false =>
    simp only [index_same s _ hk, Bool.false_eq_true, if_false]
    rcases index ops' h.array.length k with - | i
    · rfl
    · simp only
      rcases hc : h.array[i]? with - | c
      · rfl
      · simp only [chainFindT_same s hk c _ (fun e he => hb e (mem_bucket hc he))]
        rcases hf : chainFindT t' ops' k c (0 + 1) with - | ⟨- | ⟨a, o, b⟩, n⟩
        · rfl
        · rfl
        · simp only
          rw [resizeIfT_same s]
          intro e he
          have hp := chainFindT_parts c _ hf
          rcases mem_all_set (h := h) he with h1 | h1
          · exact hb e h1
          · refine hb e (mem_bucket hc ?_)
            rw [hp]
            rcases List.mem_append.mp h1 with h1 | h1 <;> simp [h1]

theorem getT_same (s : SameMethods bad ops ops' t t') (h : HashTab K V) (hb : ∀ e ∈ h.all, bad e.1 = false) (k : K) :
    h.getT t ops k = h.getT t' ops' k := by
  suffices e : h.getNodeT t ops k = h.getNodeT t' ops' k by rw [getT, getT, e]
  simp only [getNodeT, keyCall, s.hashT, s.hashT']
  cases hk : bad k with
  | true => rfl
  | false =>
    simp only [index_same s _ hk, Bool.false_eq_true, if_false]
    rcases index ops' h.array.length k with - | i
    · rfl
    · simp only
      rcases hc : h.array[i]? with - | c
      · rfl
      · simp only [chainGetT_same s hk c _ (fun e he => hb e (mem_bucket hc he))]

end

variable {V : Type}

/-! ### C212 Nil keys of hash maps are refused -/

theorem meantHash_of_content (f : Bytes → UInt32) (a : HashObj) : meantHash f (content a) = meantHash f a := by
  have hfold : ∀ (l m : List HashObj) (x : UInt32), l.length = m.length → l.foldl (fun h _ => h ^^^ f []) x = m.foldl (fun h _ => h ^^^ f []) x := by
    intro l
    induction l with
    | nil =>
      intro m x h
      rw [List.length_eq_zero_iff.mp h.symm]
    | cons o l ih =>
      intro m x h
      cases m with
      | nil => simp at h
      | cons p m => exact ih m _ (by simpa using h)
  cases a with
  | objs l => exact hfold _ _ _ (elemContents_length l)
  | _ => rfl

theorem hashes_sound {a : HashObj} (h : hashes a = true) : sound a := by
  have key : ∀ l : List HashObj, l.all HashObj.isAbsent = true → sounds l := by
    intro l
    induction l with
    | nil => intro _; trivial
    | cons o l ih =>
      intro h
      simp only [List.all_cons, Bool.and_eq_true] at h
      exact sounds_cons.mpr ⟨.inl h.1, ih h.2⟩
  cases a with
  | objs l => exact key l h
  | _ => simp_all [hashes, sound]

/-- What is meant. -/
noncomputable def meantOps (f : Bytes → UInt32) : HashOps HashObj where
  equal := sameKey
  hash := meantHash f

theorem meantOps_lawful (f : Bytes → UInt32) : LawfulHash (meantOps f) where
  refl a := by simp [meantOps, sameKey]
  symm a b h := by simpa [meantOps, sameKey, eq_comm] using h
  trans a b c h1 h2 := by
    simp only [meantOps, sameKey, decide_eq_true_eq] at h1 h2 ⊢
    exact h1.trans h2
  hash a b h := by
    simp only [meantOps, sameKey, decide_eq_true_eq] at h ⊢
    rw [← meantHash_of_content f a, h, meantHash_of_content]

/-- Keys that cannot be hashed. -/
def unhashable (a : HashObj) : Bool := !hashes a

theorem unhashable_false {a : HashObj} : unhashable a = false ↔ hashes a = true := by simp [unhashable]

/-- Only hashing panics. -/
def meantTrap : Trap HashObj := fun _ c => match c with
  | .hash a => unhashable a
  | .equal _ _ => false

theorem any_same (f : Bytes → UInt32) : SameMethods unhashable (anyHashOps f) (meantOps f) (anyHashTrap f) meantTrap where
  hash a h := by
    rw [unhashable_false] at h
    simp only [anyHashOps, hash_exact, if_pos h, meantOps]
  equal a b ha hb := by
    rw [unhashable_false] at ha hb
    obtain ⟨v, h1, h2⟩ := equal_sound a b (hashes_sound ha) (hashes_sound hb)
    simp only [anyHashOps, h1, meantOps, sameKey]
    cases v
    · simp at h2 ⊢; exact h2
    · simp at h2 ⊢; exact h2
  hashT n a := by
    simp only [anyHashTrap, hash_exact, unhashable]
    cases hashes a <;> rfl
  hashT' n a := rfl
  equalT n a b ha hb := by
    rw [unhashable_false] at ha hb
    obtain ⟨v, h1, h2⟩ := equal_sound a b (hashes_sound ha) (hashes_sound hb)
    simp only [anyHashTrap, h1, meantTrap]

theorem meantTrap_bad : BadKeys unhashable meantTrap := ⟨fun _ _ => rfl, fun _ _ _ => rfl⟩

/-- The history is that of the table with the methods that are meant. -/
theorem runAnyHash_eq (f : Bytes → UInt32) {pol : ResizePolicy} : ∀ (os : List (MapOp HashObj V)) (h : HashTab HashObj V),
    GoodTab (meantOps f) h → (∀ e ∈ h.all, unhashable e.1 = false) → ∀ n : Nat, h.size + os.length ≤ n → Modest pol n →
    runAnyHash f pol h os = runHashT (meantOps f) pol h (os.map fun o => (meantTrap, o)) ∧
      ∀ e ∈ (runAnyHash f pol h os).1.all, unhashable e.1 = false
  | [], h, _, hb, _, _, _ => ⟨rfl, hb⟩
  | .put k v :: os, h, hg, hb, n, hn, hpol => by
    rw [List.length_cons] at hn
    obtain ⟨b1, -⟩ := keys_put (meantOps_lawful f) meantTrap_bad.1 h hg hb k v (n := n) (by omega) hpol
    obtain ⟨g, s, -⟩ := putT_step (meantOps_lawful f) meantTrap h hg k v (n := n) (by omega) hpol
    obtain ⟨i1, i2⟩ := runAnyHash_eq f os (h.putT meantTrap (meantOps f) pol k v).1 g b1 n (by omega) hpol
    simp only [runAnyHash, putAny, putT_same (any_same f) pol h hb k v, List.map_cons, runHashT]
    exact ⟨by rw [i1], i2⟩
  | .remove k :: os, h, hg, hb, n, hn, hpol => by
    rw [List.length_cons] at hn
    obtain ⟨b1, -⟩ := keys_remove (meantOps_lawful f) meantTrap_bad.1 h hg hb k (n := n) (by omega) hpol
    obtain ⟨g, s, -⟩ := removeT_step (meantOps_lawful f) meantTrap h hg k (n := n) (by omega) hpol
    obtain ⟨i1, i2⟩ := runAnyHash_eq f os (h.removeT meantTrap (meantOps f) pol k).1 g b1 n (by omega) hpol
    simp only [runAnyHash, removeAny, removeT_same (any_same f) pol h hb k, List.map_cons, runHashT]
    exact ⟨by rw [i1], i2⟩

/-- C212: in any history of calls with any keys, nil in every way or not, the calls with keys that cannot be hashed (among them all nil keys)
panic and change nothing, and all others return and do what they do on a finite map, where keys are the same if their types and contents are;
`Get` as well.  That holds for every hash function (so for every seed). -/
theorem C212_history (f : Bytes → UInt32) (cap : Int) (hc : cap < 2 ^ 32) (os : List (MapOp HashObj V)) (hlen : os.length ≤ 2 ^ 30) :
    let r := runAnyHash f defaultPolicy (HashTab.new cap) os
    let s := runBad sameKey (fun a => !hashes a) (fun _ => none) os
    r.2 = s.2 ∧ (∀ k, r.1.getAny f k = if hashes k then some (s.1 k) else none) ∧ ∀ e ∈ r.1.all, hashes e.1 = true := by
  intro r s
  have hpol := defaultPolicy_modest os.length hlen
  obtain ⟨e1, e2⟩ := runAnyHash_eq f os (HashTab.new cap) (new_hash_good cap hc) (by rw [all_new]; simp) os.length (by simp [HashTab.new]) hpol
  have e : (os.map fun o => (meantTrap, o)).map Prod.snd = os := by rw [List.map_map]; exact List.map_id _
  obtain ⟨h1, -, h3⟩ := C131_bad_keys (meantOps_lawful f) cap hc unhashable (os.map fun o => (meantTrap, o))
    (by intro o ho; simp only [List.mem_map] at ho; obtain ⟨p, -, rfl⟩ := ho; exact meantTrap_bad)
    (pol := defaultPolicy) (by rw [List.length_map]; exact hpol)
  rw [e, ← e1] at h1 h3
  refine ⟨h1, fun k => ?_, fun x hx => unhashable_false.mp (e2 x hx)⟩
  rw [getAny, getT_same (any_same f) _ e2, h3 _ k meantTrap_bad]
  by_cases hk : hashes k = true
  · rw [if_pos hk, if_neg (by simp [unhashable, hk])]
    rfl
  · rw [if_neg hk, if_pos (by simpa [unhashable] using hk)]

/-- C212, nil keys: nothing and nil pointers cannot be hashed, so that whatever was done before, all calls with them panic without effect. -/
theorem C212_nil (f : Bytes → UInt32) (pol : ResizePolicy) (h : HashTab HashObj V) (k : HashObj) (hk : NilHashKey k) (v : V) :
    h.getAny f k = none ∧ h.putAny f pol k v = (h, none) ∧ h.removeAny f pol k = (h, none) := by
  cases hk <;> simp [getAny, putAny, removeAny, getT, putT, removeT, getNodeT, putNodeT, removeNodeT, keyCall, anyHashTrap, HashObj.hash]

theorem runBad_usable (os : List (MapOp HashObj V)) : ∀ m : HashObj → Option V,
    (runBad sameKey (fun a => !hashes a) m os).1 = (runBad sameKey (fun a => !hashes a) m (usable os)).1 ∧
    (runBad sameKey (fun a => !hashes a) m os).2.filter Option.isSome = (runBad sameKey (fun a => !hashes a) m (usable os)).2 := by
  induction os with
  | nil => intro m; exact ⟨rfl, rfl⟩
  | cons o os ih =>
    intro m
    cases hk : hashes (callKey o)
    · have : usable (o :: os) = usable os := by simp [usable, hk]
      rw [this, runBad, hk]
      simpa using ih m
    · have : usable (o :: os) = o :: usable os := by simp [usable, hk]
      rw [this, runBad, runBad, hk]
      simpa using ih _

/-- C212, the other calls: leaving out the calls that panic changes neither the results of the others nor the map. -/
theorem C212_others (f : Bytes → UInt32) (cap : Int) (hc : cap < 2 ^ 32) (os : List (MapOp HashObj V)) (hlen : os.length ≤ 2 ^ 30) :
    let r := runAnyHash f defaultPolicy (HashTab.new cap) os
    let r' := runAnyHash f defaultPolicy (HashTab.new cap) (usable os)
    r.2.filter Option.isSome = r'.2 ∧ ∀ k, r.1.getAny f k = r'.1.getAny f k := by
  intro r r'
  obtain ⟨h1, h2, -⟩ := C212_history f cap hc os hlen
  obtain ⟨g1, g2, -⟩ := C212_history f cap hc (usable os) (le_trans (List.length_filter_le _ _) hlen)
  obtain ⟨u1, u2⟩ := runBad_usable os (fun _ => none)
  refine ⟨?_, fun k => ?_⟩
  · show List.filter _ (runAnyHash f defaultPolicy (HashTab.new cap) os).2 = _
    rw [h1, u2]; exact g1.symm
  · rw [h2 k, g2 k, u1]

/-- Nothing, nil pointers, a slice with an element, and proper keys. -/
def mixedCalls : List (MapOp HashObj Nat) := [.put (.ints .byte ⟨some [1], 1⟩) 10, .put .absent 11, .put (.nilInts .byte) 12,
  .put (.objs [.absent]) 13, .put (.objs [.nilObjs]) 14, .put .nilObjs 15, .remove (.nilInts .int16), .put (.ints .byte ⟨some [1], 5⟩) 16,
  .remove (.objs [.absent])]

example : (runAnyHash (murmurHash 7) defaultPolicy (HashTab.new 10) mixedCalls).2 =
    [some none, none, none, some none, none, none, none, some (some 10), some (some 13)] ∧ mixedCalls.length ≤ 2 ^ 30 ∧
    (runAnyHash (murmurHash 7) defaultPolicy (HashTab.new 10) mixedCalls).1.getAny (murmurHash 7) (.ints .byte ⟨some [1], 2⟩) = some (some 16) := by
  decide +kernel

example : NilHashKey (.nilInts .uint64) := .ints _

example := C212_history (murmurHash 7) 10 (by decide) mixedCalls (by decide)

example := C212_nil (murmurHash 7) defaultPolicy (HashTab.new 10 : HashTab HashObj Nat) (.nilInts .uint64) (.ints _) 5

end Poodle.Props
