import Verif.Spec.HashHeap
import Verif.Lemmas.Hash
import Mathlib.Data.List.Nodup
import Mathlib.Data.List.Perm.Subperm

/-
Linked nodes of hash tables: buckets are lists of nodes, each in one bucket of one map (/repo/src/collection/hash.go:41-254).
-/

namespace Poodle
open Spec
variable {K V : Type} {ops : HashOps K}

theorem seg_frame {h h' : HHeap K V} {p q : Ptr} {as : List Nat} {l : List (K × V)} (s : Seg h q p as l)
    (hh : ∀ a ∈ as, h'[a]? = h[a]?) : Seg h' q p as l := by
  induction s with
  | nil => exact .nil
  | cons ha hs ih =>
    exact .cons ((hh _ List.mem_cons_self).trans ha) (ih fun a h => hh a (List.mem_cons_of_mem _ h))

theorem seg_append {h : HHeap K V} {p q r : Ptr} {as bs : List Nat} {l m : List (K × V)} (s : Seg h q p as l) (t : Seg h r q bs m) :
    Seg h r p (as ++ bs) (l ++ m) := by
  induction s with
  | nil => exact t
  | cons ha hs ih => exact .cons ha ih

theorem seg_lt {h : HHeap K V} {p q : Ptr} {as : List Nat} {l : List (K × V)} (s : Seg h q p as l) : ∀ a ∈ as, a < h.length := by
  induction s with
  | nil => simp
  | cons ha hs ih =>
    intro a h
    rcases List.mem_cons.mp h with rfl | h
    · exact (List.getElem?_eq_some_iff.mp ha).1
    · exact ih a h

theorem seg_length {h : HHeap K V} {p q : Ptr} {as : List Nat} {l : List (K × V)} (s : Seg h q p as l) (hn : as.Nodup) :
    as.length ≤ h.length := by
  have : as ⊆ List.range h.length := fun a ha => List.mem_range.mpr (seg_lt s a ha)
  simpa using (List.subperm_of_subset hn this).length_le

theorem seg_concat {h : HHeap K V} {p r : Ptr} {xs : List Nat} {q : Nat} {A : List (K × V)} (s : Seg h r p (xs ++ [q]) A) :
    ∃ nq A', h[q]? = some nq ∧ nq.link = r ∧ A = A' ++ [(nq.key, nq.value)] ∧ Seg h (some q) p xs A' := by
  induction xs generalizing p A with
  | nil =>
    cases s with
    | @cons _ nd _ l ha hs =>
      generalize hp : nd.link = p' at hs
      cases hs
      exact ⟨nd, [], ha, hp, rfl, .nil⟩
  | cons x xs ih =>
    cases s with
    | @cons _ nd _ l ha hs =>
      obtain ⟨nq, A', h1, h2, h3, h4⟩ := ih hs
      exact ⟨nq, (nd.key, nd.value) :: A', h1, h2, by rw [h3]; rfl, .cons ha h4⟩

/-- What the loop over a bucket finds. -/
theorem scan_spec (k : K) {h : HHeap K V} {p : Ptr} {as : List Nat} {l : List (K × V)} (s : Seg h none p as l) (n : Nat) (prev : Ptr)
    (hn : as.length ≤ n) :
    (HHash.scan ops k h n prev p = some none ∧ ∀ e ∈ l, ops.equal e.1 k = false) ∨
    ∃ a nd xs ys A B, HHash.scan ops k h n prev p = some (some ((xs.getLast?).or prev, a)) ∧ h[a]? = some nd ∧
      as = xs ++ a :: ys ∧ l = A ++ (nd.key, nd.value) :: B ∧ Seg h (some a) p xs A ∧ Seg h none nd.link ys B ∧
      ops.equal nd.key k = true ∧ ∀ e ∈ A, ops.equal e.1 k = false := by
  generalize hq : (none : Ptr) = q at s
  induction s generalizing n prev with
  | nil => subst hq; left; exact ⟨by cases n <;> rfl, by simp⟩
  | @cons a nd as l ha hs ih =>
    subst hq
    cases n with
    | zero => simp at hn
    | succ n =>
      simp only [HHash.scan, ha]
      rcases he : ops.equal nd.key k with _ | _
      · simp only [Bool.false_eq_true, if_false]
        rcases ih n (some a) (by simpa using hn) with ⟨h1, h2⟩ | ⟨b, nb, xs, ys, A, B, h1, h2, h3, h4, h5, h6, h7, h8⟩
        · left
          refine ⟨h1, fun e hm => ?_⟩
          rcases List.mem_cons.mp hm with rfl | hm
          · exact he
          · exact h2 e hm
        · right
          refine ⟨b, nb, a :: xs, ys, (nd.key, nd.value) :: A, B, ?_, h2, by rw [h3]; rfl, by rw [h4]; rfl, .cons ha h5, h6, h7, ?_⟩
          · rw [h1]
            cases xs with
            | nil => rfl
            | cons x xs => simp [List.getLast?_cons]
          · intro e hm
            rcases List.mem_cons.mp hm with rfl | hm
            · exact he
            · exact h8 e hm
      · right
        exact ⟨a, nd, [], as, [], l, by simp, ha, rfl, rfl, .nil, hs, he, by simp⟩

theorem chainGet_split (k : K) (A B : List (K × V)) (e : K × V) (h1 : ops.equal e.1 k = true) (h2 : ∀ e ∈ A, ops.equal e.1 k = false) :
    HashTab.chainGet ops k (A ++ e :: B) = some e := by
  induction A with
  | nil => simp [HashTab.chainGet, h1]
  | cons a A ih =>
    simp only [List.cons_append, HashTab.chainGet, h2 a List.mem_cons_self]
    exact ih fun e h => h2 e (List.mem_cons_of_mem _ h)

theorem chainGet_none (k : K) (A : List (K × V)) (h2 : ∀ e ∈ A, ops.equal e.1 k = false) : HashTab.chainGet ops k A = none := by
  induction A with
  | nil => rfl
  | cons a A ih =>
    simp only [HashTab.chainGet, h2 a List.mem_cons_self]
    exact ih fun e h => h2 e (List.mem_cons_of_mem _ h)

theorem chainPut_split (k : K) (v : V) (A B : List (K × V)) (e : K × V) (h1 : ops.equal e.1 k = true)
    (h2 : ∀ e ∈ A, ops.equal e.1 k = false) : HashTab.chainPut ops k v (A ++ e :: B) = some (e, A ++ (k, v) :: B) := by
  induction A with
  | nil => simp [HashTab.chainPut, h1]
  | cons a A ih =>
    simp only [List.cons_append, HashTab.chainPut, h2 a List.mem_cons_self]
    rw [ih fun e h => h2 e (List.mem_cons_of_mem _ h)]
    rfl

theorem chainPut_none (k : K) (v : V) (A : List (K × V)) (h2 : ∀ e ∈ A, ops.equal e.1 k = false) : HashTab.chainPut ops k v A = none := by
  induction A with
  | nil => rfl
  | cons a A ih =>
    simp only [HashTab.chainPut, h2 a List.mem_cons_self]
    rw [ih fun e h => h2 e (List.mem_cons_of_mem _ h)]
    rfl

theorem chainRemove_split (k : K) (A B : List (K × V)) (e : K × V) (h1 : ops.equal e.1 k = true)
    (h2 : ∀ e ∈ A, ops.equal e.1 k = false) : HashTab.chainRemove ops k (A ++ e :: B) = some (e, A ++ B) := by
  induction A with
  | nil => simp [HashTab.chainRemove, h1]
  | cons a A ih =>
    simp only [List.cons_append, HashTab.chainRemove, h2 a List.mem_cons_self]
    rw [ih fun e h => h2 e (List.mem_cons_of_mem _ h)]
    rfl

theorem chainRemove_none (k : K) (A : List (K × V)) (h2 : ∀ e ∈ A, ops.equal e.1 k = false) : HashTab.chainRemove ops k A = none := by
  induction A with
  | nil => rfl
  | cons a A ih =>
    simp only [HashTab.chainRemove, h2 a List.mem_cons_self]
    rw [ih fun e h => h2 e (List.mem_cons_of_mem _ h)]
    rfl

/-- The buckets of an array. -/
structure ArrRep (h : HHeap K V) (own : Owner) (i : Nat) (arr : List Ptr) (tarr : List (List (K × V))) : Prop where
  len : arr.length = tarr.length
  buckets : ∀ j p l, arr[j]? = some p → tarr[j]? = some l → Bucket h own (i, j) p l

/-- The nodes of `h` are kept, and their owners. -/
structure Ext (h : HHeap K V) (own : Owner) (h' : HHeap K V) (own' : Owner) : Prop where
  nodes : ∃ e, h' = h ++ e
  owners : ∀ a, a < h.length → own' a = own a

theorem Ext.refl (h : HHeap K V) (own : Owner) : Ext h own h own := ⟨⟨[], by simp⟩, fun _ _ => rfl⟩

theorem Ext.trans {h h' h'' : HHeap K V} {own own' own'' : Owner} (a : Ext h own h' own') (b : Ext h' own' h'' own'') :
    Ext h own h'' own'' := by
  obtain ⟨e, rfl⟩ := a.nodes
  obtain ⟨f, rfl⟩ := b.nodes
  refine ⟨⟨e ++ f, by simp⟩, fun x hx => ?_⟩
  rw [b.owners x (by simp; omega), a.owners x hx]

theorem Ext.get {h h' : HHeap K V} {own own' : Owner} (a : Ext h own h' own') {x : Nat} (hx : x < h.length) : h'[x]? = h[x]? := by
  obtain ⟨e, rfl⟩ := a.nodes
  rw [List.getElem?_append_left hx]

theorem bucket_ext {h h' : HHeap K V} {own own' : Owner} {o : Nat × Nat} {p : Ptr} {l : List (K × V)} (b : Bucket h own o p l)
    (x : Ext h own h' own') : Bucket h' own' o p l := by
  obtain ⟨as, s, n, w⟩ := b
  exact ⟨as, seg_frame s fun a ha => x.get (seg_lt s a ha), n, fun a ha => (x.owners a (seg_lt s a ha)).trans (w a ha)⟩

theorem ArrRep.ext {h h' : HHeap K V} {own own' : Owner} {i : Nat} {arr : List Ptr} {tarr : List (List (K × V))}
    (r : ArrRep h own i arr tarr) (x : Ext h own h' own') : ArrRep h' own' i arr tarr :=
  ⟨r.len, fun j p l h1 h2 => bucket_ext (r.buckets j p l h1 h2) x⟩

theorem ArrRep.get {h : HHeap K V} {own : Owner} {i : Nat} {arr : List Ptr} {tarr : List (List (K × V))}
    (r : ArrRep h own i arr tarr) (j : Nat) :
    (arr[j]? = none ∧ tarr[j]? = none) ∨ ∃ p l, arr[j]? = some p ∧ tarr[j]? = some l ∧ Bucket h own (i, j) p l := by
  rcases lt_or_ge j arr.length with hj | hj
  · right
    have h1 : arr[j]? = some arr[j] := List.getElem?_eq_getElem hj
    have h2 : tarr[j]? = some (tarr[j]'(r.len ▸ hj)) := List.getElem?_eq_getElem _
    exact ⟨_, _, h1, h2, r.buckets j _ _ h1 h2⟩
  · left
    exact ⟨List.getElem?_eq_none hj, List.getElem?_eq_none (r.len ▸ hj)⟩

theorem arrRep_set {h : HHeap K V} {own : Owner} {i j : Nat} {arr : List Ptr} {tarr : List (List (K × V))} (r : ArrRep h own i arr tarr)
    {p : Ptr} {l : List (K × V)} (b : Bucket h own (i, j) p l) : ArrRep h own i (arr.set j p) (tarr.set j l) := by
  refine ⟨by simpa using r.len, fun j' p' l' h1 h2 => ?_⟩
  rw [List.getElem?_set] at h1 h2
  by_cases hj : j = j'
  · subst hj
    rw [if_pos rfl] at h1 h2
    split at h1 <;> [skip; simp at h1]
    split at h2 <;> [skip; simp at h2]
    simp only [Option.some.injEq] at h1 h2
    subst h1 h2
    exact b
  · rw [if_neg hj] at h1 h2
    exact r.buckets j' p' l' h1 h2

/-- A new node at the head of a bucket. -/
theorem push_rep {h : HHeap K V} {own : Owner} {i j : Nat} {arr : List Ptr} {tarr : List (List (K × V))} (r : ArrRep h own i arr tarr)
    {p : Ptr} {l : List (K × V)} (k : K) (v : V) (h1 : arr[j]? = some p) (h2 : tarr[j]? = some l) :
    let own' : Owner := fun a => if a = h.length then some (i, j) else own a
    Ext h own (h ++ [⟨k, v, p⟩]) own' ∧ ArrRep (h ++ [⟨k, v, p⟩]) own' i (arr.set j (some h.length)) (tarr.set j ((k, v) :: l)) := by
  intro own'
  have x : Ext h own (h ++ [⟨k, v, p⟩]) own' := ⟨⟨_, rfl⟩, fun a ha => if_neg (by omega)⟩
  refine ⟨x, arrRep_set (r.ext x) ?_⟩
  obtain ⟨as, s, n, w⟩ := r.buckets j p l h1 h2
  refine ⟨h.length :: as, ?_, List.nodup_cons.mpr ⟨fun hm => by have := seg_lt s _ hm; omega, n⟩, fun a ha => ?_⟩
  · have e : (h ++ [(⟨k, v, p⟩ : HNd K V)])[h.length]? = some ⟨k, v, p⟩ := by simp
    exact .cons e (seg_frame s fun a ha => x.get (seg_lt s a ha))
  · rcases List.mem_cons.mp ha with rfl | ha
    · exact if_pos rfl
    · exact (x.owners a (seg_lt s a ha)).trans (w a ha)

/-- The result of copying nodes: as for lists, or it panics as for lists. -/
def Moved (h : HHeap K V) (own : Owner) (i : Nat) : Option (HHeap K V × List Ptr) → Option (List (List (K × V))) → Prop
  | none, none => True
  | some (h', arr'), some tarr' => ∃ own', Ext h own h' own' ∧ ArrRep h' own' i arr' tarr'
  | _, _ => False

theorem moved_ext {h h1 : HHeap K V} {own own1 : Owner} {i : Nat} (x : Ext h own h1 own1) {a : Option (HHeap K V × List Ptr)}
    {b : Option (List (List (K × V)))} (m : Moved h1 own1 i a b) : Moved h own i a b := by
  cases a <;> cases b <;> simp only [Moved] at m ⊢
  obtain ⟨o, e, r⟩ := m
  exact ⟨o, x.trans e, r⟩

theorem moveChain_spec (i : Nat) {q p : Ptr} (hq : q = none) {h : HHeap K V} {as : List Nat} {l : List (K × V)} (s : Seg h q p as l) (n : Nat)
    (hn : as.length ≤ n) (h' : HHeap K V) (own' : Owner) (hh : ∀ a ∈ as, h'[a]? = h[a]?) (arr : List Ptr) (tarr : List (List (K × V)))
    (r : ArrRep h' own' i arr tarr) : Moved h' own' i (HHash.moveChain ops n p h' arr) (HashTab.rehashChain ops tarr l) := by
  induction s generalizing n h' own' arr tarr with
  | nil =>
    subst hq
    cases n <;> exact ⟨own', Ext.refl _ _, r⟩
  | @cons a nd as l ha hs ih =>
    cases n with
    | zero => simp at hn
    | succ n =>
      have ea : h'[a]? = some nd := (hh a List.mem_cons_self).trans ha
      simp only [HHash.moveChain, ea, HashTab.rehashChain, HashTab.rehash1, ← r.len]
      cases HashTab.index ops arr.length nd.key with
      | none => trivial
      | some j =>
        rcases r.get j with ⟨g1, g2⟩ | ⟨p0, l0, g1, g2, -⟩
        · simp only [g1, g2, Moved]
        · simp only [g1, g2]
          obtain ⟨x, r2⟩ := push_rep r nd.key nd.value g1 g2
          refine moved_ext x (ih n (by simpa using hn) _ _ (fun b hb => ?_) _ _ r2)
          have e1 := hh b (List.mem_cons_of_mem _ hb)
          rw [x.get, e1]
          have hb2 := seg_lt hs b hb
          rw [List.getElem?_eq_getElem hb2] at e1
          exact (List.getElem?_eq_some_iff.mp e1).1

theorem moveAll_spec (i : Nat) (ps : List Ptr) (ls : List (List (K × V))) (h' : HHeap K V) (own' : Owner)
    (hp : List.Forall₂ (fun p l => ∃ o, Bucket h' own' o p l) ps ls) (arr : List Ptr) (tarr : List (List (K × V)))
    (r : ArrRep h' own' i arr tarr) : Moved h' own' i (HHash.moveAll ops ps h' arr) (HashTab.rehash ops tarr ls) := by
  induction ps generalizing ls h' own' arr tarr with
  | nil =>
    cases hp
    exact ⟨own', Ext.refl _ _, r⟩
  | cons p ps ih =>
    cases hp with
    | @cons _ l _ ls hb hp =>
      obtain ⟨ow, as, s, n, w⟩ := hb
      have m := moveChain_spec (ops := ops) i rfl s h'.length (seg_length s n) h' own' (fun _ _ => rfl) arr tarr r
      simp only [HHash.moveAll, HashTab.rehash]
      cases e1 : HHash.moveChain ops h'.length p h' arr with
      | none =>
        rw [e1] at m
        cases e2 : HashTab.rehashChain ops tarr l with
        | none => trivial
        | some t => rw [e2] at m; exact m.elim
      | some z =>
        rw [e1] at m
        cases e2 : HashTab.rehashChain ops tarr l with
        | none => rw [e2] at m; exact m.elim
        | some t =>
          rw [e2] at m
          obtain ⟨own2, x, r2⟩ := m
          exact moved_ext x (ih ls z.1 own2 (hp.imp fun _ _ ⟨o, b⟩ => ⟨o, bucket_ext b x⟩) z.2 t r2)

/-- A map and its table. -/
structure MapRep (h : HHeap K V) (own : Owner) (i : Nat) (m : HHash) (t : HashTab K V) : Prop where
  size : m.size = t.size
  arr : ArrRep h own i m.array t.array

theorem MapRep.ext {h h' : HHeap K V} {own own' : Owner} {i : Nat} {m : HHash} {t : HashTab K V} (r : MapRep h own i m t)
    (x : Ext h own h' own') : MapRep h' own' i m t := ⟨r.size, r.arr.ext x⟩

theorem bucket_nil (h : HHeap K V) (own : Owner) (o : Nat × Nat) : Bucket h own o none [] := ⟨[], .nil, List.nodup_nil, by simp⟩

theorem arrRep_replicate (h : HHeap K V) (own : Owner) (i n : Nat) : ArrRep h own i (List.replicate n none) (List.replicate n []) := by
  refine ⟨by simp, fun j p l h1 h2 => ?_⟩
  have h3 := List.mem_replicate.mp (List.mem_of_getElem? h1)
  have h4 := List.mem_replicate.mp (List.mem_of_getElem? h2)
  rw [h3.2, h4.2]
  exact bucket_nil ..

theorem mapRep_new (h : HHeap K V) (own : Owner) (i : Nat) (cap : Int) : MapRep h own i (HHash.new cap) (HashTab.new cap) :=
  ⟨rfl, arrRep_replicate ..⟩

/-- The result of resizing. -/
def Resized (h : HHeap K V) (own : Owner) (i : Nat) : Option (HHeap K V × HHash) → Option (HashTab K V) → Prop
  | none, none => True
  | some (h', m'), some t' => ∃ own', Ext h own h' own' ∧ MapRep h' own' i m' t'
  | _, _ => False

theorem resizeIf_rep {h : HHeap K V} {own : Owner} {i : Nat} {m : HHash} {t : HashTab K V} (r : MapRep h own i m t) (c : Option Int) :
    Resized h own i (HHash.resizeIf ops h m c) (t.resizeIf ops c) := by
  cases c with
  | none => exact ⟨own, Ext.refl _ _, r⟩
  | some c =>
    simp only [HHash.resizeIf, HashTab.resizeIf, HHash.resize, HashTab.resize, ← r.arr.len]
    generalize (if c < 10 then 10 else c.toNat) = n
    split
    · exact ⟨own, Ext.refl _ _, r⟩
    · split
      · trivial
      · have m1 := moveAll_spec (ops := ops) i m.array t.array h own (by
          rw [List.forall₂_iff_get]
          refine ⟨r.arr.len, fun j h1 h2 => ⟨(i, j), r.arr.buckets j _ _ ?_ ?_⟩⟩
          · exact List.getElem?_eq_getElem h1
          · exact List.getElem?_eq_getElem h2) _ _ (arrRep_replicate h own i n)
        cases e1 : HHash.moveAll ops m.array h (List.replicate n none) with
        | none =>
          rw [e1] at m1
          cases e2 : HashTab.rehash ops (List.replicate n []) t.array with
          | none => trivial
          | some t => rw [e2] at m1; exact m1.elim
        | some z =>
          rw [e1] at m1
          cases e2 : HashTab.rehash ops (List.replicate n []) t.array with
          | none => rw [e2] at m1; exact m1.elim
          | some t =>
            rw [e2] at m1
            obtain ⟨o, x, r2⟩ := m1
            exact ⟨o, x, r.size, r2⟩

theorem getNode_rep {h : HHeap K V} {own : Owner} {i : Nat} {m : HHash} {t : HashTab K V} (r : MapRep h own i m t) (k : K) :
    m.getNode ops h k = t.getNode ops k := by
  simp only [HHash.getNode, HashTab.getNode, ← r.arr.len]
  cases HashTab.index ops m.array.length k with
  | none => rfl
  | some j =>
    rcases r.arr.get j with ⟨g1, g2⟩ | ⟨p, l, g1, g2, as, s, n, w⟩
    · simp only [g1, g2]
    · simp only [g1, g2]
      rcases scan_spec (ops := ops) k s h.length none (seg_length s n) with ⟨h1, h2⟩ | ⟨a, nd, xs, ys, A, B, h1, h2, -, rfl, -, -, h7, h8⟩
      · rw [h1, chainGet_none k l h2]
      · rw [h1, chainGet_split k A B (nd.key, nd.value) h7 h8]
        simp only [h2]

/-- Nodes of other buckets are kept. -/
structure Only (h : HHeap K V) (own : Owner) (i : Nat) (h' : HHeap K V) (own' : Owner) : Prop where
  keep : ∀ i' m t, i' ≠ i → MapRep h own i' m t → MapRep h' own' i' m t

theorem Ext.only {h h' : HHeap K V} {own own' : Owner} (x : Ext h own h' own') (i : Nat) : Only h own i h' own' :=
  ⟨fun _ _ _ _ r => r.ext x⟩

theorem Only.trans {h h' h'' : HHeap K V} {own own' own'' : Owner} {i : Nat} (a : Only h own i h' own') (b : Only h' own' i h'' own'') :
    Only h own i h'' own'' := ⟨fun i' m t hi r => b.keep i' m t hi (a.keep i' m t hi r)⟩

/-- Changing nodes of one bucket. -/
theorem bucket_change {h h' : HHeap K V} {own : Owner} {o o' : Nat × Nat} {p : Ptr} {l : List (K × V)} (b : Bucket h own o' p l)
    (ho : o' ≠ o) (hh : ∀ a, own a ≠ some o → h'[a]? = h[a]?) : Bucket h' own o' p l := by
  obtain ⟨as, s, n, w⟩ := b
  exact ⟨as, seg_frame s fun a ha => hh a (by rw [w a ha]; simpa using ho), n, w⟩

theorem change_rep {h h' : HHeap K V} {own : Owner} {i j : Nat} {m : HHash} {t : HashTab K V} (r : MapRep h own i m t)
    (hh : ∀ a, own a ≠ some (i, j) → h'[a]? = h[a]?) {p : Ptr} {l : List (K × V)} (b : Bucket h' own (i, j) p l) (z : Int) :
    Only h own i h' own ∧ MapRep h' own i ⟨m.array.set j p, z⟩ ⟨t.array.set j l, z⟩ := by
  refine ⟨⟨fun i' m t hi r => ⟨r.size, r.arr.len, fun j' p' l' h1 h2 => bucket_change (r.arr.buckets j' p' l' h1 h2) (by simp [hi]) hh⟩⟩,
    rfl, by simpa using r.arr.len, fun j' p' l' h1 h2 => ?_⟩
  simp only [List.getElem?_set] at h1 h2
  by_cases hj : j = j'
  · subst hj
    rw [if_pos rfl] at h1 h2
    split at h1 <;> [skip; simp at h1]
    split at h2 <;> [skip; simp at h2]
    simp only [Option.some.injEq] at h1 h2
    subst h1 h2
    exact b
  · rw [if_neg hj] at h1 h2
    exact bucket_change (r.arr.buckets j' p' l' h1 h2) (by simp; omega) hh

/-- The result of `Put` and `Remove`. -/
def Updated (h : HHeap K V) (own : Owner) (i : Nat) :
    Option ((HHeap K V × HHash) × Option (K × V)) → Option (HashTab K V × Option (K × V)) → Prop
  | none, none => True
  | some (r, o), some (t', o') => o = o' ∧ ∃ own', Only h own i r.1 own' ∧ MapRep r.1 own' i r.2 t'
  | _, _ => False

theorem updated_resize {h h1 : HHeap K V} {own own1 : Owner} {i : Nat} {m : HHash} {t : HashTab K V} (y : Only h own i h1 own1)
    (r : MapRep h1 own1 i m t) (c : Option Int) (o : Option (K × V)) :
    Updated h own i (match HHash.resizeIf ops h1 m c with
      | none => none
      | some r => some (r, o)) (match t.resizeIf ops c with
      | none => none
      | some t' => some (t', o)) := by
  have z := resizeIf_rep (ops := ops) r c
  cases e1 : HHash.resizeIf ops h1 m c with
  | none =>
    rw [e1] at z
    cases e2 : t.resizeIf ops c with
    | none => trivial
    | some t => rw [e2] at z; exact z.elim
  | some w =>
    rw [e1] at z
    cases e2 : t.resizeIf ops c with
    | none => rw [e2] at z; exact z.elim
    | some t =>
      rw [e2] at z
      obtain ⟨o2, x, r2⟩ := z
      exact ⟨rfl, o2, y.trans (x.only i), r2⟩

theorem set_self {α : Type} {l : List α} {i : Nat} {a : α} (h : l[i]? = some a) : l.set i a = l := by
  obtain ⟨h1, h2⟩ := List.getElem?_eq_some_iff.mp h
  rw [← h2]
  simp

theorem putNode_rep (pol : ResizePolicy) {h : HHeap K V} {own : Owner} {i : Nat} {m : HHash} {t : HashTab K V} (r : MapRep h own i m t)
    (k : K) (v : V) : Updated h own i (m.putNode ops pol h k v) (t.putNode ops pol k v) := by
  simp only [HHash.putNode, HashTab.putNode, ← r.arr.len]
  cases HashTab.index ops m.array.length k with
  | none => trivial
  | some j =>
    rcases r.arr.get j with ⟨g1, g2⟩ | ⟨p, l, g1, g2, as, s, n, w⟩
    · simp only [g1, g2, Updated]
    · simp only [g1, g2]
      rcases scan_spec (ops := ops) k s h.length none (seg_length s n) with ⟨h1, h2⟩ | ⟨a, nd, xs, ys, A, B, h1, h2, rfl, rfl, h5, h6, h7, h8⟩
      · rw [h1, chainPut_none k v l h2]
        obtain ⟨x, r2⟩ := push_rep r.arr k v g1 g2
        have r3 : MapRep (h ++ [⟨k, v, p⟩]) _ i ⟨m.array.set j (some h.length), m.size + 1⟩ ⟨t.array.set j ((k, v) :: l), t.size + 1⟩ :=
          ⟨by simp [r.size], r2⟩
        have := updated_resize (ops := ops) (x.only i) r3 (pol.grow (m.size + 1) (m.array.set j (some h.length)).length) none
        simp only [List.length_set, r.size, ← r.arr.len] at this ⊢
        exact this
      · rw [h1, chainPut_split k v A B (nd.key, nd.value) h7 h8]
        simp only [h2]
        have hx : ∀ b ∈ xs ++ ys, (h.set a ⟨k, v, nd.link⟩)[b]? = h[b]? := by
          intro b hb
          rw [List.getElem?_set_ne]
          rintro rfl
          rw [List.nodup_middle] at n
          exact (List.nodup_cons.mp n).1 hb
        have ha : (h.set a ⟨k, v, nd.link⟩)[a]? = some ⟨k, v, nd.link⟩ := by
          rw [List.getElem?_set_self]
          exact (List.getElem?_eq_some_iff.mp h2).1
        have b : Bucket (h.set a ⟨k, v, nd.link⟩) own (i, j) p (A ++ (k, v) :: B) := by
          refine ⟨xs ++ a :: ys, seg_append (seg_frame h5 fun b hb => hx b (by simp [hb])) ?_, n, w⟩
          exact .cons ha (seg_frame h6 fun b hb => hx b (by simp [hb]))
        obtain ⟨y, r2⟩ := change_rep r (j := j) (fun b hb => by
          rw [List.getElem?_set_ne]
          rintro rfl
          exact hb (w _ (by simp))) b t.size
        rw [set_self g1] at r2
        exact ⟨rfl, own, y, r.size, r2.arr⟩

theorem removeNode_rep (pol : ResizePolicy) {h : HHeap K V} {own : Owner} {i : Nat} {m : HHash} {t : HashTab K V} (r : MapRep h own i m t)
    (k : K) : Updated h own i (m.removeNode ops pol h k) (t.removeNode ops pol k) := by
  simp only [HHash.removeNode, HashTab.removeNode, ← r.arr.len]
  cases HashTab.index ops m.array.length k with
  | none => trivial
  | some j =>
    rcases r.arr.get j with ⟨g1, g2⟩ | ⟨p, l, g1, g2, as, s, n, w⟩
    · simp only [g1, g2, Updated]
    · simp only [g1, g2]
      rcases scan_spec (ops := ops) k s h.length none (seg_length s n) with ⟨h1, h2⟩ | ⟨a, nd, xs, ys, A, B, h1, h2, rfl, rfl, h5, h6, h7, h8⟩
      · rw [h1, chainRemove_none k l h2]
        exact ⟨rfl, own, (Ext.refl h own).only i, r⟩
      · rw [h1, chainRemove_split k A B (nd.key, nd.value) h7 h8]
        simp only [h2]
        -- the bucket without the node
        have key : ∃ h' p', HHash.unlink h m.array j ((xs.getLast?).or none) a nd = some (h', m.array.set j p') ∧
            Bucket h' own (i, j) p' (A ++ B) ∧ ∀ b, own b ≠ some (i, j) → h'[b]? = h[b]? := by
          rcases List.eq_nil_or_concat xs with rfl | ⟨xs', q, rfl⟩
          · cases h5
            refine ⟨h, nd.link, rfl, ⟨ys, h6, (List.nodup_cons.mp n).2, fun b hb => w b (by simp [hb])⟩, fun _ _ => rfl⟩
          · rw [List.concat_eq_append] at n w h5 ⊢
            obtain ⟨nq, A', f1, f2, rfl, f4⟩ := seg_concat h5
            have n' := n
            rw [List.append_assoc, List.nodup_append] at n'
            obtain ⟨n1, n2, n3⟩ := n'
            have hqa : q ≠ a := fun e => by subst e; simp at n2
            have ng : (xs' ++ [q] ++ ys).Nodup := by
              rw [List.nodup_middle] at n
              exact (List.nodup_cons.mp n).2
            have na : a ∉ xs' ++ [q] ++ ys := by
              rw [List.nodup_middle] at n
              exact (List.nodup_cons.mp n).1
            have nq' : q ∉ xs' ++ ys := by
              rw [List.append_assoc, List.singleton_append, List.nodup_middle] at ng
              exact (List.nodup_cons.mp ng).1
            have hlq := (List.getElem?_eq_some_iff.mp f1).1
            have hx : ∀ b, b ≠ a → b ≠ q →
                ((h.set q ⟨nq.key, nq.value, nd.link⟩).set a ⟨nd.key, nd.value, none⟩)[b]? = h[b]? := by
              intro b h1 h2
              rw [List.getElem?_set_ne h1.symm, List.getElem?_set_ne h2.symm]
            have hq : ((h.set q ⟨nq.key, nq.value, nd.link⟩).set a ⟨nd.key, nd.value, none⟩)[q]? = some ⟨nq.key, nq.value, nd.link⟩ := by
              rw [List.getElem?_set_ne hqa.symm, List.getElem?_set_self hlq]
            refine ⟨(h.set q ⟨nq.key, nq.value, nd.link⟩).set a ⟨nd.key, nd.value, none⟩, p, ?_, ⟨xs' ++ [q] ++ ys, ?_, ng, ?_⟩, ?_⟩
            · simp [HHash.unlink, f1, set_self g1]
            · rw [List.append_assoc, List.append_assoc]
              refine seg_append (seg_frame f4 fun b hb => hx b ?_ ?_) (Seg.cons (nd := ⟨nq.key, nq.value, nd.link⟩) hq
                (seg_frame h6 fun b hb => hx b ?_ ?_))
              · rintro rfl; exact na (by simp [hb])
              · rintro rfl; exact nq' (by simp [hb])
              · rintro rfl; exact na (List.mem_append_right _ hb)
              · rintro rfl; exact nq' (List.mem_append_right _ hb)
            · intro b hb
              refine w b ?_
              simp only [List.mem_append, List.mem_cons] at hb ⊢
              tauto
            · intro b hb
              refine hx b ?_ ?_
              · rintro rfl; exact hb (w _ (by simp))
              · rintro rfl; exact hb (w _ (by simp))
        obtain ⟨h', p', e1, b, hk⟩ := key
        rw [e1]
        obtain ⟨y, r2⟩ := change_rep r hk b (t.size - 1)
        have := updated_resize (ops := ops) y r2 (pol.shrink (m.size - 1) (m.array.set j p').length) (some (nd.key, nd.value))
        simp only [List.length_set, r.size, ← r.arr.len] at this ⊢
        exact this

end Poodle
