import Verif.Model.AvlCost
import Verif.Props.SortedIter

/-
Properties C163, C164: the work done by sorted maps (/repo/src/collection/avl.go, sorted_map.go, sorted_set.go), counted in
calls of the key's `Equal` / `Compare` and in links followed.
-/

namespace Poodle.Props
open Poodle Poodle.Spec

set_option maxRecDepth 100000

variable {K V : Type} {ops : KeyOps K} {cmp : K → K → Ordering}

/-! ### The counting functions return what the functions return -/

theorem putW_res (key : K) (value : V) (t : Tree K V) : (t.putW ops key value).res = t.putR ops key value := by
  induction t with
  | nil => rfl
  | node k v b l r ihl ihr =>
    simp only [Tree.putW, Tree.putR]
    split
    · rfl
    · rcases ops.compare k key with - | c
      · rfl
      · by_cases hlt : c < 0
        · simp only [hlt, if_true, Work.more, ihr]
          rcases r.putR ops key value with ⟨t, - | ⟨old, done⟩⟩ <;> rfl
        · simp only [hlt, if_false, Work.more, ihl]
          rcases l.putR ops key value with ⟨t, - | ⟨old, done⟩⟩ <;> rfl

theorem rightmostW_res (t : Tree K V) : t.rightmostW.res = t.rightmost := by
  induction t with
  | nil => rfl
  | node k v b l r ihl ihr =>
    cases r with
    | nil => rfl
    | node rk rv rb rl rr => simpa [Tree.rightmostW, Tree.rightmost, Work.more] using ihr

theorem removeW_res (key : K) (t : Tree K V) : (t.removeW ops key).res = t.removeR ops key := by
  induction t generalizing key with
  | nil => rfl
  | node k v b l r ihl ihr =>
    simp only [Tree.removeW, Tree.removeR]
    split
    · cases l with
      | nil => rfl
      | node lk lv lb ll lr =>
        cases r with
        | nil => rfl
        | node rk rv rb rl rr =>
          dsimp only
          rw [← rightmostW_res (Tree.node lk lv lb ll lr)]
          rcases Tree.rightmostW (Tree.node lk lv lb ll lr) with ⟨a, n, - | ⟨hk, hv⟩⟩
          · rfl
          · dsimp only
            rcases ops.compare hk hk with - | c
            · rfl
            · by_cases hlt : c < 0
              · simp only [hlt, if_true, Work.more, ihr]
                rcases Tree.removeR ops hk (Tree.node rk rv rb rl rr) with ⟨t, - | ⟨old, done⟩⟩ <;> rfl
              · simp only [hlt, if_false, Work.more, ihl]
                rcases Tree.removeR ops hk (Tree.node lk lv lb ll lr) with ⟨t, - | ⟨old, done⟩⟩ <;> rfl
    · rcases ops.compare k key with - | c
      · rfl
      · by_cases hlt : c < 0
        · simp only [hlt, if_true, Work.more, ihr]
          rcases r.removeR ops key with ⟨t, - | ⟨old, done⟩⟩ <;> rfl
        · simp only [hlt, if_false, Work.more, ihl]
          rcases l.removeR ops key with ⟨t, - | ⟨old, done⟩⟩ <;> rfl

theorem getW_res (key : K) (t : Tree K V) : (t.getW ops key).res = (t.getR ops key).map Prod.fst := by
  induction t with
  | nil => rfl
  | node k v b l r ihl ihr =>
    simp only [Tree.getW, Tree.getR]
    split
    · rfl
    · rcases ops.compare k key with - | c
      · rfl
      · by_cases hlt : c < 0
        · simp only [hlt, if_true, Work.more, ihr, id]; rw [Option.map_map]; rfl
        · simp only [hlt, if_false, Work.more, ihl, id]; rw [Option.map_map]; rfl

theorem map_getW_res (m : SortedMap K V) (k : K) : (m.getW ops k).res = m.get ops k := by
  simp only [SortedMap.getW, Work.more, getW_res, SortedMap.get, SortedMap.getNode]

theorem map_putW_res (m : SortedMap K V) (k : K) (v : V) : (m.putW ops k v).res = m.put ops k v := by
  simp only [SortedMap.putW, Work.more, putW_res, SortedMap.put, putNode_eq]
  rcases m.root.putR ops k v with ⟨t, - | ⟨old, done⟩⟩ <;> rfl

theorem map_removeW_res (m : SortedMap K V) (k : K) : (m.removeW ops k).res = m.remove ops k := by
  simp only [SortedMap.removeW, Work.more, removeW_res, SortedMap.remove, SortedMap.removeNode]
  rcases m.root.removeR ops k with ⟨t, - | ⟨old, done⟩⟩ <;> rfl

/-! ### Bounds on a tree -/

theorem putW_bound (key : K) (value : V) (t : Tree K V) :
    (t.putW ops key value).calls ≤ 2 * height t ∧ (t.putW ops key value).links ≤ height t := by
  induction t with
  | nil => simp [Tree.putW]
  | node k v b l r ihl ihr =>
    simp only [Tree.putW, height]
    split
    · simp only; omega
    · split
      · simp only; omega
      · split <;> simp only [Work.more] <;> omega

theorem getW_bound (key : K) (t : Tree K V) :
    (t.getW ops key).calls ≤ 2 * height t ∧ (t.getW ops key).links ≤ height t := by
  induction t with
  | nil => simp [Tree.getW]
  | node k v b l r ihl ihr =>
    simp only [Tree.getW, height]
    split
    · simp only; omega
    · split
      · simp only; omega
      · split <;> simp only [Work.more] <;> omega

theorem rightmostW_bound (t : Tree K V) (h : t ≠ .nil) : t.rightmostW.links + 1 ≤ height t := by
  induction t with
  | nil => exact absurd rfl h
  | node k v b l r ihl ihr =>
    cases r with
    | nil => simp [Tree.rightmostW, height]
    | node rk rv rb rl rr =>
      have := ihr (by simp)
      simp only [Tree.rightmostW, Work.more, height] at this ⊢
      omega

theorem tri_step {a b c h : Nat} (hb : 2 * b ≤ c * (c + 1)) (hc : c + 1 ≤ h) (ha : a ≤ h) : 2 * (b + a) ≤ h * (h + 1) := by
  have : c * (c + 1) ≤ (h - 1) * h := Nat.mul_le_mul (by omega) (by omega)
  obtain ⟨h', rfl⟩ : ∃ h', h = h' + 1 := ⟨h - 1, by omega⟩
  simp only [Nat.add_sub_cancel] at this
  nlinarith

theorem removeW_bound (key : K) (t : Tree K V) :
    (t.removeW ops key).calls ≤ 2 * height t ∧ 2 * (t.removeW ops key).links ≤ height t * (height t + 1) := by
  induction t generalizing key with
  | nil => simp [Tree.removeW, height]
  | node k v b l r ihl ihr =>
    have key1 : height l + 1 ≤ height (.node k v b l r) ∧ height r + 1 ≤ height (.node k v b l r) ∧
        1 ≤ height (.node k v b l r) := by simp only [height]; omega
    obtain ⟨gl, gr, g1⟩ := key1
    generalize height (.node k v b l r) = h at *
    simp only [Tree.removeW]
    split
    · cases l with
      | nil => simp only; omega
      | node lk lv lb ll lr =>
        cases r with
        | nil => simp only; omega
        | node rk rv rb rl rr =>
          have hr := rightmostW_bound (Tree.node lk lv lb ll lr) (by simp)
          dsimp only
          rcases hm : Tree.rightmostW (Tree.node lk lv lb ll lr) with ⟨a, n, - | ⟨hk, hv⟩⟩ <;> rw [hm] at hr <;> simp only at hr
          · simp only
            exact ⟨by omega, by nlinarith⟩
          · dsimp only
            split
            · simp only
              exact ⟨by omega, by nlinarith⟩
            · split
              · simp only [Work.more]
                exact ⟨by have := (ihr hk).1; omega, tri_step (ihr hk).2 gr (by omega)⟩
              · simp only [Work.more]
                exact ⟨by have := (ihl hk).1; omega, tri_step (ihl hk).2 gl (by omega)⟩
    · split
      · simp only; omega
      · split
        · simp only [Work.more]
          exact ⟨by have := (ihr key).1; omega, tri_step (ihr key).2 gr (by omega)⟩
        · simp only [Work.more]
          exact ⟨by have := (ihl key).1; omega, tri_step (ihl key).2 gl (by omega)⟩

theorem removeW_right (key : K) (k : K) (v : V) (b : Int) (l r : Tree K V) (h : ops.equal k key = false) (c : Int)
    (hc : ops.compare k key = some c) (hlt : c < 0) :
    ((Tree.node k v b l r).removeW ops key).links = (r.removeW ops key).links + 1 := by
  conv_lhs => unfold Tree.removeW
  simp only [h, hc, hlt, Bool.false_eq_true, if_false, if_true, Work.more]

/-- Removing the last entry of a tree goes straight to it. -/
theorem removeW_last (hops : LawfulKeys ops cmp) (t : Tree K V) (hs : Increasing cmp (entries t)) (e : K × V)
    (he : t.rightmost = some e) : (t.removeW ops e.1).links ≤ height t := by
  have := hops.trans
  induction t with
  | nil => simp [Tree.rightmost] at he
  | node k v b l r ihl ihr =>
    cases r with
    | nil =>
      simp only [Tree.rightmost, Option.some.injEq] at he
      subst he
      have : ops.equal k k = true := (hops.equal_iff k k).mpr Std.ReflCmp.compare_self
      simp only [Tree.removeW, this, if_true]
      cases l <;> simp
    | node rk rv rb rl rr =>
      have he' : (Tree.node rk rv rb rl rr).rightmost = some e := by simpa [Tree.rightmost] using he
      obtain ⟨x, A, h1, h2⟩ := rightmost_spec (Tree.node rk rv rb rl rr) (by simp)
      rw [he'] at h1
      simp only [Option.some.injEq] at h1
      subst h1
      simp only [entries] at hs h2
      have hlt : cmp k e.1 = .lt := by
        have h3 := incr_append_right hs
        rw [h2] at h3
        exact (incr_tail h3).2 e (by simp)
      have hne : ops.equal k e.1 = false := by
        rw [← Bool.not_eq_true, hops.equal_iff, hlt]; simp
      have hs' : Increasing cmp (entries (Tree.node rk rv rb rl rr)) := (incr_tail (incr_append_right hs)).1
      have ih := ihr hs' he'
      cases hc : ops.compare k e.1 with
      | none =>
        unfold Tree.removeW
        simp only [hne, hc, Bool.false_eq_true, if_false]
        omega
      | some c =>
        rw [removeW_right e.1 k v b l _ hne c hc ((hops.compare_sign _ _ _ hc).1.mpr hlt)]
        simp only [height] at ih ⊢
        omega

theorem removeW_links (hops : LawfulKeys ops cmp) (key : K) (t : Tree K V) (hs : Increasing cmp (entries t)) :
    (t.removeW ops key).links ≤ 2 * height t := by
  have := hops.trans
  induction t generalizing key with
  | nil => simp [Tree.removeW]
  | node k v b l r ihl ihr =>
    have hsl : Increasing cmp (entries l) := by
      simp only [entries, Increasing] at hs ⊢
      exact (List.pairwise_append.mp hs).1
    have hsr : Increasing cmp (entries r) := by
      simp only [entries] at hs
      exact (incr_tail (incr_append_right hs)).1
    simp only [Tree.removeW]
    split
    · cases l with
      | nil => simp
      | node lk lv lb ll lr =>
        cases r with
        | nil => simp
        | node rk rv rb rl rr =>
          have hr := rightmostW_bound (Tree.node lk lv lb ll lr) (by simp)
          dsimp only
          have hres := rightmostW_res (Tree.node lk lv lb ll lr)
          rcases hm : Tree.rightmostW (Tree.node lk lv lb ll lr) with ⟨a, n, - | ⟨hk, hv⟩⟩ <;> rw [hm] at hr hres <;>
            simp only at hr hres
          · simp only [height] at hr ⊢; omega
          · dsimp only
            have hlast := removeW_last hops _ hsl _ hres.symm
            split
            · simp only [height] at hr ⊢; omega
            · rename_i c hc
              have h0 : ¬ c < 0 := by
                rw [(hops.compare_sign _ _ _ hc).1, Std.ReflCmp.compare_self (cmp := cmp)]; simp
              simp only [h0, if_false, Work.more]
              simp only [height] at hr hlast ⊢
              omega
    · split
      · simp
      · split
        · simp only [Work.more, height]
          have := ihr key hsr
          omega
        · simp only [Work.more, height]
          have := ihl key hsl
          omega

theorem height_le_log (m : SortedMap K V) (hm : GoodMap cmp m) :
    (height m.root : ℝ) ≤ Real.logb Real.goldenRatio ((m.size : ℝ) + 1) := by
  have hphi : (1 : ℝ) < Real.goldenRatio := Real.one_lt_goldenRatio
  have hpow : ∀ j : Nat, Real.goldenRatio ^ j ≤ (Nat.fib (j + 2) : ℝ) ∧
      Real.goldenRatio ^ (j + 1) ≤ (Nat.fib (j + 3) : ℝ) := by
    intro j
    induction j with
    | zero =>
      refine ⟨by simp, ?_⟩
      have : Real.goldenRatio < 2 := Real.goldenRatio_lt_two
      have h3 : Nat.fib 3 = 2 := rfl
      simp only [Nat.zero_add, pow_one, h3]; push_cast; linarith
    | succ j ih =>
      refine ⟨ih.2, ?_⟩
      have e : Real.goldenRatio ^ (j + 1 + 1) = Real.goldenRatio ^ j + Real.goldenRatio ^ (j + 1) := by
        have := Real.goldenRatio_sq
        calc Real.goldenRatio ^ (j + 1 + 1) = Real.goldenRatio ^ j * Real.goldenRatio ^ 2 := by ring
          _ = _ := by rw [this]; ring
      have e2 : (Nat.fib (j + 1 + 3) : ℝ) = Nat.fib (j + 2) + Nat.fib (j + 3) := by
        rw [show j + 1 + 3 = (j + 2) + 2 from rfl, Nat.fib_add_two]; push_cast; ring
      rw [e, e2]; linarith [ih.1, ih.2]
  rw [Real.le_logb_iff_rpow_le hphi]
  · rw [Real.rpow_natCast]
    have h3 := (hpow (height m.root)).1
    have h4 : (Nat.fib (height m.root + 2) : ℝ) ≤ (count m.root : ℝ) + 1 := by
      exact_mod_cast fib_le_count _ hm.balanced
    have h5 : (m.size : ℝ) = (count m.root : ℝ) := by rw [hm.size, entries_length]; push_cast; rfl
    rw [h5]; linarith
  · rw [hm.size]; positivity

/-! ### C163 Calls on a sorted map take logarithmic time -/

/-- C163: on a map with `n` entries, after any history, `Get` and `Put` make at most `2 * log_phi (n + 1)` calls of the key's
`Equal` and `Compare` (phi the golden ratio: `log_phi x` is 1.4405 * log2 x) and follow at most `log_phi (n + 1)` links. -/
theorem C163_get_put (hops : LawfulKeys ops cmp) (hg : GuardedKeys ops cmp) (os : List (MapOp K V)) (k : K) (v : V) :
    let m := (runMap ops SortedMap.new os).1
    let log := Real.logb Real.goldenRatio ((m.size : ℝ) + 1)
    ((m.getW ops k).res = m.get ops k ∧ ((m.getW ops k).calls : ℝ) ≤ 2 * log ∧ ((m.getW ops k).links : ℝ) ≤ log) ∧
    (m.putW ops k v).res = m.put ops k v ∧ ((m.putW ops k v).calls : ℝ) ≤ 2 * log ∧ ((m.putW ops k v).links : ℝ) ≤ log := by
  have hm := (runMap_runs hops hg os SortedMap.new (new_good (cmp := cmp))).1
  generalize (runMap ops SortedMap.new os).1 = m at *
  have hh := height_le_log m hm
  obtain ⟨g1, g2⟩ := getW_bound (ops := ops) k m.root
  obtain ⟨p1, p2⟩ := putW_bound (ops := ops) k v m.root
  have g1' : ((m.root.getW ops k).calls : ℝ) ≤ 2 * (height m.root : ℝ) := by exact_mod_cast g1
  have g2' : ((m.root.getW ops k).links : ℝ) ≤ (height m.root : ℝ) := by exact_mod_cast g2
  have p1' : ((m.root.putW ops k v).calls : ℝ) ≤ 2 * (height m.root : ℝ) := by exact_mod_cast p1
  have p2' : ((m.root.putW ops k v).links : ℝ) ≤ (height m.root : ℝ) := by exact_mod_cast p2
  refine ⟨⟨map_getW_res m k, ?_, ?_⟩, map_putW_res m k v, ?_, ?_⟩ <;>
    simp only [SortedMap.getW, SortedMap.putW, Work.more, Nat.add_zero] <;> linarith

example := C163_get_put intOps_lawful.1 intOps_guarded ((List.range 7).map fun i => .put (i : Int) i) 6 (0 : Nat)

/-- C163: `Remove` makes at most `2 * log_phi (n + 1)` calls and follows at most `2 * log_phi (n + 1)` links: the search for the
entry that replaces a removed inner one happens once. -/
theorem C163_remove (hops : LawfulKeys ops cmp) (hg : GuardedKeys ops cmp) (os : List (MapOp K V)) (k : K) :
    let m := (runMap ops SortedMap.new os).1
    let log := Real.logb Real.goldenRatio ((m.size : ℝ) + 1)
    (m.removeW ops k).res = m.remove ops k ∧ ((m.removeW ops k).calls : ℝ) ≤ 2 * log ∧
      ((m.removeW ops k).links : ℝ) ≤ 2 * log := by
  have hm := (runMap_runs hops hg os SortedMap.new (new_good (cmp := cmp))).1
  generalize (runMap ops SortedMap.new os).1 = m at *
  have hh := height_le_log m hm
  have r1 := (removeW_bound (ops := ops) k m.root).1
  have r2 := removeW_links hops k m.root hm.increasing
  have r1' : ((m.root.removeW ops k).calls : ℝ) ≤ 2 * (height m.root : ℝ) := by exact_mod_cast r1
  have r2' : ((m.root.removeW ops k).links : ℝ) ≤ 2 * (height m.root : ℝ) := by exact_mod_cast r2
  refine ⟨map_removeW_res m k, ?_, ?_⟩ <;> simp only [SortedMap.removeW, Work.more, Nat.add_zero] <;> linarith

example := C163_remove intOps_lawful.1 intOps_guarded ((List.range 7).map fun i => .put (i : Int) i) 3

/-- C163: whatever the key's `Equal` and `Compare` answer, on every tree: at most two calls per level, and `Remove` follows at
most `h * (h + 1) / 2` links, `h` the height of the tree. -/
theorem C163_any_keys (m : SortedMap K V) (k : K) (v : V) :
    ((m.getW ops k).calls ≤ 2 * height m.root ∧ (m.getW ops k).links ≤ height m.root) ∧
    ((m.putW ops k v).calls ≤ 2 * height m.root ∧ (m.putW ops k v).links ≤ height m.root) ∧
    (m.removeW ops k).calls ≤ 2 * height m.root ∧ 2 * (m.removeW ops k).links ≤ height m.root * (height m.root + 1) := by
  simp only [SortedMap.getW, SortedMap.putW, SortedMap.removeW, Work.more, Nat.add_zero]
  exact ⟨getW_bound k m.root, putW_bound k v m.root, removeW_bound k m.root⟩

/-- Seven entries: the root has two children, removing it looks for its predecessor. -/
example : let m := (runMap intOps SortedMap.new ((List.range 7).map fun i => .put (i : Int) i)).1
    height m.root = 3 ∧ ((m.removeW intOps 3).calls, (m.removeW intOps 3).links) = (5, 4) ∧
      ((m.getW intOps 6).calls, (m.getW intOps 6).links) = (5, 2) ∧
      ((m.putW intOps 9 (0 : Nat)).calls, (m.putW intOps 9 0).links) = (6, 3) := by decide +kernel

/-- Keys that say all differ and all are less: the bound for arbitrary keys counts their calls too. -/
example : let m := (runMap ⟨fun _ _ => false, fun _ _ => some (-1)⟩ SortedMap.new
      ((List.range 7).map fun i => MapOp.put (i : Int) i)).1
    height m.root = 3 ∧ ((m.putW ⟨fun _ _ => false, fun _ _ => some (-1)⟩ 0 (9 : Nat)).calls = 6) := by decide +kernel

/-! ### Iterators: agreement -/

theorem descendW_res (t : Tree K V) (p : List (Tree K V)) : (AvlIter.descendW t p).res = AvlIter.descend t p := by
  induction t generalizing p with
  | nil => rfl
  | node k v b l r ihl ihr =>
    cases l with
    | nil => rfl
    | node lk lv lb ll lr => simpa [AvlIter.descendW, AvlIter.descend, Work.more] using ihl _

theorem newW_res (root : Tree K V) (start stop : Option K) :
    (AvlIter.newW ops root start stop).res = AvlIter.new ops root start stop := by
  unfold AvlIter.newW AvlIter.new
  rcases start with - | s <;> rcases stop with - | e <;> simp only [Work.more, descendW_res]
  rcases ops.compare s e with - | c <;> rfl

theorem startSpineW_res (s : K) (t : Tree K V) : (AvlIter.startSpineW ops s t).res = AvlIter.startSpine ops s t := by
  induction t with
  | nil => rfl
  | node k v b l r ihl ihr =>
    simp only [AvlIter.startSpineW, AvlIter.startSpine]
    rcases ops.compare s k with - | c
    · rfl
    · by_cases hlt : c < 0
      · simp only [hlt, if_true]
        cases r with
        | nil => rfl
        | node rk rv rb rl rr => simpa [Work.more] using ihr
      · simp only [hlt, if_false]

theorem startLoopW_res (s : K) (paths : List (Tree K V)) (t : Tree K V) (pos : Nat) :
    (AvlIter.startLoopW ops s paths t pos).res = AvlIter.startLoop ops s paths t pos := by
  induction paths generalizing t pos with
  | nil =>
    unfold AvlIter.startLoopW AvlIter.startLoop
    rw [← startSpineW_res]
    rcases AvlIter.startSpineW ops s t with ⟨a, b, - | - | t⟩ <;> rfl
  | cons p ps ih =>
    unfold AvlIter.startLoopW AvlIter.startLoop
    rw [← startSpineW_res]
    rcases AvlIter.startSpineW ops s t with ⟨a, b, - | - | t⟩
    · rfl
    · simpa [Work.more] using ih p 0
    · rfl

theorem endLoopW_res (e : K) (paths : List (Tree K V)) (t : Tree K V) (pos : Nat) :
    (AvlIter.endLoopW ops e paths t pos).res = AvlIter.endLoop ops e paths t pos := by
  induction paths generalizing t pos with
  | nil =>
    unfold AvlIter.endLoopW AvlIter.endLoop
    cases t with
    | nil => rfl
    | node k v b l r =>
      dsimp only
      rcases ops.compare k e with - | c
      · rfl
      · by_cases hc : c ≥ 0 <;> simp only [hc, if_true, if_false]
  | cons p ps ih =>
    unfold AvlIter.endLoopW AvlIter.endLoop
    cases t with
    | nil => rfl
    | node k v b l r =>
      dsimp only
      rcases ops.compare k e with - | c
      · rfl
      · by_cases hc : c ≥ 0 <;> simp only [hc, if_true, if_false, Work.more, ih, id]

theorem boundEndW_res (it : AvlIter K V) : (AvlIter.boundEndW ops it).res = AvlIter.boundEnd ops it := by
  unfold AvlIter.boundEndW AvlIter.boundEnd
  rcases it.stop with - | e
  · rfl
  · dsimp only [Work.more]
    rw [endLoopW_res]
    rcases AvlIter.endLoop ops e it.paths it.curr it.pos with - | - | ⟨c, p, q⟩ <;> rfl

theorem boundsW_res (it : AvlIter K V) : (AvlIter.boundsW ops it).res = AvlIter.bounds ops it := by
  unfold AvlIter.boundsW AvlIter.bounds
  rcases it.start with - | s
  · exact boundEndW_res it
  · dsimp only
    rw [← startLoopW_res]
    rcases AvlIter.startLoopW ops s it.paths it.curr it.pos with ⟨a, b, - | - | ⟨c, p, q⟩⟩
    · rfl
    · rfl
    · simp only [Work.more, id, boundEndW_res]

theorem stepW_res (it : AvlIter K V) : (AvlIter.stepW ops it).res = AvlIter.step ops it := by
  obtain ⟨paths, curr, pos, start, stop⟩ := it
  unfold AvlIter.stepW AvlIter.step
  match pos with
  | 0 => exact boundsW_res _
  | 1 =>
    cases curr with
    | nil => rfl
    | node k v b l r =>
      cases r with
      | nil =>
        cases paths with
        | nil => rfl
        | cons p ps => simp only [Work.more, id, boundsW_res]
      | node rk rv rb rl rr =>
        dsimp only
        rw [← descendW_res]
        rcases AvlIter.descendW (Tree.node rk rv rb rl rr) paths with ⟨a, n, c, p⟩
        simp only [Work.more, id, boundsW_res]
  | n + 2 => rfl

theorem advanceW_res (it : AvlIter K V) : (AvlIter.advanceW ops it).res = AvlIter.advance ops it := by
  obtain ⟨paths, curr, pos, start, stop⟩ := it
  unfold AvlIter.advanceW AvlIter.advance
  cases curr with
  | nil =>
    cases paths with
    | nil => rfl
    | cons p ps => simp only [Work.more, id, stepW_res]
  | node k v b l r => exact stepW_res _

/-! ### Iterators: the stack is at most as deep as the tree -/

/-- The trees on the stack are higher from top to bottom, the top one higher than `a`, none higher than `h`. -/
def StackOk (h : Nat) : Nat → List (Tree K V) → Prop
  | a, [] => a ≤ h
  | a, p :: ps => a < height p ∧ StackOk h (height p) ps

theorem StackOk.mono {h a b : Nat} {ps : List (Tree K V)} (hs : StackOk h a ps) (hb : b ≤ a) : StackOk h b ps := by
  cases ps with
  | nil => exact Nat.le_trans hb hs
  | cons p ps => exact ⟨Nat.lt_of_le_of_lt hb hs.1, hs.2⟩

theorem StackOk.length {h a : Nat} {ps : List (Tree K V)} (hs : StackOk h a ps) : a + ps.length ≤ h := by
  induction ps generalizing a with
  | nil => exact hs
  | cons p ps ih =>
    have := ih hs.2
    have := hs.1
    simp only [List.length_cons]; omega

theorem descendW_stack (h : Nat) (t : Tree K V) (p : List (Tree K V)) (hs : StackOk h (height t) p) :
    StackOk h (height (AvlIter.descend t p).1) (AvlIter.descend t p).2 ∧
      (AvlIter.descend t p).2.length = p.length + (AvlIter.descendW t p).links ∧ (AvlIter.descendW t p).calls = 0 := by
  induction t generalizing p with
  | nil => exact ⟨hs, rfl, rfl⟩
  | node k v b l r ihl ihr =>
    cases l with
    | nil => exact ⟨hs, rfl, rfl⟩
    | node lk lv lb ll lr =>
      have := ihl (.node k v b (.node lk lv lb ll lr) r :: p) ⟨by simp only [height]; omega, hs⟩
      obtain ⟨h1, h2, h3⟩ := this
      refine ⟨by simpa [AvlIter.descend] using h1, ?_, by simpa [AvlIter.descendW, Work.more] using h3⟩
      simp only [AvlIter.descend, AvlIter.descendW, Work.more] at h2 ⊢
      rw [h2]; simp only [List.length_cons]; omega

theorem startSpineW_work (s : K) (t : Tree K V) :
    (AvlIter.startSpineW ops s t).calls ≤ height t ∧ (AvlIter.startSpineW ops s t).links ≤ height t - 1 ∧
      ∀ t', (AvlIter.startSpineW ops s t).res = some (some t') → t' ≠ .nil ∧ height t' ≤ height t := by
  induction t with
  | nil => simp [AvlIter.startSpineW]
  | node k v b l r ihl ihr =>
    simp only [AvlIter.startSpineW, height]
    rcases ops.compare s k with - | c
    · simp
    · by_cases hlt : c < 0
      · simp only [hlt, if_true]
        cases r with
        | nil => simp
        | node rk rv rb rl rr =>
          obtain ⟨h1, h2, h3⟩ := ihr
          simp only [Work.more, id] at h1 h2 h3 ⊢
          have hh : 1 ≤ height (Tree.node rk rv rb rl rr) := by simp [height]
          refine ⟨by omega, by omega, fun t' ht => ⟨(h3 t' ht).1, ?_⟩⟩
          have := (h3 t' ht).2
          omega
      · simp only [hlt, if_false]
        refine ⟨by omega, by omega, fun t' ht => ?_⟩
        simp only [Option.some.injEq] at ht
        subst ht
        exact ⟨by simp, by simp [height]⟩

theorem startLoopW_work (h : Nat) (s : K) (paths : List (Tree K V)) (t : Tree K V) (pos : Nat) (ht : t ≠ .nil)
    (hp : ∀ x ∈ paths, x ≠ .nil) (hs : StackOk h (height t) paths) :
    (AvlIter.startLoopW ops s paths t pos).calls ≤ (paths.length + 1) * h ∧
    (AvlIter.startLoopW ops s paths t pos).links ≤ (paths.length + 1) * h ∧
    ∀ c p q, (AvlIter.startLoopW ops s paths t pos).res = some (some (c, p, q)) →
      c ≠ .nil ∧ StackOk h (height c) p ∧ p.length ≤ paths.length := by
  induction paths generalizing t pos with
  | nil =>
    have hs' : height t ≤ h := hs
    obtain ⟨w1, w2, w3⟩ := startSpineW_work (ops := ops) s t
    unfold AvlIter.startLoopW
    rcases hw : AvlIter.startSpineW ops s t with ⟨a, b, - | - | t'⟩ <;> rw [hw] at w1 w2 w3 <;> simp only at w1 w2 w3 ⊢
    · simp; omega
    · simp; omega
    · refine ⟨by simp; omega, by simp; omega, fun c p q hc => ?_⟩
      simp only [Option.some.injEq, Prod.mk.injEq] at hc
      obtain ⟨rfl, rfl, rfl⟩ := hc
      exact ⟨(w3 t' rfl).1, Nat.le_trans (w3 t' rfl).2 hs', Nat.le_refl _⟩
  | cons x xs ih =>
    have hh := hs.length
    obtain ⟨w1, w2, w3⟩ := startSpineW_work (ops := ops) s t
    have hm : h ≤ (xs.length + 1 + 1) * h := Nat.le_mul_of_pos_left _ (by omega)
    unfold AvlIter.startLoopW
    rcases hw : AvlIter.startSpineW ops s t with ⟨a, b, - | - | t'⟩ <;> rw [hw] at w1 w2 w3 <;> simp only at w1 w2 w3 ⊢
    · simp only [List.length_cons, reduceCtorEq, false_imp_iff, implies_true, and_true] at hh ⊢
      omega
    · obtain ⟨i1, i2, i3⟩ := ih x 0 (hp x (by simp)) (fun y hy => hp y (by simp [hy])) hs.2
      simp only [Work.more, List.length_cons, id] at hh ⊢
      have e : (xs.length + 1 + 1) * h = (xs.length + 1) * h + h := by ring
      refine ⟨by omega, by omega, fun c p q hc => ?_⟩
      obtain ⟨j1, j2, j3⟩ := i3 c p q hc
      exact ⟨j1, j2, by omega⟩
    · simp only [List.length_cons] at hh ⊢
      refine ⟨by omega, by omega, fun c p q hc => ?_⟩
      simp only [Option.some.injEq, Prod.mk.injEq] at hc
      obtain ⟨rfl, rfl, rfl⟩ := hc
      exact ⟨(w3 t' rfl).1, hs.mono (w3 t' rfl).2, by simp⟩

theorem endLoopW_work (e : K) (paths : List (Tree K V)) (t : Tree K V) (pos : Nat) :
    (AvlIter.endLoopW ops e paths t pos).calls ≤ paths.length + 1 ∧ (AvlIter.endLoopW ops e paths t pos).links ≤ paths.length := by
  induction paths generalizing t pos with
  | nil =>
    unfold AvlIter.endLoopW
    cases t with
    | nil => simp
    | node k v b l r =>
      dsimp only
      rcases ops.compare k e with - | c
      · simp
      · by_cases hc : c ≥ 0 <;> simp only [hc, if_true, if_false] <;> simp
  | cons p ps ih =>
    have := ih p 0
    unfold AvlIter.endLoopW
    cases t with
    | nil => simp
    | node k v b l r =>
      dsimp only
      rcases ops.compare k e with - | c
      · simp
      · by_cases hc : c ≥ 0 <;> simp only [hc, if_true, if_false, Work.more, List.length_cons] <;> omega

/-! ### Iterators: amortised work -/

/-- The node is above its stack, and an iterator without node has no stack. -/
structure Sane (h : Nat) (it : AvlIter K V) : Prop where
  none : it.curr = .nil → it.paths = []
  stack : StackOk h (height it.curr) it.paths

/-- Work set aside for the rest of an iteration. -/
def reserve (h : Nat) (it : AvlIter K V) : Nat :=
  match it.curr with
  | .nil => 0
  | _ => (3 * h - it.paths.length) + if it.start.isSome then 2 * (h * h) else 0

theorem sane_exhausted (h pos : Nat) (start stop : Option K) : Sane h (⟨[], .nil, pos, start, stop⟩ : AvlIter K V) :=
  ⟨fun _ => rfl, Nat.zero_le _⟩

section
variable [Std.TransCmp cmp]

theorem boundEndW_amort (hops : LawfulKeys ops cmp) (ht : TotalKeys ops) (h : Nat) (paths : List (Tree K V))
    (hp : ∀ x ∈ paths, x ≠ .nil) (k : K) (v : V) (b : Int) (l r : Tree K V) (stop : Option K)
    (hs : Increasing cmp ((k, v) :: entries r ++ pathOut paths)) (hst : StackOk h (height (.node k v b l r)) paths) :
    let w := AvlIter.boundEndW ops ⟨paths, .node k v b l r, 0, none, stop⟩
    ∃ it, w.res = some it ∧ Sane h it ∧ w.calls + w.links + reserve h it ≤ 1 + (3 * h - paths.length) := by
  have hlen := hst.length
  cases stop with
  | none =>
    refine ⟨_, rfl, ⟨by simp, hst⟩, ?_⟩
    simp [AvlIter.boundEndW, reserve]
  | some e =>
    simp only [AvlIter.boundEndW, Work.more, endLoopW_res]
    rcases endLoop_spec hops ht e paths hp k v b l r 0 hs with ⟨h1, h2⟩ | ⟨h1, h2⟩
    · rw [h2]
      refine ⟨_, rfl, ⟨by simp, hst⟩, ?_⟩
      have : (AvlIter.endLoopW ops e paths (.node k v b l r) 0).calls ≤ 1 ∧
          (AvlIter.endLoopW ops e paths (.node k v b l r) 0).links = 0 := by
        unfold AvlIter.endLoopW
        dsimp only
        rcases hc : ops.compare k e with - | c
        · simp
        · have := (hops.compare_sign _ _ _ hc).1.mpr h1
          simp [show ¬ 0 ≤ c by omega]
      simp only [reserve, Option.isSome_none, Bool.false_eq_true, if_false]
      omega
    · rw [h2]
      refine ⟨_, rfl, sane_exhausted _ _ _ _, ?_⟩
      have := endLoopW_work (ops := ops) e paths (.node k v b l r) 0
      simp only [reserve]
      omega

theorem boundsW_amort (hops : LawfulKeys ops cmp) (ht : TotalKeys ops) (h : Nat) (paths : List (Tree K V))
    (hp : ∀ x ∈ paths, x ≠ .nil) (k : K) (v : V) (b : Int) (l r : Tree K V) (start stop : Option K)
    (hs : Increasing cmp ((k, v) :: entries r ++ pathOut paths)) (hst : StackOk h (height (.node k v b l r)) paths) :
    let w := AvlIter.boundsW ops ⟨paths, .node k v b l r, 0, start, stop⟩
    ∃ it, w.res = some it ∧ Sane h it ∧
      w.calls + w.links + reserve h it ≤ 1 + (3 * h - paths.length) + if start.isSome then 2 * (h * h) else 0 := by
  have hlen := hst.length
  have hpos : 1 ≤ height (.node k v b l r) := by simp [height]
  cases start with
  | none => simpa [AvlIter.boundsW] using boundEndW_amort hops ht h paths hp k v b l r stop hs hst
  | some s =>
    obtain ⟨w1, w2, -⟩ := startLoopW_work (ops := ops) h s paths (.node k v b l r) 0 (by simp) hp hst
    have hmul : (paths.length + 1) * h ≤ h * h := Nat.mul_le_mul_right _ (by omega)
    simp only [AvlIter.boundsW, Option.isSome_some, if_true]
    have hres := startLoopW_res (ops := ops) s paths (.node k v b l r) 0
    rcases startLoop_spec hops ht s paths hp k v b l r 0 hs with ⟨h1, h2⟩ | ⟨h1, h2⟩
    · rw [h2] at hres
      rcases hw : AvlIter.startLoopW ops s paths (.node k v b l r) 0 with ⟨a, c, res⟩
      rw [hw] at hres w1 w2
      simp only at hres w1 w2
      subst hres
      dsimp only [Work.more, id]
      obtain ⟨it, e1, e2, e3⟩ := boundEndW_amort hops ht h paths hp k v b l r stop hs hst
      refine ⟨it, e1, e2, ?_⟩
      omega
    · rw [h2] at hres
      rcases hw : AvlIter.startLoopW ops s paths (.node k v b l r) 0 with ⟨a, c, res⟩
      rw [hw] at hres w1 w2
      simp only at hres w1 w2
      subst hres
      refine ⟨_, rfl, sane_exhausted _ _ _ _, ?_⟩
      simp only [reserve]
      omega

theorem advanceW_amort (hops : LawfulKeys ops cmp) (ht : TotalKeys ops) (h : Nat) (it : AvlIter K V) (hw : WfIter cmp it)
    (hsn : Sane h it) :
    ∃ it', (AvlIter.advanceW ops it).res = some it' ∧ Sane h it' ∧
      (AvlIter.advanceW ops it).calls + (AvlIter.advanceW ops it).links + reserve h it' ≤ 3 + reserve h it := by
  obtain ⟨paths, curr, pos, start, stop⟩ := it
  obtain ⟨wpos, wp, ws, wst⟩ := hw
  obtain ⟨sn, sst⟩ := hsn
  simp only at wpos wp wst sn sst
  cases curr with
  | nil =>
    cases sn rfl
    exact ⟨_, rfl, sane_exhausted _ _ _ _, by simp [AvlIter.advanceW, reserve]⟩
  | node k v b l r =>
    have hlen := sst.length
    rcases wpos with rfl | rfl
    · have hs : Increasing cmp ((k, v) :: entries r ++ pathOut paths) := by simpa [rem] using ws
      obtain ⟨it', e1, e2, e3⟩ := boundsW_amort hops ht h paths wp k v b l r start stop hs sst
      refine ⟨it', e1, e2, ?_⟩
      simp only [AvlIter.advanceW, AvlIter.stepW]
      refine Nat.le_trans e3 ?_
      simp only [reserve]
      omega
    · have hstart : start = none := by
        rcases hc : start with - | s
        · rfl
        · rcases wst (by simp [hc]) with h | h <;> simp at h
      subst hstart
      have hs : Increasing cmp (entries r ++ pathOut paths) := by simpa [rem] using ws
      cases r with
      | nil =>
        cases paths with
        | nil => exact ⟨_, rfl, sane_exhausted _ _ _ _, by simp [AvlIter.advanceW, AvlIter.stepW, reserve]⟩
        | cons p ps =>
          cases p with
          | nil => exact absurd rfl (wp .nil (by simp))
          | node pk pv pb pl pr =>
            have hs' : Increasing cmp ((pk, pv) :: entries pr ++ pathOut ps) := by simpa [entries, pathOut] using hs
            obtain ⟨it', e1, e2, e3⟩ :=
              boundsW_amort hops ht h ps (fun x hx => wp x (by simp [hx])) pk pv pb pl pr none stop hs' sst.2
            refine ⟨it', e1, e2, ?_⟩
            simp only [AvlIter.advanceW, AvlIter.stepW, Work.more, reserve, List.length_cons, Option.isSome_none,
              Bool.false_eq_true, if_false] at e3 hlen ⊢
            omega
      | node rk rv rb rl rr =>
        obtain ⟨k', v', b', r', ps, h1, h2, h3⟩ := descend_spec (.node rk rv rb rl rr) (by simp) paths wp
        obtain ⟨d1, d2, -⟩ := descendW_stack h (.node rk rv rb rl rr) paths
          (sst.mono (by simp only [height]; omega))
        have hres := descendW_res (.node rk rv rb rl rr) paths
        rcases hd : AvlIter.descendW (.node rk rv rb rl rr) paths with ⟨a, n, c, p⟩
        rw [h1] at d1 d2 hres
        rw [hd] at d2 hres
        simp only [Prod.mk.injEq] at d1 d2 hres
        obtain ⟨rfl, rfl⟩ := hres
        obtain ⟨it', e1, e2, e3⟩ := boundsW_amort hops ht h p h2 k' v' b' .nil r' none stop (by rw [h3]; exact hs) d1
        have hl := d1.length
        refine ⟨it', ?_, e2, ?_⟩
        · simp only [AvlIter.advanceW, AvlIter.stepW, hd]
          exact e1
        · simp only [AvlIter.advanceW, AvlIter.stepW, hd, Work.more, reserve, Option.isSome_none, Bool.false_eq_true, if_false]
            at e3 ⊢
          omega

end

/-- A call leaves the iterator as `advance` does, up to the position. -/
theorem sortedCall_state (it it' : AvlIter K V) (h : AvlIter.advance ops it = some it') (hn : it'.curr = .nil → it'.paths = [])
    (c : IterCall) :
    (it.sortedCall ops c).1 = it' ∨ (it.sortedCall ops c).1 = { it' with pos := 1 } := by
  obtain ⟨paths, curr, pos, start, stop⟩ := it'
  cases curr with
  | nil =>
    cases hn rfl
    left
    cases c <;> simp [AvlIter.sortedCall, AvlIter.call, AvlIter.next, AvlIter.hasNext, AvlIter.peek, h]
  | node k v b l r =>
    cases c
    · right; simp [AvlIter.sortedCall, AvlIter.call, AvlIter.next, h]
    · left; simp [AvlIter.sortedCall, AvlIter.call, AvlIter.hasNext, h]
    · left; simp [AvlIter.sortedCall, AvlIter.call, AvlIter.peek, h]

/-- Calls of `Compare` made, links followed by a sequence of calls on an iterator. -/
def iterWork (ops : KeyOps K) (it : AvlIter K V) : List IterCall → Nat × Nat
  | [] => (0, 0)
  | c :: cs =>
    let w := it.sortedCallW ops c
    let (a, b) := iterWork ops w.res.1 cs
    (w.calls + a, w.links + b)

theorem iterWork_amort (hops : LawfulKeys ops cmp) (ht : TotalKeys ops) (h : Nat) (cs : List IterCall) (it : AvlIter K V)
    (hw : WfIter cmp it) (hsn : Sane h it) :
    (iterWork ops it cs).1 + (iterWork ops it cs).2 ≤ 3 * cs.length + reserve h it := by
  have := hops.trans
  induction cs generalizing it with
  | nil => simp [iterWork]
  | cons c cs ih =>
    obtain ⟨it', e1, e2, e3⟩ := advanceW_amort hops ht h it hw hsn
    rw [advanceW_res] at e1
    obtain ⟨w1, -⟩ := sortedCall_spec hops ht it hw c
    have hst := sortedCall_state it it' e1 e2.none c
    have hsn' : Sane h (it.sortedCall ops c).1 := by
      rcases hst with h | h <;> rw [h]
      · exact e2
      · exact ⟨e2.none, e2.stack⟩
    have hr : reserve h (it.sortedCall ops c).1 = reserve h it' := by
      rcases hst with h | h <;> rw [h]
      rfl
    have := ih _ w1 hsn'
    rw [hr] at this
    simp only [iterWork, AvlIter.sortedCallW, Work.more, List.length_cons]
    omega

theorem new_shape (root : Tree K V) (start stop : Option K) (it : AvlIter K V)
    (h : AvlIter.new ops root start stop = some it) :
    it = ⟨(AvlIter.descend root []).2, (AvlIter.descend root []).1, 0, start, stop⟩ := by
  simp only [AvlIter.new] at h
  split at h
  · split at h
    · simp at h
    · split at h
      · simp at h
      · simpa using h.symm
  · simpa using h.symm

theorem newW_work (root : Tree K V) (start stop : Option K) :
    (AvlIter.newW ops root start stop).links = (AvlIter.descend root []).2.length ∧
    (AvlIter.newW ops root start stop).calls = if start.isSome && stop.isSome then 1 else 0 := by
  obtain ⟨-, d2, d3⟩ := descendW_stack (height root) root [] (Nat.le_refl _)
  simp only [List.length_nil, Nat.zero_add] at d2
  unfold AvlIter.newW
  rcases start with - | s <;> rcases stop with - | e <;> simp [Work.more, d2, d3]

theorem new_sane (root : Tree K V) (start stop : Option K) (it : AvlIter K V)
    (h : AvlIter.new ops root start stop = some it) : Sane (height root) it := by
  rw [new_shape root start stop it h]
  refine ⟨fun hn => ?_, (descendW_stack (height root) root [] (Nat.le_refl _)).1⟩
  cases root with
  | nil => rfl
  | node k v b l r =>
    obtain ⟨k', v', b', r', ps, h1, -, -⟩ := descend_spec (.node k v b l r) (by simp) [] (by simp)
    rw [h1] at hn
    simp at hn

/-! ### C164 Iterating over a sorted map takes constant time per call -/

/-- C164: creating an iterator without start on a map whose tree has height `h`, and then making any `m` calls, takes at most
`3 * m + 3 * h` calls of `Compare` and links followed, all together; a start adds at most `2 * h * h + 1`. -/
theorem C164_range (hops : LawfulKeys ops cmp) (ht : TotalKeys ops) (os : List (MapOp K V)) (start stop : Option K)
    (it : AvlIter K V) (hit : (runMap ops SortedMap.new os).1.rangeIterator ops start stop = some it) (cs : List IterCall) :
    let h := height (runMap ops SortedMap.new os).1.root
    let w := AvlIter.newW ops (runMap ops SortedMap.new os).1.root start stop
    w.res = some it ∧
      w.calls + w.links + ((iterWork ops it cs).1 + (iterWork ops it cs).2) ≤
        3 * cs.length + 3 * h + if start.isSome then 2 * h * h + 1 else 0 := by
  have := hops.trans
  have hm := (runMap_runs hops (total_guarded ht) os SortedMap.new (new_good (cmp := cmp))).1
  generalize (runMap ops SortedMap.new os).1 = m at *
  obtain ⟨hw, -⟩ := new_spec m.root start stop hm.increasing it hit
  have hsn := new_sane m.root start stop it hit
  have hwk := iterWork_amort hops ht _ cs it hw hsn
  obtain ⟨n1, n2⟩ := newW_work (ops := ops) m.root start stop
  have hshape := new_shape m.root start stop it hit
  have hlen := hsn.stack.length
  refine ⟨by rw [newW_res]; exact hit, ?_⟩
  rw [n1, n2]
  have hr : reserve (height m.root) it ≤ (3 * height m.root - (AvlIter.descend m.root []).2.length) +
      if start.isSome then 2 * (height m.root * height m.root) else 0 := by
    rw [hshape]
    unfold reserve
    dsimp only
    split
    · omega
    · exact Nat.le_refl _
  rw [hshape] at hlen
  simp only at hlen
  rw [Nat.mul_assoc]
  cases start with
  | none => simp only [Option.isSome_none, Bool.false_and, Bool.false_eq_true, if_false] at hr ⊢; omega
  | some s =>
    simp only [Option.isSome_some, Bool.true_and, if_true] at hr ⊢
    split <;> omega

example := C164_range intOps_lawful.1 intOps_lawful.2 ((List.range 7).map fun i => .put (i : Int) i) (some 2) (some 5) _ rfl
  [.hasNext, .next, .peek, .next]

/-- C164: a single call takes at most `3 * h + 3` if the iterator has no start left, wherever the iteration stands. -/
theorem C164_single (hops : LawfulKeys ops cmp) (ht : TotalKeys ops) (os : List (MapOp K V)) (stop : Option K)
    (it : AvlIter K V) (hit : (runMap ops SortedMap.new os).1.rangeIterator ops none stop = some it) (cs : List IterCall)
    (c : IterCall) :
    let it' := afterCalls (fun s c => AvlIter.sortedCall ops s c) it cs
    (it'.sortedCallW ops c).res = it'.sortedCall ops c ∧
      (it'.sortedCallW ops c).calls + (it'.sortedCallW ops c).links ≤ 3 * height (runMap ops SortedMap.new os).1.root + 3 := by
  have := hops.trans
  have hm := (runMap_runs hops (total_guarded ht) os SortedMap.new (new_good (cmp := cmp))).1
  generalize (runMap ops SortedMap.new os).1 = m at *
  obtain ⟨hw, -⟩ := new_spec m.root none stop hm.increasing it hit
  have hsn := new_sane m.root none stop it hit
  have hr : reserve (height m.root) it ≤ 3 * height m.root := by
    rw [new_shape m.root none stop it hit]
    unfold reserve
    dsimp only
    split
    · omega
    · simp
  have hnone : it.start = none := by rw [new_shape m.root none stop it hit]
  clear hit
  suffices hh : ∀ it : AvlIter K V, WfIter cmp it → Sane (height m.root) it → it.start = none →
      (afterCalls (fun s c => AvlIter.sortedCall ops s c) it cs).start = none ∧
      WfIter cmp (afterCalls (fun s c => AvlIter.sortedCall ops s c) it cs) ∧
      Sane (height m.root) (afterCalls (fun s c => AvlIter.sortedCall ops s c) it cs) by
    obtain ⟨a1, a2, a3⟩ := hh it hw hsn hnone
    generalize afterCalls (fun s c => AvlIter.sortedCall ops s c) it cs = it' at *
    refine ⟨rfl, ?_⟩
    obtain ⟨it2, -, -, e3⟩ := advanceW_amort hops ht (height m.root) it' a2 a3
    have : reserve (height m.root) it' ≤ 3 * height m.root := by
      unfold reserve
      split
      · omega
      · simp [a1]
    simp only [AvlIter.sortedCallW, Work.more]
    omega
  intro it hw hsn hnone
  induction cs generalizing it with
  | nil => exact ⟨hnone, hw, hsn⟩
  | cons c cs ih =>
    obtain ⟨it', e1, e2, -⟩ := advanceW_amort hops ht (height m.root) it hw hsn
    rw [advanceW_res] at e1
    obtain ⟨w1, -⟩ := sortedCall_spec hops ht it hw c
    have hst := sortedCall_state it it' e1 e2.none c
    have hn' : it'.start = none := by
      obtain ⟨it2, f1, f2, -, f3⟩ := advance_spec hops ht it hw
      rw [e1] at f1
      simp only [Option.some.injEq] at f1
      subst f1
      have hstart : ∀ i j : AvlIter K V, i.start = none → AvlIter.bounds ops i = some j → j.start = none := by
        intro i j hi hj
        unfold AvlIter.bounds at hj
        rw [hi] at hj
        simp only [AvlIter.boundEnd] at hj
        split at hj
        · simp only [Option.some.injEq] at hj; rw [← hj]; exact hi
        · split at hj
          · simp at hj
          · simp only [Option.some.injEq] at hj; rw [← hj]; exact hi
          · simp only [Option.some.injEq] at hj; rw [← hj]; exact hi
      have hstep : ∀ i j : AvlIter K V, i.start = none → AvlIter.step ops i = some j → j.start = none := by
        intro i j hi hj
        unfold AvlIter.step at hj
        split at hj
        · exact hstart _ _ hi hj
        · split at hj
          · simp at hj
          · split at hj
            · split at hj
              · refine hstart _ j ?_ hj; exact hi
              · simp only [Option.some.injEq] at hj; rw [← hj]
            · dsimp only at hj; refine hstart _ j ?_ hj; exact hi
        · simp at hj
      unfold AvlIter.advance at e1
      split at e1
      · simp only [Option.some.injEq] at e1; rw [← e1]; exact hnone
      · refine hstep _ it' ?_ e1; exact hnone
      · exact hstep _ _ hnone e1
    apply ih
    · exact w1
    · rcases hst with h | h <;> rw [h]
      · exact e2
      · exact ⟨e2.none, e2.stack⟩
    · rcases hst with h | h <;> rw [h]
      · exact hn'
      · exact hn'

example := C164_single intOps_lawful.1 intOps_lawful.2 ((List.range 7).map fun i => .put (i : Int) i) (some 5) _ rfl
  [.hasNext, .next, .peek, .next] .hasNext

theorem advanceW_free (h : Nat) (it : AvlIter K V) (h1 : it.start = none) (h2 : it.stop = none) (hp : it.pos ≤ 1)
    (hsn : Sane h it) :
    ∃ it', (AvlIter.advanceW ops it).res = some it' ∧ it'.start = none ∧ it'.stop = none ∧ it'.pos ≤ 1 ∧ Sane h it' ∧
      (AvlIter.advanceW ops it).calls = 0 ∧
      (AvlIter.advanceW ops it).links + (h - it'.paths.length) ≤ 2 + (h - it.paths.length) := by
  obtain ⟨paths, curr, pos, start, stop⟩ := it
  simp only at h1 h2 hp
  subst h1 h2
  obtain ⟨sn, sst⟩ := hsn
  simp only at sn sst
  have hlen := sst.length
  cases curr with
  | nil =>
    cases sn rfl
    exact ⟨_, rfl, rfl, rfl, hp, sane_exhausted _ _ _ _, rfl, by simp [AvlIter.advanceW]⟩
  | node k v b l r =>
    match pos, hp with
    | 0, _ =>
      refine ⟨_, rfl, rfl, rfl, Nat.zero_le _, ⟨by simp, sst⟩, rfl, ?_⟩
      simp [AvlIter.advanceW, AvlIter.stepW, AvlIter.boundsW, AvlIter.boundEndW]
    | 1, _ =>
      cases r with
      | nil =>
        cases paths with
        | nil =>
          exact ⟨_, rfl, rfl, rfl, Nat.le_refl _, sane_exhausted _ _ _ _, rfl, by simp [AvlIter.advanceW, AvlIter.stepW]⟩
        | cons p ps =>
          refine ⟨_, rfl, rfl, rfl, Nat.zero_le _, ⟨?_, sst.2⟩, rfl, ?_⟩
          · intro hn
            have := sst.1
            simp only at hn
            rw [hn] at this
            simp [height] at this
          · simp only [AvlIter.advanceW, AvlIter.stepW, AvlIter.boundsW, AvlIter.boundEndW, Work.more, List.length_cons] at hlen ⊢
            omega
      | node rk rv rb rl rr =>
        obtain ⟨d1, d2, d3⟩ := descendW_stack h (.node rk rv rb rl rr) paths
          (sst.mono (by simp only [height]; omega))
        have hres := descendW_res (.node rk rv rb rl rr) paths
        have hne : (AvlIter.descend (.node rk rv rb rl rr) paths).1 ≠ .nil := by
          have : ∀ (t : Tree K V) (p : List (Tree K V)), t ≠ .nil → (AvlIter.descend t p).1 ≠ .nil := by
            intro t
            induction t with
            | nil => intro p hp; exact absurd rfl hp
            | node k v b l r ihl ihr =>
              intro p _
              cases l with
              | nil => simp [AvlIter.descend]
              | node lk lv lb ll lr =>
                simp only [AvlIter.descend] at ihl ⊢
                exact ihl _ (by simp)
          exact this _ _ (by simp)
        rcases hd : AvlIter.descendW (.node rk rv rb rl rr) paths with ⟨a, n, c, p⟩
        rw [hd] at d2 d3 hres
        rw [← hres] at d1 d2 hne
        simp only at d1 d2 d3 hne
        have hl := d1.length
        refine ⟨⟨p, c, 0, none, none⟩, ?_, rfl, rfl, Nat.zero_le _, ⟨fun h => absurd h hne, d1⟩, ?_, ?_⟩
        · simp [AvlIter.advanceW, AvlIter.stepW, hd, AvlIter.boundsW, AvlIter.boundEndW, Work.more]
        · simp [AvlIter.advanceW, AvlIter.stepW, hd, AvlIter.boundsW, AvlIter.boundEndW, Work.more]
        · simp only [AvlIter.advanceW, AvlIter.stepW, hd, AvlIter.boundsW, AvlIter.boundEndW, Work.more]
          omega

/-- C164: `Iterator()` never calls the keys' methods, whatever they would answer: creating it and making `m` calls follows at
most `2 * m + h` links, `h` the height of the tree. -/
theorem C164_full (m : SortedMap K V) (it : AvlIter K V) (hit : m.iterator ops = some it) (cs : List IterCall) :
    (AvlIter.newW ops m.root none none).calls = 0 ∧ (iterWork ops it cs).1 = 0 ∧
      (AvlIter.newW ops m.root none none).links + (iterWork ops it cs).2 ≤ 2 * cs.length + height m.root := by
  obtain ⟨n1, n2⟩ := newW_work (ops := ops) m.root none none
  have hsn := new_sane m.root none none it hit
  have hshape := new_shape m.root none none it hit
  suffices hh : ∀ it : AvlIter K V, it.start = none → it.stop = none → it.pos ≤ 1 → Sane (height m.root) it →
      (iterWork ops it cs).1 = 0 ∧ (iterWork ops it cs).2 ≤ 2 * cs.length + (height m.root - it.paths.length) by
    have hlen := hsn.stack.length
    obtain ⟨a1, a2⟩ := hh it (by rw [hshape]) (by rw [hshape]) (by rw [hshape]; simp) hsn
    refine ⟨by rw [n2]; rfl, a1, ?_⟩
    rw [n1]
    have : it.paths.length = (AvlIter.descend m.root []).2.length := by rw [hshape]
    omega
  clear n1 n2 hsn hshape hit it
  intro it h1 h2 h3 h4
  induction cs generalizing it with
  | nil => simp [iterWork]
  | cons c cs ih =>
    obtain ⟨it', e1, e2, e3, e4, e5, e6, e7⟩ := advanceW_free (ops := ops) _ it h1 h2 h3 h4
    rw [advanceW_res] at e1
    have hst := sortedCall_state it it' e1 e5.none c
    have : (iterWork ops (it.sortedCall ops c).1 cs).1 = 0 ∧
        (iterWork ops (it.sortedCall ops c).1 cs).2 ≤ 2 * cs.length + (height m.root - it'.paths.length) := by
      rcases hst with h | h <;> rw [h]
      · exact ih it' e2 e3 e4 e5
      · exact ih { it' with pos := 1 } e2 e3 (Nat.le_refl _) ⟨e5.none, e5.stack⟩
    simp only [iterWork, AvlIter.sortedCallW, Work.more, List.length_cons]
    omega

/-- Seven entries, read with `Next`, then asked again: 7 links, no comparisons; with an end the comparisons come in
addition; a start below the first key makes the first call look at all nodes on the right of the stack. -/
example : let m := (runMap intOps SortedMap.new ((List.range 7).map fun i => .put (i : Int) i)).1
    (m.iterator intOps).map (fun it => iterWork intOps it (List.replicate 7 .next ++ [.hasNext])) = some (0, 7) ∧
    (m.rangeIterator intOps none (some 4)).map (fun it => iterWork intOps it (List.replicate 4 .next ++ [.hasNext, .hasNext]))
      = some (6, 6) ∧
    (m.rangeIterator intOps (some (-1)) none).map (fun it => iterWork intOps it [.hasNext]) = some (6, 5) := by decide +kernel

end Poodle.Props
