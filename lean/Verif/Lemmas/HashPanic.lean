import Verif.Lemmas.Hash
import Verif.Spec.HashPanic

namespace Poodle
open Poodle.Spec HashTab

variable {K V : Type} {ops : HashOps K} {pol : ResizePolicy} {t : Trap K}

theorem chainGetT_or (k : K) (c : List (K × V)) (n : Nat) :
    chainGetT t ops k c n = none ∨ ∃ n', chainGetT t ops k c n = some (chainGet ops k c, n') := by
  induction c generalizing n with
  | nil => exact .inr ⟨n, rfl⟩
  | cons e es ih =>
    simp only [chainGetT, chainGet]
    rcases keyCall t n (.equal e.1 k) with - | n
    · exact .inl rfl
    · simp only
      split
      · exact .inr ⟨n, rfl⟩
      · exact ih n

theorem chainFindT_or (k : K) (v : V) (c : List (K × V)) (n : Nat) :
    chainFindT t ops k c n = none ∨ ∃ r n', chainFindT t ops k c n = some (r, n') ∧
      chainPut ops k v c = r.map (fun x => (x.2.1, x.1 ++ (k, v) :: x.2.2)) ∧ chainRemove ops k c = r.map fun x => (x.2.1, x.1 ++ x.2.2) := by
  induction c generalizing n with
  | nil => exact .inr ⟨none, n, rfl, rfl, rfl⟩
  | cons e es ih =>
    simp only [chainFindT, chainPut, chainRemove]
    rcases keyCall t n (.equal e.1 k) with - | n
    · exact .inl rfl
    · simp only
      split
      · exact .inr ⟨_, n, rfl, rfl, rfl⟩
      · rcases ih n with h | ⟨r, n', h1, h2, h3⟩
        · rw [h]; exact .inl rfl
        · rw [h1, h2, h3]
          refine .inr ⟨_, n', rfl, ?_, ?_⟩ <;> cases r <;> simp

theorem rehashChainT_or (c : List (K × V)) (arr : List (List (K × V))) (n : Nat) :
    rehashChainT t ops arr c n = none ∨ ∃ arr' n', rehashChainT t ops arr c n = some (arr', n') ∧ rehashChain ops arr c = some arr' := by
  induction c generalizing arr n with
  | nil => exact .inr ⟨arr, n, rfl, rfl⟩
  | cons e es ih =>
    simp only [rehashChainT, rehashChain]
    rcases keyCall t n (.hash e.1) with - | n
    · exact .inl rfl
    · simp only
      rcases rehash1 ops arr e with - | arr'
      · exact .inl rfl
      · exact ih arr' n

theorem rehashT_or (cs : List (List (K × V))) (arr : List (List (K × V))) (n : Nat) :
    rehashT t ops arr cs n = none ∨ ∃ arr' n', rehashT t ops arr cs n = some (arr', n') ∧ rehash ops arr cs = some arr' := by
  induction cs generalizing arr n with
  | nil => exact .inr ⟨arr, n, rfl, rfl⟩
  | cons c cs ih =>
    simp only [rehashT, rehash]
    rcases rehashChainT_or (t := t) (ops := ops) c arr n with h | ⟨arr', n', h1, h2⟩
    · rw [h]; exact .inl rfl
    · rw [h1, h2]; exact ih arr' n'

theorem resizeIfT_or (h : HashTab K V) (c : Option Int) (n : Nat) :
    h.resizeIfT t ops c n = none ∨ ∃ h', h.resizeIfT t ops c n = some h' ∧ h.resizeIf ops c = some h' := by
  cases c with
  | none => exact .inr ⟨h, rfl, rfl⟩
  | some c =>
    simp only [resizeIfT, resizeIf, resizeT, resize]
    generalize (if c < 10 then 10 else c.toNat) = m
    split
    · exact .inr ⟨h, rfl, rfl⟩
    · split
      · exact .inl rfl
      · rcases rehashT_or (t := t) (ops := ops) h.array (List.replicate m []) n with e | ⟨arr', n', h1, h2⟩
        · rw [e]; exact .inl rfl
        · rw [h1, h2]; exact .inr ⟨_, rfl, rfl⟩

/-- If no hash of a key of the table panics, resizing does not. -/
theorem rehashChainT_clean (c : List (K × V)) (arr : List (List (K × V))) (n : Nat) (hc : ∀ e ∈ c, ∀ n, t n (.hash e.1) = false)
    {arr' : List (List (K × V))} (h : rehashChain ops arr c = some arr') : ∃ n', rehashChainT t ops arr c n = some (arr', n') := by
  induction c generalizing arr n with
  | nil => simp only [rehashChain, Option.some.injEq] at h; subst h; exact ⟨n, rfl⟩
  | cons e es ih =>
    simp only [rehashChain] at h
    simp only [rehashChainT, keyCall, hc e (by simp) n, Bool.false_eq_true, if_false]
    rcases h1 : rehash1 ops arr e with - | arr1
    · simp [h1] at h
    · simp only [h1] at h ⊢
      exact ih arr1 (n + 1) (fun e he => hc e (by simp [he])) h

theorem rehashT_clean (cs : List (List (K × V))) (arr : List (List (K × V))) (n : Nat) (hc : ∀ e ∈ cs.flatten, ∀ n, t n (.hash e.1) = false)
    {arr' : List (List (K × V))} (h : rehash ops arr cs = some arr') : ∃ n', rehashT t ops arr cs n = some (arr', n') := by
  induction cs generalizing arr n with
  | nil => simp only [rehash, Option.some.injEq] at h; subst h; exact ⟨n, rfl⟩
  | cons c cs ih =>
    simp only [rehash] at h
    rcases h1 : rehashChain ops arr c with - | arr1
    · simp [h1] at h
    · simp only [h1] at h
      obtain ⟨n1, h2⟩ := rehashChainT_clean c arr n (fun e he => hc e (by simp [he])) h1
      simp only [rehashT, h2]
      exact ih arr1 n1 (fun e he => hc e (by rw [List.flatten_cons]; simp only [List.mem_append]; exact .inr he)) h

theorem resizeIfT_clean (h : HashTab K V) (c : Option Int) (n : Nat) (hc : ∀ e ∈ h.all, ∀ n, t n (.hash e.1) = false) {h' : HashTab K V}
    (hr : h.resizeIf ops c = some h') : h.resizeIfT t ops c n = some h' := by
  cases c with
  | none => exact hr
  | some c =>
    simp only [resizeIf, resize] at hr
    simp only [resizeIfT, resizeT]
    generalize (if c < 10 then 10 else c.toNat) = m at hr ⊢
    split
    · rename_i h1; rw [if_pos h1] at hr; exact hr
    · rename_i h1
      rw [if_neg h1] at hr
      split
      · rename_i h2; rw [if_pos h2] at hr; simp at hr
      · rename_i h2
        rw [if_neg h2] at hr
        rcases h3 : rehash ops (List.replicate m []) h.array with - | arr
        · simp [h3] at hr
        · obtain ⟨n', h4⟩ := rehashT_clean h.array _ n hc h3
          rw [h4]
          simpa only [h3] using hr

theorem chainFindT_clean (k : K) (c : List (K × V)) (n : Nat) (ht : ∀ n c, t n c = false) : chainFindT t ops k c n ≠ none := by
  induction c generalizing n with
  | nil => simp [chainFindT]
  | cons e es ih =>
    simp only [chainFindT, keyCall, ht, Bool.false_eq_true, if_false]
    split
    · simp
    · rcases h : chainFindT t ops k es (n + 1) with - | ⟨r, n'⟩
      · exact absurd h (ih _)
      · simp

theorem chainGetT_clean (k : K) (c : List (K × V)) (n : Nat) (ht : ∀ n c, t n c = false) : chainGetT t ops k c n ≠ none := by
  induction c generalizing n with
  | nil => simp [chainGetT]
  | cons e es ih =>
    simp only [chainGetT, keyCall, ht, Bool.false_eq_true, if_false]
    split
    · simp
    · exact ih _

/-- Without panics of methods of keys, a call does what it does in the model without panics. -/
theorem putNodeT_clean (ht : ∀ n c, t n c = false) (h : HashTab K V) (k : K) (v : V) {h' : HashTab K V} {r : Option (K × V)}
    (e : h.putNode ops pol k v = some (h', r)) : h.putNodeT t ops pol k v = (h', some r) := by
  simp only [putNode] at e
  simp only [putNodeT, keyCall, ht, Bool.false_eq_true, if_false]
  rcases h1 : index ops h.array.length k with - | i
  · simp [h1] at e
  · simp only [h1] at e ⊢
    rcases h2 : h.array[i]? with - | c
    · simp [h2] at e
    · simp only [h2] at e ⊢
      rcases chainFindT_or (t := t) (ops := ops) k v c (0 + 1) with e1 | ⟨r, n', g1, g2, -⟩
      · exact absurd e1 (chainFindT_clean k c _ ht)
      · rw [g2] at e
        rw [g1]
        rcases r with - | ⟨a, old, b⟩
        · simp only [Option.map_none] at e ⊢
          rcases h3 : resizeIf ops ⟨h.array.set i ((k, v) :: c), h.size + 1⟩
            (pol.grow (h.size + 1) (h.array.set i ((k, v) :: c)).length) with - | h''
          · simp only [h3] at e; cases e
          · rw [resizeIfT_clean _ _ n' (fun _ _ n => ht n _) h3]
            simp only [h3, Option.some.injEq, Prod.mk.injEq] at e
            obtain ⟨rfl, rfl⟩ := e
            rfl
        · simp only [Option.map_some, Option.some.injEq, Prod.mk.injEq] at e ⊢
          obtain ⟨rfl, rfl⟩ := e
          exact ⟨rfl, rfl⟩

theorem removeNodeT_clean (ht : ∀ n c, t n c = false) (h : HashTab K V) (k : K) {h' : HashTab K V} {r : Option (K × V)}
    (e : h.removeNode ops pol k = some (h', r)) : h.removeNodeT t ops pol k = (h', some r) := by
  simp only [removeNode] at e
  simp only [removeNodeT, keyCall, ht, Bool.false_eq_true, if_false]
  rcases h1 : index ops h.array.length k with - | i
  · simp [h1] at e
  · simp only [h1] at e ⊢
    rcases h2 : h.array[i]? with - | c
    · simp [h2] at e
    · simp only [h2] at e ⊢
      rcases c with - | ⟨e0, c0⟩
      · simp only [chainRemove, Option.some.injEq, Prod.mk.injEq] at e
        obtain ⟨rfl, rfl⟩ := e
        rfl
      · generalize e0 :: c0 = c at e ⊢
        rcases chainFindT_or (t := t) (ops := ops) k e0.2 c (0 + 1) with e1 | ⟨r, n', g1, -, g2⟩
        · exact absurd e1 (chainFindT_clean k c _ ht)
        · rw [g2] at e
          rw [g1]
          rcases r with - | ⟨a, old, b⟩
          · simp only [Option.map_none, Option.some.injEq, Prod.mk.injEq] at e ⊢
            obtain ⟨rfl, rfl⟩ := e
            exact ⟨rfl, rfl⟩
          · simp only [Option.map_some] at e ⊢
            rcases h3 : resizeIf ops ⟨h.array.set i (a ++ b), h.size - 1⟩
              (pol.shrink (h.size - 1) (h.array.set i (a ++ b)).length) with - | h''
            · simp only [h3] at e; cases e
            · rw [resizeIfT_clean _ _ n' (fun _ _ n => ht n _) h3]
              simp only [h3, Option.some.injEq, Prod.mk.injEq] at e
              obtain ⟨rfl, rfl⟩ := e
              rfl

theorem getNodeT_clean (ht : ∀ n c, t n c = false) (h : HashTab K V) (k : K) : h.getNodeT t ops k = h.getNode ops k := by
  simp only [getNode]
  simp only [getNodeT, keyCall, ht, Bool.false_eq_true, if_false]
  rcases h1 : index ops h.array.length k with - | i
  · rfl
  · simp only
    rcases h2 : h.array[i]? with - | c
    · rfl
    · simp only
      rcases chainGetT_or (t := t) (ops := ops) k c (0 + 1) with e1 | ⟨n', e1⟩
      · exact absurd e1 (chainGetT_clean k c _ ht)
      · rw [e1]; rfl

/-- The policy that never resizes. -/
def neverResize : ResizePolicy := ⟨fun _ _ => none, fun _ _ => none⟩

theorem putNodeT_cases (h : HashTab K V) (k : K) (v : V) :
    h.putNodeT t ops pol k v = (h, none) ∨
    (∃ h', h.putNode ops neverResize k v = some (h', none) ∧ h.putNodeT t ops pol k v = (h', none) ∧
      ∃ c n, h'.resizeIfT t ops c n = none ∧ (pol.grow h'.size h'.array.length = c)) ∨
    ∃ h' r, h.putNode ops pol k v = some (h', r) ∧ h.putNodeT t ops pol k v = (h', some r) := by
  simp only [putNodeT, putNode]
  rcases keyCall t 0 (.hash k) with - | n
  · exact .inl rfl
  · simp only
    rcases index ops h.array.length k with - | i
    · exact .inl rfl
    · simp only
      rcases h.array[i]? with - | c
      · exact .inl rfl
      · simp only
        rcases chainFindT_or (t := t) (ops := ops) k v c n with e | ⟨r, n', h1, h2, -⟩
        · rw [e]; exact .inl rfl
        · rw [h1, h2]
          rcases r with - | ⟨a, old, b⟩
          · simp only [Option.map_none]
            rcases resizeIfT_or (t := t) (ops := ops) ⟨h.array.set i ((k, v) :: c), h.size + 1⟩
              (pol.grow (h.size + 1) (h.array.set i ((k, v) :: c)).length) n' with e | ⟨h', e1, e2⟩
            · rw [e]
              exact .inr (.inl ⟨_, rfl, rfl, _, n', e, rfl⟩)
            · rw [e1, e2]
              exact .inr (.inr ⟨_, _, rfl, rfl⟩)
          · exact .inr (.inr ⟨_, _, rfl, rfl⟩)

theorem removeNodeT_cases (h : HashTab K V) (k : K) :
    h.removeNodeT t ops pol k = (h, none) ∨
    (∃ h' old, h.removeNode ops neverResize k = some (h', some old) ∧ h.removeNodeT t ops pol k = (h', none) ∧
      ∃ c n, h'.resizeIfT t ops c n = none ∧ (pol.shrink h'.size h'.array.length = c)) ∨
    ∃ h' r, h.removeNode ops pol k = some (h', r) ∧ h.removeNodeT t ops pol k = (h', some r) := by
  simp only [removeNodeT, removeNode]
  rcases keyCall t 0 (.hash k) with - | n
  · exact .inl rfl
  · simp only
    rcases index ops h.array.length k with - | i
    · exact .inl rfl
    · simp only
      rcases h.array[i]? with - | c
      · exact .inl rfl
      · simp only
        rcases c with - | ⟨e0, c0⟩
        · exact .inr (.inr ⟨_, _, rfl, rfl⟩)
        · generalize hc : e0 :: c0 = c
          rcases chainFindT_or (t := t) (ops := ops) k e0.2 c n with e | ⟨r, n', h1, -, h2⟩
          · rw [e]; exact .inl rfl
          · rw [h1, h2]
            rcases r with - | ⟨a, old, b⟩
            · exact .inr (.inr ⟨_, _, rfl, rfl⟩)
            · simp only [Option.map_some]
              rcases resizeIfT_or (t := t) (ops := ops) ⟨h.array.set i (a ++ b), h.size - 1⟩
                (pol.shrink (h.size - 1) (h.array.set i (a ++ b)).length) n' with e | ⟨h', e1, e2⟩
              · rw [e]
                exact .inr (.inl ⟨_, old, rfl, rfl, _, n', e, rfl⟩)
              · rw [e1, e2]
                exact .inr (.inr ⟨_, _, rfl, rfl⟩)

theorem getNodeT_or (h : HashTab K V) (k : K) : h.getNodeT t ops k = none ∨ h.getNodeT t ops k = h.getNode ops k := by
  simp only [getNodeT, getNode]
  rcases keyCall t 0 (.hash k) with - | n
  · exact .inl rfl
  · simp only
    rcases index ops h.array.length k with - | i
    · exact .inl rfl
    · simp only
      rcases h.array[i]? with - | c
      · exact .inl rfl
      · simp only
        rcases chainGetT_or (t := t) (ops := ops) k c n with e | ⟨n', e⟩
        · rw [e]; exact .inl rfl
        · rw [e]; exact .inr rfl

end Poodle
