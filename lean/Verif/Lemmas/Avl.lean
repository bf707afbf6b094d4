import Verif.Spec.Map
import Mathlib.Tactic.Common

set_option linter.unreachableTactic false
set_option linter.unusedTactic false
set_option linter.unnecessarySeqFocus false
namespace Poodle
open Poodle.Spec

variable {K V : Type}

/-! ### Rebalancing -/

/-- Result of the rebalancing step after an insertion. -/
def PutOk (orig T : Tree K V) (done : Bool) : Prop :=
  (done = true → height T = height orig) ∧
    (done = false → height T = height orig + 1 ∧ (T.bal? = some 0 → orig = .nil))

theorem height_pos_iff (t : Tree K V) : 0 < height t ↔ t ≠ .nil := by
  cases t <;> simp [height]

theorem putFinish_true (k : K) (v : V) (b : Int) (l r t : Tree K V) (old : Option (K × V)) (done : Bool)
    (hb : Balanced (.node k v b l r)) (ht : Balanced t) (hd : PutOk r t done) :
    ∃ T done', Tree.putFinish k v b l r true t old done = (T, some (old, done')) ∧
      entries T = entries l ++ (k, v) :: entries t ∧ Balanced T ∧ PutOk (.node k v b l r) T done' := by
  obtain ⟨h1, h2, h3, hl, hr⟩ := hb
  obtain ⟨d1, d2⟩ := hd
  cases done with
  | true =>
    have d1 := d1 rfl
    refine ⟨.node k v b l t, true, by simp [Tree.putFinish], rfl, ⟨by omega, h2, h3, hl, ht⟩, ?_, by simp⟩
    simp [height, d1]
  | false =>
    replace ⟨d2, d3⟩ := d2 rfl
    by_cases hb0 : b + 1 = 0
    · refine ⟨.node k v (b + 1) l t, true, by simp [Tree.putFinish, Tree.dirBal, hb0], rfl,
        ⟨by omega, by omega, by omega, hl, ht⟩, ?_, by simp⟩
      intro _; simp only [height]; omega
    · by_cases hb1 : b + 1 = 1
      · refine ⟨.node k v (b + 1) l t, false, by simp [Tree.putFinish, Tree.dirBal, hb1], rfl,
          ⟨by omega, by omega, by omega, hl, ht⟩, by simp, ?_⟩
        intro _
        refine ⟨by simp only [height]; omega, ?_⟩
        simp [Tree.bal?, hb1]
      · have hb2 : b = 1 := by omega
        subst hb2
        have hrne : r ≠ .nil := by rw [← height_pos_iff]; omega
        cases t with
        | nil => simp [height] at d2
        | node tk tv tb tl tr =>
          obtain ⟨t1, t2, t3, htl, htr⟩ := ht
          have htb : tb ≠ 0 := fun h => hrne (d3 (by simp [Tree.bal?, h]))
          simp only [height] at d2
          by_cases htb1 : tb = 1
          · subst htb1
            refine ⟨.node tk tv 0 (.node k v 0 l tl) tr, true, ?_, ?_, ?_, ?_, by simp⟩
            · simp [Tree.putFinish, Tree.dirBal, Tree.putBalance, Tree.link?, Tree.bal?, Tree.setBal?, Tree.setLink?,
                Tree.single]
            · simp [entries]
            · simp only [Balanced, height]; refine ⟨?_, by decide, by decide, ⟨?_, by decide, by decide, hl, htl⟩, htr⟩ <;> omega
            · intro _; simp only [height]; omega
          · have : tb = -1 := by omega
            subst this
            cases tl with
            | nil => simp [height] at t1 <;> omega
            | node nk nv nb nl nr =>
              obtain ⟨n1, n2, n3, hnl, hnr⟩ := htl
              simp only [height] at t1 d2
              refine ⟨.node nk nv 0 (.node k v (if nb = 1 then -1 else 0) l nl)
                (.node tk tv (if nb = -1 then 1 else 0) nr tr), true, ?_, ?_, ?_, ?_, by simp⟩
              · rcases (by omega : nb = -1 ∨ nb = 0 ∨ nb = 1) with rfl | rfl | rfl <;>
                simp [Tree.putFinish, Tree.dirBal, Tree.putBalance, Tree.link?, Tree.bal?, Tree.setBal?, Tree.setLink?,
                Tree.double, Tree.adjustBalance]
              · simp [entries]
              · simp only [Balanced, height]
                refine ⟨?_, by decide, by decide, ⟨?_, ?_, ?_, hl, hnl⟩, ⟨?_, ?_, ?_, hnr, htr⟩⟩ <;> (try split) <;> omega
              · intro _; simp only [height]; omega

theorem putFinish_false (k : K) (v : V) (b : Int) (l r t : Tree K V) (old : Option (K × V)) (done : Bool)
    (hb : Balanced (.node k v b l r)) (ht : Balanced t) (hd : PutOk l t done) :
    ∃ T done', Tree.putFinish k v b l r false t old done = (T, some (old, done')) ∧
      entries T = entries t ++ (k, v) :: entries r ∧ Balanced T ∧ PutOk (.node k v b l r) T done' := by
  obtain ⟨h1, h2, h3, hl, hr⟩ := hb
  obtain ⟨d1, d2⟩ := hd
  cases done with
  | true =>
    have d1 := d1 rfl
    refine ⟨.node k v b t r, true, by simp [Tree.putFinish], rfl, ⟨by omega, h2, h3, ht, hr⟩, ?_, by simp⟩
    simp [height, d1]
  | false =>
    replace ⟨d2, d3⟩ := d2 rfl
    by_cases hb0 : b = 1
    · refine ⟨.node k v 0 t r, true, by simp [Tree.putFinish, Tree.dirBal, hb0], rfl,
        ⟨by omega, by omega, by omega, ht, hr⟩, ?_, by simp⟩
      intro _; simp only [height]; omega
    · by_cases hb1 : b = 0
      · refine ⟨.node k v (-1) t r, false, by simp [Tree.putFinish, Tree.dirBal, hb1], rfl,
          ⟨by omega, by omega, by omega, ht, hr⟩, by simp, ?_⟩
        intro _
        refine ⟨by simp only [height]; omega, ?_⟩
        simp [Tree.bal?]
      · have hb2 : b = -1 := by omega
        subst hb2
        have hrne : l ≠ .nil := by rw [← height_pos_iff]; omega
        cases t with
        | nil => simp [height] at d2
        | node tk tv tb tl tr =>
          obtain ⟨t1, t2, t3, htl, htr⟩ := ht
          have htb : tb ≠ 0 := fun h => hrne (d3 (by simp [Tree.bal?, h]))
          simp only [height] at d2
          by_cases htb1 : tb = -1
          · subst htb1
            refine ⟨.node tk tv 0 tl (.node k v 0 tr r), true, ?_, ?_, ?_, ?_, by simp⟩
            · simp [Tree.putFinish, Tree.dirBal, Tree.putBalance, Tree.link?, Tree.bal?, Tree.setBal?, Tree.setLink?,
                Tree.single]
            · simp [entries]
            · simp only [Balanced, height]; refine ⟨?_, by decide, by decide, htl, ⟨?_, by decide, by decide, htr, hr⟩⟩ <;> omega
            · intro _; simp only [height]; omega
          · have : tb = 1 := by omega
            subst this
            cases tr with
            | nil => simp [height] at t1 <;> omega
            | node nk nv nb nl nr =>
              obtain ⟨n1, n2, n3, hnl, hnr⟩ := htr
              simp only [height] at t1 d2
              refine ⟨.node nk nv 0 (.node tk tv (if nb = 1 then -1 else 0) tl nl)
                (.node k v (if nb = -1 then 1 else 0) nr r), true, ?_, ?_, ?_, ?_, by simp⟩
              · rcases (by omega : nb = -1 ∨ nb = 0 ∨ nb = 1) with rfl | rfl | rfl <;>
                simp [Tree.putFinish, Tree.dirBal, Tree.putBalance, Tree.link?, Tree.bal?, Tree.setBal?, Tree.setLink?,
                Tree.double, Tree.adjustBalance]
              · simp [entries]
              · simp only [Balanced, height]
                refine ⟨?_, by decide, by decide, ⟨?_, ?_, ?_, htl, hnl⟩, ⟨?_, ?_, ?_, hnr, hr⟩⟩ <;> (try split) <;> omega
              · intro _; simp only [height]; omega

/-- Result of the rebalancing step after a removal. -/
def RemOk (orig T : Tree K V) (done : Bool) : Prop :=
  (done = true → height T = height orig) ∧ (done = false → height T + 1 = height orig)

theorem removeFinish_false (k0 : K) (v0 : V) (k : K) (v : V) (b : Int) (l r t : Tree K V) (old : Option (K × V)) (done : Bool)
    (hb : Balanced (.node k0 v0 b l r)) (ht : Balanced t) (hd : RemOk l t done) :
    ∃ T done', Tree.removeFinish k v b l r false t old done = (T, some (old, done')) ∧
      entries T = entries t ++ (k, v) :: entries r ∧ Balanced T ∧ RemOk (.node k0 v0 b l r) T done' := by
  obtain ⟨h1, h2, h3, hl, hr⟩ := hb
  obtain ⟨d1, d2⟩ := hd
  cases done with
  | true =>
    have d1 := d1 rfl
    refine ⟨.node k v b t r, true, by simp [Tree.removeFinish], rfl, ⟨by omega, h2, h3, ht, hr⟩, ?_, by simp⟩
    simp [height, d1]
  | false =>
    have d2 := d2 rfl
    by_cases hb0 : b = 0
    · refine ⟨.node k v 1 t r, true, by simp [Tree.removeFinish, Tree.dirBal, hb0], rfl,
        ⟨by omega, by omega, by omega, ht, hr⟩, ?_, by simp⟩
      intro _; simp only [height]; omega
    · by_cases hb1 : b = -1
      · refine ⟨.node k v 0 t r, false, by simp [Tree.removeFinish, Tree.dirBal, hb1], rfl,
          ⟨by omega, by omega, by omega, ht, hr⟩, by simp, ?_⟩
        intro _; simp only [height]; omega
      · have hb2 : b = 1 := by omega
        subst hb2
        cases r with
        | nil => simp [height] at h1 <;> omega
        | node rk rv rb rl rr =>
          obtain ⟨r1, r2, r3, hrl, hrr⟩ := hr
          simp only [height] at h1
          rcases (by omega : rb = 1 ∨ rb = 0 ∨ rb = -1) with rfl | rfl | rfl
          · refine ⟨.node rk rv 0 (.node k v 0 t rl) rr, false, ?_, ?_, ?_, by simp, ?_⟩
            · simp [Tree.removeFinish, Tree.dirBal, Tree.removeBalance, Tree.link?, Tree.bal?, Tree.setBal?, Tree.setLink?,
                Tree.single]
            · simp [entries]
            · simp only [Balanced, height]; refine ⟨?_, by decide, by decide, ⟨?_, by decide, by decide, ht, hrl⟩, hrr⟩ <;> omega
            · intro _; simp only [height]; omega
          · refine ⟨.node rk rv (-1) (.node k v 1 t rl) rr, true, ?_, ?_, ?_, ?_, by simp⟩
            · simp [Tree.removeFinish, Tree.dirBal, Tree.removeBalance, Tree.link?, Tree.bal?, Tree.setBal?, Tree.setLink?,
                Tree.single]
            · simp [entries]
            · simp only [Balanced, height]; refine ⟨?_, by decide, by decide, ⟨?_, by decide, by decide, ht, hrl⟩, hrr⟩ <;> omega
            · intro _; simp only [height]; omega
          · cases rl with
            | nil => simp [height] at r1 <;> omega
            | node nk nv nb nl nr =>
              obtain ⟨n1, n2, n3, hnl, hnr⟩ := hrl
              simp only [height] at h1 r1
              refine ⟨.node nk nv 0 (.node k v (if nb = 1 then -1 else 0) t nl)
                (.node rk rv (if nb = -1 then 1 else 0) nr rr), false, ?_, ?_, ?_, by simp, ?_⟩
              · rcases (by omega : nb = -1 ∨ nb = 0 ∨ nb = 1) with rfl | rfl | rfl <;>
                simp [Tree.removeFinish, Tree.dirBal, Tree.removeBalance, Tree.link?, Tree.bal?, Tree.setBal?, Tree.setLink?,
                Tree.double, Tree.adjustBalance]
              · simp [entries]
              · simp only [Balanced, height]
                refine ⟨?_, by decide, by decide, ⟨?_, ?_, ?_, ht, hnl⟩, ⟨?_, ?_, ?_, hnr, hrr⟩⟩ <;> (try split) <;> omega
              · intro _; simp only [height]; omega

theorem removeFinish_true (k0 : K) (v0 : V) (k : K) (v : V) (b : Int) (l r t : Tree K V) (old : Option (K × V)) (done : Bool)
    (hb : Balanced (.node k0 v0 b l r)) (ht : Balanced t) (hd : RemOk r t done) :
    ∃ T done', Tree.removeFinish k v b l r true t old done = (T, some (old, done')) ∧
      entries T = entries l ++ (k, v) :: entries t ∧ Balanced T ∧ RemOk (.node k0 v0 b l r) T done' := by
  obtain ⟨h1, h2, h3, hl, hr⟩ := hb
  obtain ⟨d1, d2⟩ := hd
  cases done with
  | true =>
    have d1 := d1 rfl
    refine ⟨.node k v b l t, true, by simp [Tree.removeFinish], rfl, ⟨by omega, h2, h3, hl, ht⟩, ?_, by simp⟩
    simp [height, d1]
  | false =>
    have d2 := d2 rfl
    by_cases hb0 : b = 0
    · refine ⟨.node k v (-1) l t, true, by simp [Tree.removeFinish, Tree.dirBal, hb0], rfl,
        ⟨by omega, by omega, by omega, hl, ht⟩, ?_, by simp⟩
      intro _; simp only [height]; omega
    · by_cases hb1 : b = 1
      · refine ⟨.node k v 0 l t, false, by simp [Tree.removeFinish, Tree.dirBal, hb1], rfl,
          ⟨by omega, by omega, by omega, hl, ht⟩, by simp, ?_⟩
        intro _; simp only [height]; omega
      · have hb2 : b = -1 := by omega
        subst hb2
        cases l with
        | nil => simp [height] at h1 <;> omega
        | node rk rv rb rl rr =>
          obtain ⟨r1, r2, r3, hrl, hrr⟩ := hl
          simp only [height] at h1
          rcases (by omega : rb = -1 ∨ rb = 0 ∨ rb = 1) with rfl | rfl | rfl
          · refine ⟨.node rk rv 0 rl (.node k v 0 rr t), false, ?_, ?_, ?_, by simp, ?_⟩
            · simp [Tree.removeFinish, Tree.dirBal, Tree.removeBalance, Tree.link?, Tree.bal?, Tree.setBal?, Tree.setLink?,
                Tree.single]
            · simp [entries]
            · simp only [Balanced, height]; refine ⟨?_, by decide, by decide, hrl, ⟨?_, by decide, by decide, hrr, ht⟩⟩ <;> omega
            · intro _; simp only [height]; omega
          · refine ⟨.node rk rv 1 rl (.node k v (-1) rr t), true, ?_, ?_, ?_, ?_, by simp⟩
            · simp [Tree.removeFinish, Tree.dirBal, Tree.removeBalance, Tree.link?, Tree.bal?, Tree.setBal?, Tree.setLink?,
                Tree.single]
            · simp [entries]
            · simp only [Balanced, height]; refine ⟨?_, by decide, by decide, hrl, ⟨?_, by decide, by decide, hrr, ht⟩⟩ <;> omega
            · intro _; simp only [height]; omega
          · cases rr with
            | nil => simp [height] at r1 <;> omega
            | node nk nv nb nl nr =>
              obtain ⟨n1, n2, n3, hnl, hnr⟩ := hrr
              simp only [height] at h1 r1
              refine ⟨.node nk nv 0 (.node rk rv (if nb = 1 then -1 else 0) rl nl)
                (.node k v (if nb = -1 then 1 else 0) nr t), false, ?_, ?_, ?_, by simp, ?_⟩
              · rcases (by omega : nb = -1 ∨ nb = 0 ∨ nb = 1) with rfl | rfl | rfl <;>
                simp [Tree.removeFinish, Tree.dirBal, Tree.removeBalance, Tree.link?, Tree.bal?, Tree.setBal?, Tree.setLink?,
                Tree.double, Tree.adjustBalance]
              · simp [entries]
              · simp only [Balanced, height]
                refine ⟨?_, by decide, by decide, ⟨?_, ?_, ?_, hrl, hnl⟩, ⟨?_, ?_, ?_, hnr, ht⟩⟩ <;> (try split) <;> omega
              · intro _; simp only [height]; omega

end Poodle
