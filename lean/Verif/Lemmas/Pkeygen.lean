import Verif.Model.Pkeygen
import Verif.Lemmas.KeyFile
import Verif.Spec.Pkeygen

/-
Lemmas about the file system with directories and links.
-/

namespace Poodle
open Poodle.Spec

/-! ### Paths -/

theorem splitPath_ne_nil (p : Path) : splitPath p ≠ [] := by
  cases p with
  | nil => simp [splitPath]
  | cons c p =>
    rw [splitPath]
    split
    · simp
    · split <;> simp

theorem splitPath_slash (a b : Path) : splitPath (a ++ '/' :: b) = splitPath a ++ splitPath b := by
  induction a with
  | nil =>
    rw [List.nil_append]
    rcases h : splitPath b with - | ⟨x, xs⟩
    · exact absurd h (splitPath_ne_nil b)
    · simp only [splitPath, h]; rfl
  | cons c a ih =>
    rw [List.cons_append, splitPath, ih]
    rcases h : splitPath a with - | ⟨x, xs⟩
    · exact absurd h (splitPath_ne_nil a)
    · rw [splitPath, h]
      simp only [List.cons_append]
      split <;> rfl

theorem splitPath_name {a : Path} (h : '/' ∉ a) : splitPath a = [a] := by
  induction a with
  | nil => rfl
  | cons c a ih =>
    simp only [List.mem_cons, not_or] at h
    rw [splitPath, ih h.2]
    simp only
    rw [if_neg (Ne.symm h.1)]

theorem splitPath_etcDir (c : KeyClass) : splitPath (etcDir c) = [] :: etcNames c := by cases c <;> decide

theorem splitPath_etc (c : KeyClass) (a : Path) (h : '/' ∉ a) : splitPath (etcDir c ++ "/".toList ++ a) = [] :: (etcNames c ++ [a]) := by
  have : etcDir c ++ "/".toList ++ a = etcDir c ++ '/' :: a := by simp
  rw [this, splitPath_slash, splitPath_etcDir, splitPath_name h]
  rfl

theorem splitPath_keyDir (c : KeyClass) (a : Path) (h : '/' ∉ a) : splitPath (keyDir c a) = [] :: (etcNames c ++ [a]) := splitPath_etc c a h

theorem privKeyPath_eq (c : KeyClass) (a : Path) : privKeyPath c a = keyDir c a ++ '/' :: privName c := by cases c <;> rfl

theorem pubKeyPath_eq (c : KeyClass) (a : Path) : pubKeyPath c a = keyDir c a ++ '/' :: pubName c := by cases c <;> rfl

theorem privName_slash (c : KeyClass) : '/' ∉ privName c := by cases c <;> decide

theorem pubName_slash (c : KeyClass) : '/' ∉ pubName c := by cases c <;> decide

theorem splitPath_priv (c : KeyClass) (a : Path) (h : '/' ∉ a) :
    splitPath (privKeyPath c a) = [] :: (etcNames c ++ [a] ++ [privName c]) := by
  rw [privKeyPath_eq, splitPath_slash, splitPath_keyDir c a h, splitPath_name (privName_slash c)]
  rfl

theorem splitPath_pub (c : KeyClass) (a : Path) (h : '/' ∉ a) :
    splitPath (pubKeyPath c a) = [] :: (etcNames c ++ [a] ++ [pubName c]) := by
  rw [pubKeyPath_eq, splitPath_slash, splitPath_keyDir c a h, splitPath_name (pubName_slash c)]
  rfl

theorem proper_etc (c : KeyClass) : ∀ n ∈ etcNames c, Proper n := by cases c <;> unfold Proper <;> decide

theorem proper_priv (c : KeyClass) : Proper (privName c) := by cases c <;> unfold Proper <;> decide

theorem proper_pub (c : KeyClass) : Proper (pubName c) := by cases c <;> unfold Proper <;> decide

theorem pub_ne_priv_name (c : KeyClass) : pubName c ≠ privName c := by cases c <;> decide

/-! ### Entries -/

namespace FsTree

variable {t s : FsTree}

theorem get_set_self (t : FsTree) (p : List Path) (e : FsEntry) : (t.set p e).get p = some e := by simp [get, set]

theorem get_set_ne (t : FsTree) {p q : List Path} (e : FsEntry) (h : q ≠ p) : (t.set p e).get q = t.get q := by
  simp [get, set, Ne.symm h]

theorem get_erase_self (t : FsTree) (p : List Path) : (t.erase p).get p = none := by
  simp only [get, erase, Option.map_eq_none_iff, List.find?_eq_none]
  intro x hx
  have := (List.mem_filter.mp hx).2
  simpa using this

theorem get_erase_ne (t : FsTree) {p q : List Path} (h : q ≠ p) : (t.erase p).get q = t.get q := by
  simp only [get, erase]
  congr 1
  induction t.entries with
  | nil => rfl
  | cons e es ih =>
    by_cases hp : e.1 = p
    · rw [List.filter_cons_of_neg (by simpa using hp), List.find?_cons_of_neg (by simp [hp, Ne.symm h]), ih]
    · rw [List.filter_cons_of_pos (by simpa using hp)]
      by_cases hq : e.1 = q
      · rw [List.find?_cons_of_pos (by simpa using hq), List.find?_cons_of_pos (by simpa using hq)]
      · rw [List.find?_cons_of_neg (by simpa using hq), List.find?_cons_of_neg (by simpa using hq), ih]

theorem get_ne_none (t : FsTree) (p : List Path) : t.get p ≠ none ↔ ∃ e ∈ t.entries, e.1 = p := by
  simp only [get, ne_eq, Option.map_eq_none_iff, List.find?_eq_none, not_forall, decide_eq_true_eq, not_not, exists_prop]

theorem hasChild_iff (t : FsTree) (p : List Path) : t.hasChild p = true ↔ ∃ n, t.get (p ++ [n]) ≠ none := by
  simp only [hasChild, List.any_eq_true, decide_eq_true_eq]
  constructor
  · rintro ⟨e, he, h1, h2⟩
    refine ⟨e.1.getLast h1, (get_ne_none t _).mpr ⟨e, he, ?_⟩⟩
    rw [← h2, List.dropLast_append_getLast]
  · rintro ⟨n, hn⟩
    obtain ⟨e, he, h⟩ := (get_ne_none t _).mp hn
    exact ⟨e, he, by simp [h], by simp [h]⟩

/-! ### Resolution -/

theorem walk_skip (t : FsTree) (cur rest : List Path) : t.walk cur ([] :: rest) = t.walk cur rest := by
  rw [walk, if_pos (.inl rfl)]

theorem walk_proper (t : FsTree) (cur rest : List Path) {n : Path} (h : Proper n) : t.walk cur (n :: rest) =
    match t.get (cur ++ [n]) with
      | none => .stop (if rest = [] then .absent (cur ++ [n]) else .noEnt)
      | some .dir => t.walk (cur ++ [n]) rest
      | some (.file c) => .stop (if rest = [] then .file (cur ++ [n]) c else .notDir)
      | some (.link l) => .link cur l rest := by
  rw [walk, if_neg (by rintro (h' | h'); exacts [h.1 h', h.2.1 h']), if_neg h.2.2]
  rcases t.get (cur ++ [n]) with - | - | - | - <;> rfl

/-- All places on the way to `p` are directories. -/
def AllDirs (t : FsTree) (p : List Path) : Prop := ∀ q, q ≠ [] → q <+: p → t.get q = some .dir

/-- On the way to `p` there are only directories, as far as it exists. -/
def NoLinks (t : FsTree) (p : List Path) : Prop := ∀ q, q ≠ [] → q <+: p → t.get q = none ∨ t.get q = some .dir

theorem AllDirs.prefix {p q : List Path} (h : t.AllDirs p) (hq : q <+: p) : t.AllDirs q := fun r h0 hr => h r h0 (hr.trans hq)

theorem NoLinks.prefix {p q : List Path} (h : t.NoLinks p) (hq : q <+: p) : t.NoLinks q := fun r h0 hr => h r h0 (hr.trans hq)

theorem allDirs_snoc {p : List Path} {n : Path} : t.AllDirs (p ++ [n]) ↔ t.AllDirs p ∧ t.get (p ++ [n]) = some .dir := by
  constructor
  · intro h
    exact ⟨h.prefix (List.prefix_append _ _), h _ (by simp) (List.prefix_refl _)⟩
  · rintro ⟨h1, h2⟩ q h0 hq
    rcases List.prefix_concat_iff.mp hq with rfl | hq
    · exact h2
    · exact h1 q h0 hq

theorem allDirs_nil : t.AllDirs [] := fun _ h0 hq => absurd (List.prefix_nil.mp hq) h0

theorem walk_dirs (t : FsTree) (names : List Path) (hp : ∀ n ∈ names, Proper n) (cur rest : List Path)
    (h : t.AllDirs (cur ++ names)) : t.walk cur (names ++ rest) = t.walk (cur ++ names) rest := by
  induction names generalizing cur with
  | nil => simp
  | cons n ns ih =>
    have hd : t.get (cur ++ [n]) = some .dir := h _ (by simp) (by simp)
    rw [List.cons_append, walk_proper _ _ _ (hp n (by simp)), hd]
    simp only
    rw [ih (fun m hm => hp m (by simp [hm])) (cur ++ [n]) (by simpa using h)]
    simp

/-- Walking where there are no links. -/
theorem walk_noLinks (t : FsTree) (names : List Path) (hp : ∀ n ∈ names, Proper n) (cur : List Path) (hc : t.AllDirs cur)
    (h : t.NoLinks (cur ++ names)) :
    (t.AllDirs (cur ++ names) ∧ t.walk cur names = .stop (.dir (cur ++ names))) ∨
    ∃ a n b, names = a ++ n :: b ∧ t.AllDirs (cur ++ a) ∧ t.get (cur ++ a ++ [n]) = none ∧
      t.walk cur names = .stop (if b = [] then .absent (cur ++ a ++ [n]) else .noEnt) := by
  induction names generalizing cur with
  | nil => exact .inl ⟨by simpa using hc, by simp [walk]⟩
  | cons n ns ih =>
    rw [walk_proper _ _ _ (hp n (by simp))]
    rcases h (cur ++ [n]) (by simp) (by simp) with hn | hn
    · right
      refine ⟨[], n, ns, rfl, by simpa using hc, by simpa using hn, ?_⟩
      rw [hn]; simp
    · rw [hn]
      simp only
      rcases ih (fun m hm => hp m (by simp [hm])) (cur ++ [n]) (allDirs_snoc.mpr ⟨hc, hn⟩) (by simpa using h) with ⟨h1, h2⟩ | ⟨a, m, b, h1, h2, h3, h4⟩
      · left
        exact ⟨by simpa using h1, by rw [h2]; simp⟩
      · right
        exact ⟨n :: a, m, b, by simp [h1], by simpa using h2, by simpa using h3, by rw [h4]; simp⟩

theorem resolve_walk {k : Nat} {cur rest : List Path} {l : FsLook} (h : t.walk cur rest = .stop l) : t.resolve k cur rest = l := by
  cases k <;> rw [resolve, h]

theorem resolve_skip (k : Nat) (cur rest : List Path) : t.resolve k cur ([] :: rest) = t.resolve k cur rest := by
  cases k <;> simp [resolve, walk_skip]

/-- Looking up a directory whose way has no links. -/
theorem resolve_noLinks (t : FsTree) (k : Nat) (names : List Path) (hp : ∀ n ∈ names, Proper n) (h : t.NoLinks names) :
    (t.AllDirs names ∧ t.resolve k [] ([] :: names) = .dir names) ∨
    (∃ a n b, names = a ++ n :: b ∧ t.AllDirs a ∧ t.get (a ++ [n]) = none ∧
      t.resolve k [] ([] :: names) = (if b = [] then .absent (a ++ [n]) else .noEnt)) := by
  rw [resolve_skip]
  rcases walk_noLinks t names hp [] allDirs_nil (by simpa using h) with ⟨h1, h2⟩ | ⟨a, n, b, h1, h2, h3, h4⟩
  · exact .inl ⟨by simpa using h1, by rw [resolve_walk h2]; simp⟩
  · exact .inr ⟨a, n, b, h1, by simpa using h2, by simpa using h3, by rw [resolve_walk h4]; simp⟩

theorem resolve_allDirs (t : FsTree) (k : Nat) (names : List Path) (hp : ∀ n ∈ names, Proper n) (h : t.AllDirs names) :
    t.resolve k [] ([] :: names) = .dir names := by
  rw [resolve_skip]
  have := walk_dirs t names hp [] [] (by simpa using h)
  rw [List.append_nil] at this
  rw [resolve_walk (l := .dir names)]
  rw [this, walk]
  simp

/-- The end of the way, in a directory that exists. -/
theorem resolve_last (t : FsTree) (k : Nat) (names : List Path) (hp : ∀ n ∈ names, Proper n) (h : t.AllDirs names) (n : Path) (hn : Proper n) :
    t.resolve k [] ([] :: (names ++ [n])) = match t.get (names ++ [n]) with
      | none => .absent (names ++ [n])
      | some .dir => .dir (names ++ [n])
      | some (.file c) => .file (names ++ [n]) c
      | some (.link l) => match k with
        | 0 => .loop
        | k + 1 => t.resolve k (if l.head? = some '/' then [] else names) (splitPath l) := by
  have hw : t.walk [] (names ++ [n]) = _ := walk_dirs t names hp [] [n] (by simpa using h)
  rw [List.nil_append, walk_proper _ _ _ hn] at hw
  rw [resolve_skip]
  rcases hg : t.get (names ++ [n]) with - | c | - | l
  · rw [hg] at hw; exact resolve_walk (by simpa using hw)
  · rw [hg] at hw; exact resolve_walk (by simpa using hw)
  · rw [hg] at hw; exact resolve_walk (by simpa [walk] using hw)
  · rw [hg] at hw
    cases k with
    | zero => rw [resolve, hw]
    | succ k => rw [resolve, hw]; simp

theorem place_dirs (t : FsTree) (names : List Path) (hp : ∀ n ∈ names, Proper n) (h : t.AllDirs names) (n : Path) (hn : Proper n) :
    t.place ([] :: (names ++ [n])) = some (names ++ [n]) := by
  have e : ([] : Path) :: (names ++ [n]) = ([] :: names) ++ [n] := rfl
  rw [place, e, List.getLast?_concat, List.dropLast_concat]
  simp only
  rw [if_neg (by rintro (h' | h' | h'); exacts [hn.1 h', hn.2.1 h', hn.2.2 h']), resolve_allDirs t 40 names hp h]

/-- A place in a directory that does not exist. -/
theorem place_noLinks (t : FsTree) (names : List Path) (hp : ∀ n ∈ names, Proper n) (h : t.NoLinks names) (hd : ¬ t.AllDirs names) (n : Path) :
    t.place ([] :: (names ++ [n])) = none := by
  have e : ([] : Path) :: (names ++ [n]) = ([] :: names) ++ [n] := rfl
  rw [place, e, List.getLast?_concat, List.dropLast_concat]
  simp only
  split
  · rfl
  · rcases resolve_noLinks t 40 names hp h with ⟨h1, -⟩ | ⟨a, m, b, -, -, -, h4⟩
    · exact absurd h1 hd
    · rw [h4]
      split
      · rename_i heq; split at heq <;> simp at heq
      · rfl

/-! ### Making directories -/

/-- `s` is `t` with directories added on the way to `p`. -/
def Grow (p : List Path) (t s : FsTree) : Prop :=
  ∀ q, s.get q = t.get q ∨ (q ≠ [] ∧ q <+: p ∧ t.get q = none ∧ s.get q = some .dir)

theorem Grow.refl (p : List Path) (t : FsTree) : Grow p t t := fun _ => .inl rfl

theorem Grow.trans {p : List Path} {t s u : FsTree} (h1 : Grow p t s) (h2 : Grow p s u) : Grow p t u := by
  intro q
  rcases h2 q with e | ⟨a, b, c, d⟩
  · rw [e]; exact h1 q
  · rcases h1 q with e | ⟨_, _, c', d'⟩
    · right; exact ⟨a, b, by rw [← e, c], d⟩
    · rw [d'] at c; simp at c

theorem Grow.allDirs {p q : List Path} {t s : FsTree} (h : Grow p t s) (hd : t.AllDirs q) : s.AllDirs q := by
  intro r h0 hr
  rcases h r with e | ⟨_, _, c, d⟩
  · rw [e, hd r h0 hr]
  · exact d

theorem Grow.noLinks {p q : List Path} {t s : FsTree} (h : Grow p t s) (hd : t.NoLinks q) : s.NoLinks q := by
  intro r h0 hr
  rcases h r with e | ⟨_, _, c, d⟩
  · rw [e]; exact hd r h0 hr
  · exact .inr d

theorem grow_set {p q : List Path} {t : FsTree} (h0 : q ≠ []) (hq : q <+: p) (hn : t.get q = none) : Grow p t (t.set q .dir) := by
  intro r
  by_cases e : r = q
  · subst e; right; exact ⟨h0, hq, hn, get_set_self _ _ _⟩
  · left; exact get_set_ne _ _ e

theorem mkdirAll_spec (b : List Path) : ∀ (a : List Path) (n : Nat) (t : FsTree), (∀ m ∈ a ++ b, Proper m) → t.AllDirs a → t.NoLinks (a ++ b) →
    (∀ s ∈ (mkdirAllT n (prefixes ([] :: a) b) t).1, Grow (a ++ b) t s) ∧
    Grow (a ++ b) t (mkdirAllT n (prefixes ([] :: a) b) t).2 ∧
    (b.length ≤ n → (mkdirAllT n (prefixes ([] :: a) b) t).2.AllDirs (a ++ b)) := by
  induction b with
  | nil =>
    intro a n t hp ha hn
    simp only [prefixes, mkdirAllT, List.append_nil]
    exact ⟨by simp, Grow.refl _ _, fun _ => ha⟩
  | cons x b ih =>
    intro a n t hp ha hn
    have hx : Proper x := hp x (by simp)
    have hpa : ∀ m ∈ a, Proper m := fun m hm => hp m (by simp [hm])
    have hxp : a ++ [x] <+: a ++ x :: b := by simp
    have e1 : a ++ x :: b = (a ++ [x]) ++ b := by simp
    have e2 : prefixes ([] :: a) (x :: b) = ([] :: (a ++ [x])) :: prefixes ([] :: (a ++ [x])) b := rfl
    rw [e2, mkdirAllT.eq_def]
    simp only
    rw [resolve_last t 40 a hpa ha x hx]
    rcases hn (a ++ [x]) (by simp) hxp with hg | hg
    · rw [hg]
      simp only
      cases n with
      | zero => exact ⟨by simp, Grow.refl _ _, by simp⟩
      | succ n =>
        simp only
        rw [place_dirs t a hpa ha x hx]
        simp only
        rw [hg]
        simp only
        have hgr : Grow (a ++ x :: b) t (t.set (a ++ [x]) .dir) := grow_set (by simp) hxp hg
        obtain ⟨i1, i2, i3⟩ := ih (a ++ [x]) n (t.set (a ++ [x]) .dir) (by rw [← e1]; exact hp)
          (allDirs_snoc.mpr ⟨hgr.allDirs ha, get_set_self _ _ _⟩) (by rw [← e1]; exact hgr.noLinks hn)
        rw [← e1] at i1 i2 i3
        refine ⟨?_, hgr.trans i2, ?_⟩
        · intro s hs
          rcases List.mem_cons.mp hs with rfl | hs
          · exact hgr
          · exact hgr.trans (i1 s hs)
        · intro hl
          exact i3 (by simp at hl; omega)
    · rw [hg]
      simp only
      obtain ⟨i1, i2, i3⟩ := ih (a ++ [x]) n t (by rw [← e1]; exact hp) (allDirs_snoc.mpr ⟨ha, hg⟩) (by rw [← e1]; exact hn)
      rw [← e1] at i1 i2 i3
      exact ⟨i1, i2, fun hl => i3 (by simp at hl; omega)⟩

/-- `lc_mkdir_if_not_exist` where there are no links on the way. -/
theorem mkdirIfNotExist_spec (p : Path) (names : List Path) (hs : splitPath p = [] :: names) (hp : ∀ m ∈ names, Proper m) (n : Nat) (t : FsTree)
    (h : t.NoLinks names) :
    (∀ s ∈ (mkdirIfNotExistT p n t).1, Grow names t s) ∧ Grow names t (mkdirIfNotExistT p n t).2.1 ∧
    ((mkdirIfNotExistT p n t).2.2 = .ok () ∧ (mkdirIfNotExistT p n t).2.1.AllDirs names ∨ (mkdirIfNotExistT p n t).2.2 = .panic) ∧
    (names.length ≤ n → (mkdirIfNotExistT p n t).2.2 = .ok ()) := by
  have key : ∀ r : List FsTree × FsTree, (∀ s ∈ r.1, Grow names t s) → Grow names t r.2 → (names.length ≤ n → r.2.AllDirs names) →
      ∀ out, out = (match r.2.stat p with
        | .dir _ => (r.1, r.2, .ok ())
        | .file _ _ => (r.1, r.2, .err)
        | _ => (r.1, r.2, .panic) : List FsTree × FsTree × Res Unit) →
      (∀ s ∈ out.1, Grow names t s) ∧ Grow names t out.2.1 ∧ (out.2.2 = .ok () ∧ out.2.1.AllDirs names ∨ out.2.2 = .panic) ∧
      (names.length ≤ n → out.2.2 = .ok ()) := by
    intro r h1 h2 h3 out ho
    have hst : r.2.stat p = r.2.resolve 40 [] ([] :: names) := by rw [stat, hs]
    rcases resolve_noLinks r.2 40 names hp (h2.noLinks h) with ⟨a1, a2⟩ | ⟨a, m, b, a1, a2, a3, a4⟩
    · rw [hst, a2] at ho
      subst ho
      exact ⟨h1, h2, .inl ⟨rfl, a1⟩, fun _ => rfl⟩
    · have hnd : ¬ r.2.AllDirs names := by
        intro hd
        have := hd (a ++ [m]) (by simp) (by rw [a1]; simp)
        rw [this] at a3
        simp at a3
      rw [hst, a4] at ho
      have ho' : out = (r.1, r.2, .panic) := by
        rw [ho]
        split_ifs <;> rfl
      subst ho'
      exact ⟨h1, h2, .inr rfl, fun hl => absurd (h3 hl) hnd⟩
  have hm : prefixes [] (splitPath p) = [[]] :: prefixes [[]] names := by rw [hs]; rfl
  have hm2 : mkdirAllT n (prefixes [] (splitPath p)) t = mkdirAllT n (prefixes [[]] names) t := by
    rw [hm, mkdirAllT.eq_def]
    simp only
    have : t.resolve 40 [] [[]] = .dir [] := by rw [resolve_skip]; exact resolve_walk (by simp [walk])
    rw [this]
  obtain ⟨i1, i2, i3⟩ := mkdirAll_spec names [] n t (by simpa using hp) allDirs_nil (by simpa using h)
  rw [List.nil_append] at i1 i2 i3
  by_cases hne : (t.stat p).notExist = true
  · refine key (mkdirAllT n (prefixes [] (splitPath p)) t) ?_ ?_ ?_ _ ?_
    · rw [hm2]; exact i1
    · rw [hm2]; exact i2
    · rw [hm2]; exact i3
    · simp only [mkdirIfNotExistT, if_pos hne]
      cases (mkdirAllT n (prefixes [] (splitPath p)) t).2.stat p <;> rfl
  · refine key ([], t) (by simp) (Grow.refl _ _) ?_ _ ?_
    · intro _
      rcases resolve_noLinks t 40 names hp h with ⟨a1, a2⟩ | ⟨a, m, b, a1, a2, a3, a4⟩
      · exact a1
      · exfalso
        apply hne
        rw [stat, hs, a4]
        split <;> rfl
    · simp only [mkdirIfNotExistT, if_neg hne]
      cases t.stat p <;> rfl

end FsTree

end Poodle
