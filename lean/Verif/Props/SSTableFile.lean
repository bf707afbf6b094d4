import Verif.Model.SSTableFile
import Verif.Props.SSTable

/-
Properties C158-C160: files and mappings behind loaded tables (/repo/src/pdb/sstable.go).
-/

namespace Poodle.Props

set_option maxRecDepth 100000

open Spec

/-! ### Where attributes stand in the file -/

theorem isValue_tail {v : StdValue} (h : IsValue v) : ∃ w, v.buf = w ++ v.content := by
  obtain ⟨buf, kind, size, content⟩ := v
  rw [IsValue] at h
  simp only at h ⊢
  cases h with
  | prim m len l content => exact ⟨m :: l, by simp⟩
  | array m size len c l content => exact ⟨m :: (c ++ l), by simp⟩
  | records m size len c l content => exact ⟨m :: (c ++ l), by simp⟩

theorem attr_takeAt {data : Bytes} {t : SSTable} (h : loadSSTable data = .ok t) (x : TableAttr) (b : Bytes) (hb : t.attr x = some b) :
    TakeAt data (t.attrPos x) b (t.attrPos x + b.length) := by
  obtain ⟨hw, mw, records, H, -⟩ := layout_of_load h
  obtain ⟨st, et, hst, het, e⟩ := H.header.bytes
  have lst := isTime_length hst
  have let' := isTime_length het
  have hd := H.bytes
  rw [e] at hd
  have value : ∀ (v : StdValue), IsValue v → v.value = some b → ∀ pre post, data = pre ++ (v.buf ++ post) →
      TakeAt data (pre.length + (v.buf.length - v.content.length)) b (pre.length + (v.buf.length - v.content.length) + b.length) := by
    intro v hv hvb pre post hdata
    obtain ⟨w, hw⟩ := isValue_tail hv
    rw [StdValue.value] at hvb
    split at hvb
    · simp only [Option.some.injEq] at hvb
      subst hvb
      rw [hw] at hdata ⊢
      refine takeAt_of (pre := pre ++ w) (post := post) (by rw [hdata]; simp only [List.append_assoc]) _ _ ?_ ?_ <;>
        simp only [List.length_append] <;> omega
    · simp at hvb
  cases x with
  | consensusId =>
    simp only [SSTable.attr, Option.some.injEq] at hb
    subst hb
    exact takeAt_of (pre := [0, 0, 0, 1]) (by rw [hd]; simp only [List.append_assoc]; rfl) _ _ rfl
      (by simp only [List.length_append]; rfl)
  | domain =>
    have := value _ H.header.domain hb ([0, 0, 0, 1] ++ t.header.consensusId.buf) _ (by rw [hd]; simp only [List.append_assoc]; rfl)
    simpa only [SSTable.attrPos, List.length_append, List.length_cons, List.length_nil, Nat.reduceAdd, Nat.zero_add] using this
  | table =>
    have := value _ H.header.table hb ([0, 0, 0, 1] ++ t.header.consensusId.buf ++ t.header.domain.buf) _
      (by rw [hd]; simp only [List.append_assoc]; rfl)
    simpa only [SSTable.attrPos, List.length_append, List.length_cons, List.length_nil, Nat.reduceAdd, Nat.zero_add] using this
  | startKey =>
    simp only [SSTable.attr, Option.some.injEq] at hb
    subst hb
    refine takeAt_of (pre := [0, 0, 0, 1] ++ t.header.consensusId.buf ++ t.header.domain.buf ++ t.header.table.buf ++ st ++ et)
      (by rw [hd]; simp only [List.append_assoc]; rfl) _ _ ?_ ?_ <;>
      simp only [SSTable.attrPos, List.length_append, List.length_cons, List.length_nil] <;> omega
  | endKey =>
    simp only [SSTable.attr, Option.some.injEq] at hb
    subst hb
    refine takeAt_of (pre := [0, 0, 0, 1] ++ t.header.consensusId.buf ++ t.header.domain.buf ++ t.header.table.buf ++ st ++ et ++
      t.header.startKey.buf) (by rw [hd]; simp only [List.append_assoc]; rfl) _ _ ?_ ?_ <;>
      simp only [SSTable.attrPos, List.length_append, List.length_cons, List.length_nil] <;> omega

/-! ### Mappings and tables over a sequence of calls -/

theorem mapped_none_iff {p : Proc} {a : Nat} : p.mapped a = none ↔ ∀ d, (a, d) ∉ p.maps := by
  rw [Proc.mapped, Option.map_eq_none_iff, List.find?_eq_none]
  constructor
  · intro h d hd; simpa using h _ hd
  · rintro h ⟨x, d⟩ hd
    simp only [beq_iff_eq]
    rintro rfl
    exact h d hd

theorem mapped_some_iff {p : Proc} (hn : (p.maps.map (·.1)).Nodup) {a : Nat} {d : Bytes} : p.mapped a = some d ↔ (a, d) ∈ p.maps := by
  constructor
  · intro h
    rw [Proc.mapped, Option.map_eq_some_iff] at h
    obtain ⟨⟨x, y⟩, h1, h2⟩ := h
    have h3 := List.find?_some h1
    simp only [beq_iff_eq] at h3 h2
    subst h2 h3
    exact List.mem_of_find?_eq_some h1
  · intro h
    rw [Proc.mapped]
    cases hf : p.maps.find? fun m => m.1 == a with
    | none =>
      rw [List.find?_eq_none] at hf
      simpa using hf _ h
    | some m =>
      have h3 := List.find?_some hf
      simp only [beq_iff_eq] at h3
      have h4 := List.mem_of_find?_eq_some hf
      have : m = (a, d) := List.inj_on_of_nodup_map hn h4 h h3
      subst this
      rfl

/-- What holds of a process that only uses tables through `LoadSSTableV1` and `Close`. -/
structure ProcOk (p : Proc) : Prop where
  places : (p.maps.map (·.1)).Nodup
  open_ : ∀ (i : Nat) (t : TableObj) (a : Nat), p.tables[i]? = some t → t.mapping = some a →
    t.addr = a ∧ ∃ data, (a, data) ∈ p.maps ∧ loadSSTable data = .ok t.tab
  own : ∀ (i j : Nat) (t u : TableObj) (a : Nat), p.tables[i]? = some t → p.tables[j]? = some u → t.mapping = some a →
    u.mapping = some a → i = j

theorem start_ok : ProcOk Proc.start := ⟨by simp [Proc.start], by simp [Proc.start], by simp [Proc.start]⟩

theorem unmap_mem {p : Proc} {a b : Nat} {d : Bytes} : (b, d) ∈ (p.unmap a).maps ↔ (b, d) ∈ p.maps ∧ b ≠ a := by
  simp [Proc.unmap]

theorem unmap_cons {p : Proc} {a : Nat} {d : Bytes} (h : p.mapped a = none) :
    ({ p with maps := (a, d) :: p.maps } : Proc).unmap a = p := by
  have h := mapped_none_iff.mp h
  obtain ⟨f, m, t⟩ := p
  simp only [Proc.unmap, Proc.mk.injEq, true_and, and_true, List.filter_cons, bne_self_eq_false, Bool.false_eq_true, if_false]
  refine List.filter_eq_self.mpr ?_
  rintro ⟨x, y⟩ hx
  simp only [bne_iff_ne, ne_eq]
  rintro rfl
  exact h y hx

theorem ok_files {p : Proc} (h : ProcOk p) (n : Nat) : ProcOk { p with files := n } := ⟨h.places, h.open_, h.own⟩

theorem ok_cons {p : Proc} (h : ProcOk p) {a : Nat} (d : Bytes) (ha : p.mapped a = none) : ProcOk { p with maps := (a, d) :: p.maps } := by
  refine ⟨?_, ?_, h.own⟩
  · simp only [List.map_cons, List.nodup_cons]
    refine ⟨?_, h.places⟩
    rw [List.mem_map]
    rintro ⟨⟨x, y⟩, hm, rfl⟩
    exact mapped_none_iff.mp ha y hm
  · intro i t b ht hb
    obtain ⟨h1, x, h2, h3⟩ := h.open_ i t b ht hb
    exact ⟨h1, x, List.mem_cons_of_mem _ h2, h3⟩

/-- The possible effects of one `LoadSSTableV1` on mappings and tables. -/
theorem load_cases (p : Proc) (e : LoadEnv) : let q := (p.load e).1
    (q.maps = p.maps ∧ q.tables = p.tables ∧ ∀ i, (p.load e).2 ≠ .ok i) ∨
    ∃ a data, e.file = some data ∧ e.addr = some a ∧ p.mapped a = none ∧ q.maps = (a, data) :: p.maps ∧
      ((∃ t, loadSSTable data = .ok t ∧ q.tables = p.tables ++ [⟨t, some a, a⟩] ∧ (p.load e).2 = .ok p.tables.length) ∨
        (q.tables = p.tables ∧ (∀ i, (p.load e).2 ≠ .ok i) ∧
          (e.unmapOk = false ∨ loadSSTable data = .panic ∧ loadErrSet data = false))) := by
  rw [Proc.load]
  cases hf : e.file with
  | none => exact .inl ⟨rfl, rfl, by simp⟩
  | some data =>
    simp only
    cases ha : e.addr with
    | none => exact .inl ⟨rfl, rfl, by simp⟩
    | some a =>
      simp only
      split
      · exact .inl ⟨rfl, rfl, by simp⟩
      · rename_i hc
        simp only [not_or, Bool.not_eq_true, Option.isSome_eq_false_iff, Option.isNone_iff_eq_none] at hc
        have hm : p.mapped a = none := hc.2
        cases hl : loadSSTable data with
        | ok t => exact .inr ⟨a, data, rfl, rfl, hm, rfl, .inl ⟨t, hl, rfl, rfl⟩⟩
        | err =>
          simp only [Proc.abandon]
          cases hu : e.unmapOk with
          | true =>
            rw [if_pos rfl]
            rw [unmap_cons hc.2]
            exact .inl ⟨rfl, rfl, by simp⟩
          | false => exact .inr ⟨a, data, rfl, rfl, hm, rfl, .inr ⟨rfl, by simp, .inl rfl⟩⟩
        | panic =>
          simp only [Proc.abandon]
          cases hs : loadErrSet data with
          | false => exact .inr ⟨a, data, rfl, rfl, hm, rfl, .inr ⟨rfl, by simp, .inr ⟨hl, hs⟩⟩⟩
          | true =>
            rw [if_pos rfl]
            cases hu : e.unmapOk with
            | true =>
              rw [if_pos rfl]
              rw [unmap_cons hc.2]
              exact .inl ⟨rfl, rfl, by simp⟩
            | false => exact .inr ⟨a, data, rfl, rfl, hm, rfl, .inr ⟨rfl, by simp, .inl rfl⟩⟩

/-- The possible effects of one `Close` on mappings and tables. -/
theorem close_cases (p : Proc) (i : Nat) (u : Bool) : let q := (p.close i u).1
    q = p ∨ ∃ t a, p.tables[i]? = some t ∧ t.mapping = some a ∧ u = true ∧ q = { p.unmap a with tables := p.tables.set i { t with mapping := none } } ∧
      (p.close i u).2 = .ok () := by
  rw [Proc.close]
  cases ht : p.tables[i]? with
  | none => exact .inl rfl
  | some t =>
    simp only
    cases hm : t.mapping with
    | none => exact .inl rfl
    | some a =>
      cases u with
      | false => exact .inl rfl
      | true => exact .inr ⟨t, a, rfl, hm, rfl, rfl, rfl⟩

theorem step_ok {p : Proc} (h : ProcOk p) (op : TableOp) : ProcOk (p.step op) := by
  cases op with
  | load e =>
    simp only [Proc.step]
    have hc := load_cases p e
    simp only at hc
    generalize (p.load e).1 = q at hc ⊢
    generalize (p.load e).2 = r at hc
    obtain ⟨f, m, ts⟩ := q
    simp only at hc
    obtain ⟨rfl, rfl, -⟩ | ⟨a, data, -, -, hm, rfl, hc⟩ := hc
    · exact ok_files h f
    · have h' := ok_files (ok_cons h data hm) f
      obtain ⟨t, hl, rfl, -⟩ | ⟨rfl, -⟩ := hc
      · have fresh : ∀ (i : Nat) (u : TableObj), p.tables[i]? = some u → u.mapping ≠ some a := by
          intro i u hu hua
          obtain ⟨-, x, hx, -⟩ := h.open_ i u a hu hua
          exact mapped_none_iff.mp hm x hx
        refine ⟨h'.places, ?_, ?_⟩
        · intro i u b hu hb
          simp only at hu
          rw [List.getElem?_append] at hu
          split at hu
          · exact h'.open_ i u b hu hb
          · rw [List.getElem?_singleton] at hu
            split at hu
            · simp only [Option.some.injEq] at hu
              subst hu
              simp only [Option.some.injEq] at hb
              subst hb
              exact ⟨rfl, data, List.mem_cons_self, hl⟩
            · simp at hu
        · intro i j u v b hu hv hub hvb
          simp only at hu hv
          rw [List.getElem?_append] at hu hv
          have new : ∀ (k : Nat) (w : TableObj), [(⟨t, some a, a⟩ : TableObj)][k - p.tables.length]? = some w → w.mapping = some a ∧ k - p.tables.length = 0 := by
            intro k w hk
            rw [List.getElem?_singleton] at hk
            split at hk
            · simp only [Option.some.injEq] at hk
              subst hk
              exact ⟨rfl, by assumption⟩
            · simp at hk
          split at hu <;> split at hv
          · exact h.own i j u v b hu hv hub hvb
          · have hn := (new _ _ hv).1
            rw [hvb] at hn
            exact absurd (hub.trans hn) (fresh i u hu)
          · have hn := (new _ _ hu).1
            rw [hub] at hn
            exact absurd (hvb.trans hn) (fresh j v hv)
          · have h1 := (new _ _ hu).2
            have h2 := (new _ _ hv).2
            omega
      · exact h'
  | close i u =>
    simp only [Proc.step]
    obtain hq | ⟨t, a, ht, hta, -, hq, -⟩ := close_cases p i u
    · rw [hq]; exact h
    · rw [hq]
      have old : ∀ (j : Nat) (w : TableObj) (b : Nat), (p.tables.set i { t with mapping := none })[j]? = some w → w.mapping = some b →
          j ≠ i ∧ p.tables[j]? = some w := by
        intro j w b hw hb
        rw [List.getElem?_set] at hw
        split at hw
        · split at hw
          · simp only [Option.some.injEq] at hw
            subst hw
            simp at hb
          · simp at hw
        · exact ⟨by omega, hw⟩
      refine ⟨?_, ?_, ?_⟩
      · simp only [Proc.unmap]
        exact h.places.sublist (List.filter_sublist.map _)
      · intro j w b hw hb
        obtain ⟨hj, hw'⟩ := old j w b hw hb
        obtain ⟨h1, x, h2, h3⟩ := h.open_ j w b hw' hb
        refine ⟨h1, x, ?_, h3⟩
        have hba : b ≠ a := by
          rintro rfl
          exact hj (h.own j i w t b hw' ht hb hta)
        exact unmap_mem.mpr ⟨h2, hba⟩
      · intro j k w x b hw hx hwb hxb
        exact h.own j k w x b (old _ _ _ hw hwb).2 (old _ _ _ hx hxb).2 hwb hxb

theorem run_ok {p : Proc} (h : ProcOk p) (ops : List TableOp) : ProcOk (p.run ops) := by
  induction ops generalizing p with
  | nil => exact h
  | cons op ops ih => exact ih (step_ok h op)

/-- A mapping stays until the table that owns it is closed. -/
theorem step_maps {p : Proc} {a : Nat} {data : Bytes} (hm : (a, data) ∈ p.maps) (op : TableOp)
    (hop : ∀ (i : Nat) (t : TableObj), op = .close i true → p.tables[i]? = some t → t.mapping ≠ some a) : (a, data) ∈ (p.step op).maps := by
  cases op with
  | load e =>
    simp only [Proc.step]
    obtain ⟨hq, -⟩ | ⟨b, d, -, -, -, hq, -⟩ := load_cases p e <;> rw [hq]
    · exact hm
    · exact List.mem_cons_of_mem _ hm
  | close i u =>
    simp only [Proc.step]
    obtain hq | ⟨t, b, ht, htb, rfl, hq, -⟩ := close_cases p i u <;> rw [hq]
    · exact hm
    · refine unmap_mem.mpr ⟨hm, ?_⟩
      rintro rfl
      exact hop i t rfl ht htb

/-- A table stays what it is, except that `Close` takes its mapping. -/
theorem step_table {p : Proc} {i : Nat} {t : TableObj} (ht : p.tables[i]? = some t) (op : TableOp) :
    ∃ t', (p.step op).tables[i]? = some t' ∧ t'.tab = t.tab ∧ t'.addr = t.addr ∧
      (t'.mapping = t.mapping ∨ op = .close i true ∧ t'.mapping = none) := by
  have hi : i < p.tables.length := by rw [List.getElem?_eq_some_iff] at ht; exact ht.1
  cases op with
  | load e =>
    simp only [Proc.step]
    refine ⟨t, ?_, rfl, rfl, .inl rfl⟩
    obtain ⟨-, hq, -⟩ | ⟨b, d, -, -, -, -, ⟨u, -, hq, -⟩ | ⟨hq, -⟩⟩ := load_cases p e <;> rw [hq]
    · exact ht
    · rw [List.getElem?_append_left hi]; exact ht
    · exact ht
  | close j u =>
    simp only [Proc.step]
    obtain hq | ⟨s, b, hs, hsb, rfl, hq, -⟩ := close_cases p j u <;> rw [hq]
    · exact ⟨t, ht, rfl, rfl, .inl rfl⟩
    · simp only
      rw [List.getElem?_set]
      split
      · rename_i hji
        subst hji
        rw [ht, Option.some.injEq] at hs
        subst hs
        rw [if_pos hi]
        exact ⟨_, rfl, rfl, rfl, .inr ⟨rfl, rfl⟩⟩
      · exact ⟨t, ht, rfl, rfl, .inl rfl⟩

theorem run_open {p : Proc} (hp : ProcOk p) {i a : Nat} {t : TableObj} {data : Bytes} (ht : p.tables[i]? = some t)
    (hta : t.mapping = some a) (hm : (a, data) ∈ p.maps) (ops : List TableOp) (hno : TableOp.close i true ∉ ops) :
    ∃ t', (p.run ops).tables[i]? = some t' ∧ t'.tab = t.tab ∧ t'.mapping = some a ∧ (a, data) ∈ (p.run ops).maps := by
  induction ops generalizing p t with
  | nil => exact ⟨t, ht, rfl, hta, hm⟩
  | cons op ops ih =>
    simp only [List.mem_cons, not_or] at hno
    obtain ⟨t', h1, h2, -, h4⟩ := step_table ht op
    have h4 : t'.mapping = some a := by
      obtain h4 | ⟨h4, -⟩ := h4
      · rw [h4, hta]
      · exact absurd h4.symm hno.1
    have hm' := step_maps hm op (by
      rintro j u rfl hu hua
      refine hno.1 ?_
      rw [hp.own i j t u a ht hu hta hua])
    obtain ⟨t'', g1, g2, g3, g4⟩ := ih (step_ok hp op) h1 h4 hm' hno.2
    exact ⟨t'', g1, g2.trans h2, g3, g4⟩

theorem read_open {p : Proc} (hp : ProcOk p) {i a : Nat} {t : TableObj} (ht : p.tables[i]? = some t)
    (hta : t.mapping = some a) (x : TableAttr) : p.read i x = .ok (t.tab.attr x) := by
  obtain ⟨h1, d, h2, h3⟩ := hp.open_ i t a ht hta
  have hd := (mapped_some_iff hp.places).mpr h2
  rw [Proc.read, ht]
  simp only
  cases hb : t.tab.attr x with
  | none => rfl
  | some b =>
    simp only
    split
    · rename_i h; rw [h]
    · rw [h1, hd]
      simp only
      have := goSlice_takeAt (attr_takeAt h3 x b hb)
      push_cast at this
      rw [this]
      rfl

/-! ### C158 An open table shows its file -/

theorem load_ok {p : Proc} {e : LoadEnv} {i : Nat} (h : (p.load e).2 = .ok i) : ∃ data t a, e.file = some data ∧
    loadSSTable data = .ok t ∧ i = p.tables.length ∧ (p.load e).1.tables[i]? = some ⟨t, some a, a⟩ ∧ (a, data) ∈ (p.load e).1.maps := by
  obtain ⟨-, -, h'⟩ | ⟨a, data, hf, -, -, hq, ⟨t, hl, ht, hr⟩ | ⟨-, h', -⟩⟩ := load_cases p e
  · exact absurd h (h' i)
  · rw [hr, Res.ok.injEq] at h
    refine ⟨data, t, a, hf, hl, h.symm, ?_, ?_⟩
    · rw [ht, ← h, List.getElem?_append_right (Nat.le_refl _), Nat.sub_self]; rfl
    · rw [hq]; exact List.mem_cons_self
  · exact absurd h (h' i)

/-- C158: whatever other tables are loaded or closed, before or after, and even if closing it has failed, the attributes of a table
are those of its file. -/
theorem C158_open (ops ops' : List TableOp) (e : LoadEnv) (i : Nat) (h : ((Proc.start.run ops).load e).2 = .ok i)
    (hno : TableOp.close i true ∉ ops') : ∃ data t, e.file = some data ∧ loadSSTable data = .ok t ∧
    ∀ x, ((Proc.start.run (ops ++ .load e :: ops')).read i x) = .ok (t.attr x) := by
  obtain ⟨data, t, a, hf, hl, -, ht, hm⟩ := load_ok h
  have hr : Proc.start.run (ops ++ .load e :: ops') = ((Proc.start.run ops).load e).1.run ops' := by
    simp only [Proc.run, List.foldl_append, List.foldl_cons, Proc.step]
  have ok1 : ProcOk ((Proc.start.run ops).load e).1 := step_ok (run_ok start_ok ops) (.load e)
  obtain ⟨t', h1, h2, h3, -⟩ := run_open ok1 ht rfl hm ops' hno
  refine ⟨data, t, hf, hl, fun x => ?_⟩
  rw [hr, read_open (run_ok ok1 ops') h1 h3 x, h2]

/-- The sample table, mapped at a place. -/
def sampleEnv (a : Nat) : LoadEnv := ⟨some sampleTable, some a, true⟩

/-- The sample file, loaded while another table is open; then the other is closed and closing this one fails. -/
example : (match (Proc.start.run [.load (sampleEnv 1), .load (sampleEnv 2), .close 0 true, .close 1 false]).read 1 .domain with
    | .ok s => decide (s = some ((sampleTable.drop 39).take 59)) | _ => false) = true := by
  decide +kernel

example : (match ((Proc.start.run [.load (sampleEnv 1)]).load (sampleEnv 2)).2 with | .ok i => decide (i = 1) | _ => false) = true := by
  decide +kernel

/-! ### C159 Closing -/

/-- A closed table stays closed. -/
theorem run_closed {p : Proc} {i : Nat} {t : TableObj} (ht : p.tables[i]? = some t) (hc : t.mapping = none) (ops : List TableOp) :
    ∃ t', (p.run ops).tables[i]? = some t' ∧ t'.tab = t.tab ∧ t'.addr = t.addr ∧ t'.mapping = none := by
  induction ops generalizing p t with
  | nil => exact ⟨t, ht, rfl, rfl, hc⟩
  | cons op ops ih =>
    obtain ⟨t', h1, h2, h3, h4⟩ := step_table ht op
    have h4 : t'.mapping = none := by obtain h4 | ⟨-, h4⟩ := h4 <;> [rw [h4, hc]; exact h4]
    obtain ⟨t'', g1, g2, g3, g4⟩ := ih h1 h4
    exact ⟨t'', g1, g2.trans h2, g3.trans h3, g4⟩

theorem close_true {p : Proc} {i : Nat} {t : TableObj} (ht : p.tables[i]? = some t) :
    (p.close i true).2 = .ok () ∧ (p.close i true).1.tables[i]? = some { t with mapping := none } := by
  have hi : i < p.tables.length := by rw [List.getElem?_eq_some_iff] at ht; exact ht.1
  rw [Proc.close, ht]
  simp only
  cases hm : t.mapping with
  | none =>
    simp only [ht, true_and]
    obtain ⟨a, b, c⟩ := t
    simp only at hm
    rw [hm]
  | some a => simp [hi]

/-- C159: closing a table works if unmapping does, and from then on closing it again succeeds without any effect, whatever happens in
between. -/
theorem C159_twice (ops ops' : List TableOp) (i : Nat) (hi : i < (Proc.start.run ops).tables.length) (u : Bool) :
    ((Proc.start.run ops).close i true).2 = .ok () ∧
    (Proc.start.run (ops ++ .close i true :: ops')).close i u = (Proc.start.run (ops ++ .close i true :: ops'), .ok ()) := by
  obtain ⟨h1, h2⟩ := close_true (List.getElem?_eq_getElem hi)
  refine ⟨h1, ?_⟩
  have hr : Proc.start.run (ops ++ .close i true :: ops') = ((Proc.start.run ops).close i true).1.run ops' := by
    simp only [Proc.run, List.foldl_append, List.foldl_cons, Proc.step]
  obtain ⟨t', g1, -, -, g4⟩ := run_closed h2 rfl ops'
  rw [hr, Proc.close, g1]
  simp only [g4]

example := C159_twice [.load (sampleEnv 1)] [.load (sampleEnv 2)] 0 (by decide +kernel) false

/-- C159: if unmapping fails, `Close` of an open table reports it and the table stays open. -/
theorem C159_failed (ops : List TableOp) (i : Nat) (t : TableObj) (ht : (Proc.start.run ops).tables[i]? = some t)
    (ho : t.mapping ≠ none) : (Proc.start.run ops).close i false = (Proc.start.run ops, .err) := by
  rw [Proc.close, ht]
  simp only
  cases hm : t.mapping with
  | none => exact absurd hm ho
  | some a => rfl

example : 0 < (Proc.start.run [.load (sampleEnv 1)]).tables.length := by decide +kernel

example : (match (Proc.start.run [.load (sampleEnv 1)]).tables[0]? with | some t => t.mapping.isSome | none => false) = true := by
  decide +kernel

/-- The claim of C159 about closed tables: what they returned can still be looked at. -/
def ReadableAfterClose : Prop := ∀ (ops : List TableOp) (i : Nat) (x : TableAttr), i < (Proc.start.run ops).tables.length →
  (Proc.start.run ops).read i x ≠ .panic

/-- The weaker claim: if it can be looked at, it is what it was. -/
def UnchangedAfterClose : Prop := ∀ (ops ops' : List TableOp) (i : Nat) (x : TableAttr) (s s' : Slice),
  (Proc.start.run ops).read i x = .ok s → (Proc.start.run (ops ++ ops')).read i x = .ok s' → s' = s

theorem step_unmapped {p : Proc} {a : Nat} (h : p.mapped a = none) (op : TableOp)
    (hop : ∀ e, op = .load e → e.addr ≠ some a) : (p.step op).mapped a = none := by
  rw [mapped_none_iff] at h ⊢
  intro d hd
  cases op with
  | load e =>
    simp only [Proc.step] at hd
    obtain ⟨hq, -⟩ | ⟨b, d', -, hb, -, hq, -⟩ := load_cases p e <;> rw [hq] at hd
    · exact h d hd
    · simp only [List.mem_cons, Prod.mk.injEq] at hd
      obtain ⟨rfl, -⟩ | hd := hd
      · exact hop e rfl hb
      · exact h d hd
  | close j u =>
    simp only [Proc.step] at hd
    obtain hq | ⟨s, b, hs, hsb, rfl, hq, -⟩ := close_cases p j u <;> rw [hq] at hd
    · exact h d hd
    · exact h d (unmap_mem.mp hd).1

theorem run_unmapped {p : Proc} {a : Nat} (h : p.mapped a = none) (ops : List TableOp)
    (hop : ∀ e, TableOp.load e ∈ ops → e.addr ≠ some a) : (p.run ops).mapped a = none := by
  induction ops generalizing p with
  | nil => exact h
  | cons op ops ih =>
    exact ih (step_unmapped h op fun e he => hop e (he ▸ List.mem_cons_self)) fun e he => hop e (List.mem_cons_of_mem _ he)

theorem close_unmapped {p : Proc} (hp : ProcOk p) {i a : Nat} {t : TableObj} (ht : p.tables[i]? = some t) (hta : t.mapping = some a) :
    (p.close i true).1.mapped a = none := by
  rw [Proc.close, ht]
  simp only [hta, if_true]
  rw [mapped_none_iff]
  intro d hd
  exact (unmap_mem (p := p).mp hd).2 rfl

/-- C159, exactly: after an open table has been closed, and until another file is mapped at the same place, looking at any attribute
that is not nil or empty kills the process. -/
theorem C159_crash_partial (ops ops' : List TableOp) (i a : Nat) (t : TableObj) (ht : (Proc.start.run ops).tables[i]? = some t)
    (hta : t.mapping = some a) (hop : ∀ e, TableOp.load e ∈ ops' → e.addr ≠ some a) (x : TableAttr) :
    (Proc.start.run (ops ++ .close i true :: ops')).read i x =
      if (t.tab.attr x).bytes = [] then .ok (t.tab.attr x) else .panic := by
  have hp := run_ok start_ok ops
  have hr : Proc.start.run (ops ++ .close i true :: ops') = ((Proc.start.run ops).close i true).1.run ops' := by
    simp only [Proc.run, List.foldl_append, List.foldl_cons, Proc.step]
  obtain ⟨t', g1, g2, g3, -⟩ := run_closed (close_true ht).2 rfl ops'
  simp only at g2 g3
  have hu := run_unmapped (close_unmapped hp ht hta) ops' hop
  rw [hr, Proc.read, g1]
  simp only
  rw [g2, g3, (hp.open_ i t a ht hta).1, hu]
  cases hb : t.tab.attr x with
  | none => simp [Slice.bytes]
  | some b =>
    simp only
    by_cases h : b = []
    · rw [if_pos h, if_pos (show Slice.bytes (some b) = [] from h), h]
    · rw [if_neg h, if_neg (show ¬ Slice.bytes (some b) = [] from h)]

/-- C159, exactly: if another table file is then mapped at the place and stays open, looking at an attribute of the closed table shows
the bytes of the other file at the same position (or kills the process if the other file is too short). -/
theorem C159_stale_partial (ops ops' ops'' : List TableOp) (i j a : Nat) (t : TableObj) (e : LoadEnv) (data : Bytes)
    (ht : (Proc.start.run ops).tables[i]? = some t) (hta : t.mapping = some a) (he : e.addr = some a) (hd : e.file = some data)
    (hl : ((Proc.start.run (ops ++ .close i true :: ops')).load e).2 = .ok j) (hno : TableOp.close j true ∉ ops'')
    (x : TableAttr) (b : Bytes) (hb : t.tab.attr x = some b) (hne : b ≠ []) :
    (Proc.start.run (ops ++ .close i true :: (ops' ++ .load e :: ops''))).read i x =
      if t.tab.attrPos x + b.length ≤ data.length then .ok (some ((data.drop (t.tab.attrPos x)).take b.length)) else .panic := by
  have hp := run_ok start_ok ops
  have hr : Proc.start.run (ops ++ .close i true :: (ops' ++ .load e :: ops'')) =
      ((Proc.start.run (ops ++ .close i true :: ops')).load e).1.run ops'' := by
    simp only [Proc.run, List.foldl_append, List.foldl_cons, Proc.step]
  have hr2 : Proc.start.run (ops ++ .close i true :: (ops' ++ .load e :: ops'')) =
      ((Proc.start.run ops).close i true).1.run (ops' ++ .load e :: ops'') := by
    simp only [Proc.run, List.foldl_append, List.foldl_cons, Proc.step]
  have okl : ProcOk ((Proc.start.run (ops ++ .close i true :: ops')).load e).1 := step_ok (run_ok start_ok _) (.load e)
  have hm : ((Proc.start.run (ops ++ .close i true :: (ops' ++ .load e :: ops'')))).mapped a = some data := by
    obtain ⟨-, -, h'⟩ | ⟨a', data', hf, ha, -, hq, ⟨s, hs, hts, hrs⟩ | ⟨-, h', -⟩⟩ := load_cases (Proc.start.run (ops ++ .close i true :: ops')) e
    · exact absurd hl (h' j)
    · rw [he, Option.some.injEq] at ha
      rw [hd, Option.some.injEq] at hf
      subst ha hf
      rw [hrs, Res.ok.injEq] at hl
      have htj : ((Proc.start.run (ops ++ .close i true :: ops')).load e).1.tables[j]? = some ⟨s, some a, a⟩ := by
        rw [hts, ← hl, List.getElem?_append_right (Nat.le_refl _), Nat.sub_self]; rfl
      obtain ⟨-, -, -, -, h4⟩ := run_open okl htj rfl (by rw [hq]; exact List.mem_cons_self) ops'' hno
      rw [hr]
      exact (mapped_some_iff (run_ok okl ops'').places).mpr h4
    · exact absurd hl (h' j)
  obtain ⟨t', g1, g2, g3, -⟩ := run_closed (close_true ht).2 rfl (ops' ++ .load e :: ops'')
  simp only at g2 g3
  rw [← hr2] at g1
  rw [Proc.read, g1]
  simp only
  rw [g2, g3, (hp.open_ i t a ht hta).1, hm, hb]
  simp only [if_neg hne]
  rw [goSlice]
  by_cases hc : t.tab.attrPos x + b.length ≤ data.length
  · rw [if_pos hc, if_pos ⟨by omega, by omega, by omega⟩, Res.bind_ok]
    congr 2
    rw [List.drop_take]
    congr 1
    omega
  · rw [if_neg hc, if_neg (by omega)]
    rfl

/-- The sample file with another consensus id. -/
def otherTable : Bytes :=
  (sampleTable.take 119).set 5 8 ++ u32 (crc32 ((sampleTable.take 119).set 5 8)).toNat ++ sampleTable.drop 123

/-- The result, if it is a value. -/
def okOf {α : Type} : Res α → Option α
  | .ok a => some a
  | _ => none

theorem okOf_eq {α : Type} {x : Res α} {a : α} (h : okOf x = some a) : x = .ok a := by
  cases x <;> simp_all [okOf]

/-- Whether it is a panic. -/
def isPanic {α : Type} : Res α → Bool
  | .panic => true
  | _ => false

theorem isPanic_eq {α : Type} {x : Res α} (h : isPanic x = true) : x = .panic := by
  cases x <;> simp_all [isPanic]

/-- C159 is false: looking at the domain of a closed table kills the process ... -/
theorem C159_refuted : ¬ ReadableAfterClose := by
  intro h
  refine h [.load (sampleEnv 1), .close 0 true] 0 .domain (by decide +kernel) (isPanic_eq (by decide +kernel))

/-- ... or its consensus id is suddenly that of another file. -/
theorem C159_unchanged_refuted : ¬ UnchangedAfterClose := by
  intro h
  have := h [.load (sampleEnv 1)] [.close 0 true, .load ⟨some otherTable, some 1, true⟩] 0 .consensusId
    (some ((sampleTable.drop 4).take 33)) (some ((otherTable.drop 4).take 33)) (okOf_eq (by decide +kernel)) (okOf_eq (by decide +kernel))
  revert this
  decide +kernel

/-- The situation of the two theorems above: the second file loads at the place of the closed first. -/
example : okOf ((Proc.start.run [.load (sampleEnv 1), .close 0 true]).load ⟨some otherTable, some 1, true⟩).2 = some 1 := by
  decide +kernel

/-! ### C160 Nothing is left behind -/

/-- The claim of C160. -/
def NothingLeft : Prop := ∀ ops : List TableOp, (∀ t ∈ (Proc.start.run ops).tables, t.mapping = none) →
  (Proc.start.run ops).files = 0 ∧ (Proc.start.run ops).maps = []

/-- C160 is false: the file handle stays open. -/
theorem C160_refuted : ¬ NothingLeft := by
  intro h
  have h1 : (Proc.start.run [.load (sampleEnv 1), .close 0 true]).tables.all (fun t => t.mapping == none) = true := by
    decide +kernel
  have h2 := (h [.load (sampleEnv 1), .close 0 true] (by
    intro t ht
    simpa using List.all_eq_true.mp h1 t ht)).1
  revert h2
  decide +kernel

/-- The file can be opened. -/
def opens : TableOp → Bool
  | .load e => e.file.isSome
  | .close _ _ => false

theorem load_files (p : Proc) (e : LoadEnv) : (p.load e).1.files = p.files + if e.file.isSome then 1 else 0 := by
  rw [Proc.load]
  cases e.file with
  | none => rfl
  | some data =>
    simp only
    cases e.addr with
    | none => rfl
    | some a =>
      simp only
      split
      · rfl
      · cases loadSSTable data <;> simp only [Proc.abandon, Proc.unmap]
        · rfl
        · split <;> rfl
        · split
          · split <;> rfl
          · rfl

/-- C160, exactly: every file ever opened stays open, whether or not the table loads and whether or not it is closed. -/
theorem C160_files_partial (ops : List TableOp) : (Proc.start.run ops).files = ops.countP opens := by
  have : ∀ p : Proc, (p.run ops).files = p.files + ops.countP opens := by
    induction ops with
    | nil => intro p; rfl
    | cons op ops ih =>
      intro p
      have h1 : (p.step op).files = p.files + if opens op then 1 else 0 := by
        cases op with
        | load e => exact load_files p e
        | close i u =>
          simp only [Proc.step, opens]
          obtain hq | ⟨t, a, -, -, -, hq, -⟩ := close_cases p i u <;> rw [hq] <;> rfl
      rw [List.countP_cons, show p.run (op :: ops) = (p.step op).run ops from rfl, ih, h1]
      omega
  rw [this]
  simp [Proc.start]

/-- Files on which `LoadSSTableV1` panics before it has noted an error: one that ends after the version, and one with a good header on
whose lookup table NewMPHTable panics. -/
def LeavesMapping (data : Bytes) : Prop := data = [0, 0, 0, 1] ∨
  ∃ hw h rest, IsSSHeader hw h ∧ data = hw ++ u32 (crc32 hw).toNat ++ rest ∧ newMphTable rest = .panic

theorem header_of_bytes {data hw rest : Bytes} {h : SSHeader} (s1 : IsSSHeader hw h) (hb : data = hw ++ u32 (crc32 hw).toNat ++ rest) :
    ssHeader data = .ok (h, hw.length + 4) ∧ data.drop (hw.length + 4) = rest := by
  have t1 : TakeAt data 0 (hw ++ u32 (crc32 hw).toNat) (hw.length + 4) :=
    takeAt_of (pre := []) (post := rest) hb _ _ rfl (by simp [u32_length])
  refine ⟨(ssHeader_ok_iff _ _ _).mpr ⟨hw, s1, t1⟩, ?_⟩
  rw [hb]; exact List.drop_left' (by rw [List.length_append, u32_length])

theorem leavesMapping_iff (data : Bytes) : loadSSTable data = .panic ∧ loadErrSet data = false ↔ LeavesMapping data := by
  constructor
  · rintro ⟨h1, h2⟩
    obtain h1 | ⟨hw, h, rest, s1, hb, h1 | ⟨mph, mw, size, tail, hm, hr, hs, ht⟩⟩ := (C95_panics_iff_partial data).mp h1
    · exact .inl h1
    · exact .inr ⟨hw, h, rest, s1, hb, h1⟩
    · exfalso
      obtain ⟨g1, g2⟩ := header_of_bytes s1 hb
      have g3 : ssU32 data (hw.length + 4 + mw.length) = .ok (size, hw.length + 4 + mw.length + 4) := by
        refine (ssU32_ok_iff _ _ _ _).mpr ⟨by omega, takeAt_of (pre := hw ++ u32 (crc32 hw).toNat ++ mw) (post := tail) ?_ _ _ ?_ ?_⟩
        · rw [hb, hr]; simp only [List.append_assoc]
        · simp only [List.length_append, u32_length]
        · simp only [List.length_append, u32_length]
      have hl : data.length = hw.length + 4 + mw.length + 4 + tail.length := by
        rw [hb, hr]; simp only [List.length_append, u32_length]; omega
      rw [loadErrSet, g1] at h2
      simp only [g2, hm, g3, Bool.and_eq_false_iff, decide_eq_false_iff_not, sstableMaxRecords] at h2
      obtain h2 | h2 := h2
      · have h2 := of_decide_eq_false h2
        omega
      · omega
  · rintro (h | ⟨hw, h, rest, s1, hb, hm⟩)
    · exact ⟨(C95_panics_iff_partial data).mpr (.inl h), by rw [h]; decide +kernel⟩
    · refine ⟨(C95_panics_iff_partial data).mpr (.inr ⟨hw, h, rest, s1, hb, .inl hm⟩), ?_⟩
      obtain ⟨g1, g2⟩ := header_of_bytes s1 hb
      rw [loadErrSet, g1]
      simp only [g2, hm]

/-- C160, exactly (mappings): if unmapping works and none of the files makes `LoadSSTableV1` panic early, then every live mapping belongs
to an open table, the one loaded from it; so nothing is mapped when all tables are closed. -/
theorem C160_mappings_partial (ops : List TableOp)
    (hops : ∀ e, TableOp.load e ∈ ops → e.unmapOk = true ∧ ∀ data, e.file = some data → ¬ LeavesMapping data) :
    (∀ a data, (a, data) ∈ (Proc.start.run ops).maps → ∃ (i : Nat) (t : TableObj), (Proc.start.run ops).tables[i]? = some t ∧ t.mapping = some a ∧
      loadSSTable data = .ok t.tab) ∧
    ((∀ t ∈ (Proc.start.run ops).tables, t.mapping = none) → (Proc.start.run ops).maps = []) := by
  have key : ∀ p : Proc, ProcOk p → (∀ a data, (a, data) ∈ p.maps → ∃ (i : Nat) (t : TableObj), p.tables[i]? = some t ∧ t.mapping = some a ∧ loadSSTable data = .ok t.tab) →
      ∀ a data, (a, data) ∈ (p.run ops).maps → ∃ (i : Nat) (t : TableObj), (p.run ops).tables[i]? = some t ∧ t.mapping = some a ∧ loadSSTable data = .ok t.tab := by
    induction ops with
    | nil => exact fun p _ h => h
    | cons op ops ih =>
      intro p hp h
      refine ih (fun e he => hops e (List.mem_cons_of_mem _ he)) (p.step op) (step_ok hp op) ?_
      intro a data ha
      have keep : (a, data) ∈ p.maps → (∀ (i : Nat) (t : TableObj), op = .close i true → p.tables[i]? = some t → t.mapping ≠ some a) →
          ∃ (i : Nat) (t : TableObj), (p.step op).tables[i]? = some t ∧ t.mapping = some a ∧ loadSSTable data = .ok t.tab := by
        intro hm hno
        obtain ⟨i, t, h1, h2, h3⟩ := h a data hm
        obtain ⟨t', g1, g2, -, g4⟩ := step_table h1 op
        refine ⟨i, t', g1, ?_, by rw [g2]; exact h3⟩
        obtain g4 | ⟨g4, -⟩ := g4
        · rw [g4, h2]
        · exact absurd h2 (hno i t g4 h1)
      cases op with
      | load e =>
        obtain ⟨hq, -⟩ | ⟨b, d, hf, -, -, hq, hc⟩ := load_cases p e
        · refine keep ?_ (by simp)
          simp only [Proc.step, hq] at ha
          exact ha
        · obtain ⟨t, hl, ht, -⟩ | ⟨-, -, hu | hu⟩ := hc
          · simp only [Proc.step, hq, List.mem_cons, Prod.mk.injEq] at ha
            obtain ⟨rfl, rfl⟩ | ha := ha
            · refine ⟨p.tables.length, ⟨t, some a, a⟩, ?_, rfl, hl⟩
              simp only [Proc.step, ht]
              rw [List.getElem?_append_right (Nat.le_refl _), Nat.sub_self]; rfl
            · exact keep ha (by simp)
          · rw [(hops e List.mem_cons_self).1] at hu
            simp at hu
          · exact absurd ((leavesMapping_iff d).mp hu) ((hops e List.mem_cons_self).2 d hf)
      | close i u =>
        obtain hq | ⟨t, b, ht, htb, rfl, hq, -⟩ := close_cases p i u
        · have e : p.step (.close i u) = p := hq
          rw [e] at ha ⊢
          exact h a data ha
        · have e : (p.step (.close i true)).maps = (p.unmap b).maps := by simp only [Proc.step, hq]
          rw [e, unmap_mem] at ha
          refine keep ha.1 ?_
          rintro j t' hj ht' hta
          simp only [TableOp.close.injEq, and_true] at hj
          subst hj
          rw [ht, Option.some.injEq] at ht'
          subst ht'
          rw [htb, Option.some.injEq] at hta
          exact ha.2 hta.symm
  have key := key Proc.start start_ok (by simp [Proc.start])
  refine ⟨key, fun hall => ?_⟩
  refine List.eq_nil_iff_forall_not_mem.mpr ?_
  rintro ⟨a, data⟩ hm
  obtain ⟨i, t, h1, h2, -⟩ := key a data hm
  have := hall t (List.mem_of_getElem? h1)
  rw [h2] at this
  simp at this

/-- C160, exactly (mappings): a file on which `LoadSSTableV1` panics early stays mapped whatever is called afterwards. -/
theorem C160_leak_partial (ops ops' : List TableOp) (e : LoadEnv) (a : Nat) (data : Bytes) (hf : e.file = some data)
    (ha : e.addr = some a) (hfree : (Proc.start.run ops).mapped a = none) (hl : LeavesMapping data) :
    ((Proc.start.run ops).load e).2 = .panic ∧ (a, data) ∈ (Proc.start.run (ops ++ .load e :: ops')).maps := by
  obtain ⟨h1, h2⟩ := (leavesMapping_iff data).mpr hl
  have hne : data ≠ [] := by
    rintro rfl
    have : isPanic (loadSSTable []) = false := by decide +kernel
    rw [h1] at this
    simp [isPanic] at this
  have hld : (Proc.start.run ops).load e =
      ({ Proc.start.run ops with files := (Proc.start.run ops).files + 1, maps := (a, data) :: (Proc.start.run ops).maps }, .panic) := by
    have hm : ({ Proc.start.run ops with files := (Proc.start.run ops).files + 1 } : Proc).mapped a = none := hfree
    rw [Proc.load, hf, ha]
    simp only [hm, hne, Option.isSome_none, Bool.false_eq_true, or_self, if_false, h1, h2]
  refine ⟨by rw [hld], ?_⟩
  have hr : Proc.start.run (ops ++ .load e :: ops') = ((Proc.start.run ops).load e).1.run ops' := by
    simp only [Proc.run, List.foldl_append, List.foldl_cons, Proc.step]
  rw [hr, hld]
  have hp := run_ok start_ok ops
  have key : ∀ (l : List TableOp) (p : Proc), ProcOk p → (a, data) ∈ p.maps → (a, data) ∈ (p.run l).maps := by
    intro l
    induction l with
    | nil => exact fun p _ h => h
    | cons op l ih =>
      intro p hp hm
      refine ih (p.step op) (step_ok hp op) (step_maps hm op ?_)
      intro i t _ ht hta
      obtain ⟨-, d, hd, hld⟩ := hp.open_ i t a ht hta
      have e1 := (mapped_some_iff hp.places).mpr hd
      have e2 := (mapped_some_iff hp.places).mpr hm
      rw [e1, Option.some.injEq] at e2
      rw [e2, h1] at hld
      simp at hld
  refine key ops' _ ?_ List.mem_cons_self
  exact ok_files (ok_cons hp data hfree) _

/-- A version without anything behind it. -/
example : LeavesMapping [0, 0, 0, 1] := .inl rfl

/-- The sample file meets the hypotheses of `C160_mappings_partial`; so does the sample cut in the middle, which does not load. -/
example : ¬ LeavesMapping sampleTable ∧ ¬ LeavesMapping (sampleTable.take 148) ∧ ¬ LeavesMapping (sampleTable.take 148 ++ [0, 0, 0, 1]) := by
  refine ⟨?_, ?_, ?_⟩ <;> rw [← leavesMapping_iff]
  · rintro ⟨h, -⟩
    have : isPanic (loadSSTable sampleTable) = false := by decide +kernel
    rw [h] at this
    simp [isPanic] at this
  · rintro ⟨h, -⟩
    have : isPanic (loadSSTable (sampleTable.take 148)) = false := by decide +kernel
    rw [h] at this
    simp [isPanic] at this
  · rintro ⟨-, h⟩
    have : loadErrSet (sampleTable.take 148 ++ [0, 0, 0, 1]) = true := by decide +kernel
    rw [h] at this
    simp at this

example := C160_mappings_partial [.load ⟨none, none, true⟩, .close 0 true] (by simp)

example : ∃ t, (Proc.start.run [.load (sampleEnv 1)]).tables[0]? = some t ∧ t.mapping = some 1 ∧ ∀ x,
    (Proc.start.run ([.load (sampleEnv 1)] ++ .close 0 true :: [.load (sampleEnv 2)])).read 0 x =
      if (t.tab.attr x).bytes = [] then .ok (t.tab.attr x) else .panic := by
  have h : (match (Proc.start.run [.load (sampleEnv 1)]).tables[0]? with | some t => decide (t.mapping = some 1) | none => false) = true := by
    decide +kernel
  split at h
  · rename_i t e
    exact ⟨t, e, of_decide_eq_true h, C159_crash_partial [.load (sampleEnv 1)] [.load (sampleEnv 2)] 0 1 t e (of_decide_eq_true h)
      (by simp [sampleEnv])⟩
  · simp at h

/-- The consensus id of the closed table is the one of the other file. -/
example : ∃ t b, (Proc.start.run [.load (sampleEnv 1)]).tables[0]? = some t ∧ t.tab.attr .consensusId = some b ∧
    (Proc.start.run ([.load (sampleEnv 1)] ++ .close 0 true :: ([] ++ .load ⟨some otherTable, some 1, true⟩ :: []))).read 0 .consensusId =
      if t.tab.attrPos .consensusId + b.length ≤ otherTable.length then .ok (some ((otherTable.drop (t.tab.attrPos .consensusId)).take b.length))
      else .panic := by
  have h : (match (Proc.start.run [.load (sampleEnv 1)]).tables[0]? with
    | some t => decide (t.mapping = some 1 ∧ t.tab.attr .consensusId = some ((sampleTable.drop 4).take 33)) | none => false) = true := by
    decide +kernel
  split at h
  · rename_i t e
    obtain ⟨h1, h2⟩ := of_decide_eq_true h
    exact ⟨t, _, e, h2, C159_stale_partial [.load (sampleEnv 1)] [] [] 0 1 1 t ⟨some otherTable, some 1, true⟩ otherTable e h1 rfl rfl
      (okOf_eq (by decide +kernel)) (by simp) .consensusId _ h2 (by decide +kernel)⟩
  · simp at h

end Poodle.Props
