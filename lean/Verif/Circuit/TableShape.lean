import Verif.Circuit.TableAccept

/-!
# What the hash table circuit looks like does not depend on the table
-/

set_option linter.unusedVariables false
set_option linter.unusedSectionVars false
set_option linter.unusedSimpArgs false

namespace Halo2
variable {F : Type} [Field F]

/-- The operation belongs to the circuit, not to the witness. -/
def Op.isShape : Op F → Bool
  | .advice _ _ _ => false
  | _ => true

/-- The operations that do not depend on the witness. -/
def shape (ops : List (Op F)) : List (Op F) := ops.filter Op.isShape

theorem shape_append (a b : List (Op F)) : shape (a ++ b) = shape a ++ shape b := List.filter_append ..

theorem mem_shape {ops : List (Op F)} {o : Op F} : o ∈ shape ops ↔ o ∈ ops ∧ o.isShape = true := List.mem_filter

theorem shape_erase (ops : List (Op F)) : shape (ops.map Op.erase) = shape ops := by
  induction ops with
  | nil => rfl
  | cons o ops ih =>
    unfold shape at ih ⊢
    cases o <;> simp [Op.erase, Op.isShape, List.filter_cons, ih]

theorem shape_of_all {ops : List (Op F)} (h : ∀ o ∈ ops, o.isShape = true) : shape ops = ops :=
  List.filter_eq_self.mpr h

/-- Two logs describe the same circuit: same fixed columns, selectors and copy constraints. -/
structure SameCircuit (ops ops' : List (Op F)) : Prop where
  fixed : ∀ c r, finalFixed ops c r = finalFixed ops' c r
  selector : ∀ c r, finalSelector ops c r = finalSelector ops' c r
  copies : ∀ u v, Op.copy u v ∈ ops ↔ Op.copy u v ∈ ops'

theorem finalFixed_shape (ops : List (Op F)) (c r : ℕ) : finalFixed (shape ops) c r = finalFixed ops c r := by
  unfold finalFixed
  generalize (0 : F) = acc
  induction ops generalizing acc with
  | nil => rfl
  | cons o ops ih =>
    unfold shape at ih ⊢
    cases o <;> simp only [Op.isShape, List.filter_cons, if_true, List.foldl_cons, ih, Bool.false_eq_true, if_false]

theorem SameCircuit.of_shape {ops ops' : List (Op F)} (h : shape ops = shape ops') : SameCircuit ops ops' := by
  refine ⟨fun c r => ?_, fun c r => ?_, fun u v => ?_⟩
  · rw [← finalFixed_shape ops, ← finalFixed_shape ops', h]
  · have : ∀ l : List (Op F), finalSelector l c r = true ↔ Op.selector c r ∈ shape l := fun l => by
      rw [finalSelector_iff, mem_shape]; simp [Op.isShape]
    rw [Bool.eq_iff_iff, this, this, h]
  · have : ∀ l : List (Op F), Op.copy u v ∈ l ↔ Op.copy u v ∈ shape l := fun l => by
      rw [mem_shape]; simp [Op.isShape]
    rw [this ops, h, ← this ops']

theorem SameCircuit.trans {a b c : List (Op F)} (h : SameCircuit a b) (h' : SameCircuit b c) :
    SameCircuit a c :=
  ⟨fun i r => (h.fixed i r).trans (h'.fixed i r), fun i r => (h.selector i r).trans (h'.selector i r),
    fun u v => (h.copies u v).trans (h'.copies u v)⟩

theorem SameCircuit.symm {a b : List (Op F)} (h : SameCircuit a b) : SameCircuit b a :=
  ⟨fun i r => (h.fixed i r).symm, fun i r => (h.selector i r).symm, fun u v => (h.copies u v).symm⟩

/-- Enabling a selector twice changes nothing. -/
theorem dup_selector (a b : List (Op F)) (c r : ℕ) (h : Op.selector c r ∈ a) :
    SameCircuit (a ++ ([.selector c r] ++ b)) (a ++ b) ∧
      ∀ i j, finalAdvice (a ++ ([.selector c r] ++ b)) i j = finalAdvice (a ++ b) i j := by
  refine ⟨⟨fun i j => ?_, fun i j => ?_, fun u v => ?_⟩, fun i j => ?_⟩
  · simp only [finalFixed, List.foldl_append, List.foldl_cons, List.foldl_nil]
  · rw [Bool.eq_iff_iff, finalSelector_iff, finalSelector_iff]
    simp only [List.mem_append, List.mem_singleton, Op.selector.injEq]
    constructor
    · rintro (h' | ⟨rfl, rfl⟩ | h')
      · exact Or.inl h'
      · exact Or.inl h
      · exact Or.inr h'
    · rintro (h' | h')
      · exact Or.inl h'
      · exact Or.inr (Or.inr h')
  · simp only [List.mem_append, List.mem_singleton, reduceCtorEq, false_or]
  · simp only [finalAdvice, List.foldl_append, List.foldl_cons, List.foldl_nil]

end Halo2

namespace Circuit.Table
open Halo2

variable {F : Type} [Field F] [DecidableEq F] (legacy : Bool) (STEP : ℕ)
  (π : (Fin 3 → F) → Fin 3 → F)

section
variable {P : Type} (cfg : SpongeConfig P)

theorem shape_rowOps (s off : ℕ) (st : FillState F) (row : RowData F) :
    shape (rowOps legacy STEP π cfg s off st row) = [.fixed cfg.qEnable (s + off) 1] := by
  rw [rowOps, shape_append, rowW_ops]
  have h2 : shape (if row.control.getD 0 ≤ STEP then
      (writeIndex cfg s (if st.isNew then off else st.processStart) off (π (inState legacy st row) 0)).ops
      else []) = [] := by
    split
    · refine List.filter_eq_nil_iff.mpr fun o ho => ?_
      obtain ⟨i, -, -, rfl⟩ := (mem_writeIndex cfg _ _ _ _ _).mp ho
      simp [Op.isShape]
    · rfl
  rw [h2]
  simp [shape, Op.isShape, List.filter_cons]

theorem shape_fillOps (s off : ℕ) (st : FillState F) (rows : List (RowData F)) :
    shape (fillOps legacy STEP π cfg s off st rows) =
      (List.range' off rows.length).map fun i => .fixed cfg.qEnable (s + i) 1 := by
  induction rows generalizing off st with
  | nil => rfl
  | cons row rest ih =>
    rw [fillOps, shape_append, shape_rowOps, ih, List.length_cons, List.range'_succ, List.map_cons]
    rfl

end

section
variable {ch : Chip F 3} (lw : ch.Lawful π) (a f σ q : ℕ) (ht : Fin 6 → ℕ) (step : ℕ)
  (row row' : ℕ → RowData F) (N : ℕ)

theorem inWords_cells (s : ℕ) : cells (inWords legacy STEP π lw a f σ q ht step row N s) =
    (List.range N).map fun j k => ⟨.advice (a + k), s + (j + 1)⟩ := by
  unfold cells
  refine List.ext_getElem (by simp [length_inWords]) fun j h1 h2 => ?_
  rw [List.getElem_map, List.getElem_map, List.getElem_range]
  funext k
  exact inWords_cell legacy STEP π lw a f σ q ht step row N s j _ k

theorem outWords_cells (s : ℕ) : cells (outWords legacy STEP π lw a f σ q ht step row N s) =
    (List.range N).map fun j k => ⟨.advice (outCol a k), s + (j + 1)⟩ := by
  unfold cells
  refine List.ext_getElem (by simp [length_outWords]) fun j h1 h2 => ?_
  rw [List.getElem_map, List.getElem_map, List.getElem_range]
  funext k
  exact outWords_cell legacy STEP π lw a f σ q ht step row N s j _ k

/-- The copies depend only on the cells. -/
theorem finalOps_cells (outs outs' finals finals' : List (Words F 3)) (h : cells outs = cells outs')
    (h' : cells finals = cells finals') : finalOps outs finals = finalOps outs' finals' := by
  have key : ∀ outs finals : List (Words F 3), finalOps outs finals =
      ((cells outs).zip (cells finals)).flatMap fun q => (List.finRange 3).flatMap fun k =>
        [.copy (q.1 k) (q.2 k)] := by
    intro outs finals
    unfold finalOps constrainFinal cells
    rw [List.zip_map, List.flatMap_map]
    rfl
  rw [key, key, h, h']

/-- The circuit part of the log does not depend on the rows. -/
theorem shape_loadOps (tail : List (Op F)) (s : ℕ) (s' : ℕ → ℕ) :
    shape (loadOps legacy STEP π lw a f σ q ht step ((List.range N).map row) tail s s') =
      shape (loadOps legacy STEP π lw a f σ q ht step ((List.range N).map row') tail s s') := by
  have hin : cells (inWords legacy STEP π lw a f σ q ht step row N s) =
      cells (inWords legacy STEP π lw a f σ q ht step row' N s) := by
    rw [inWords_cells, inWords_cells]
  have hout : cells (outWords legacy STEP π lw a f σ q ht step row N s) =
      cells (outWords legacy STEP π lw a f σ q ht step row' N s) := by
    rw [outWords_cells, outWords_cells]
  have h1 : shape (lw.ops (a + 8) (f + 1) (σ + 1) (inWords legacy STEP π lw a f σ q ht step row N s) s') =
      shape (lw.ops (a + 8) (f + 1) (σ + 1) (inWords legacy STEP π lw a f σ q ht step row' N s) s') := by
    rw [← shape_erase, lw.ops_erase _ _ _ _ _ s' hin, shape_erase]
  have h2 := finalOps_cells _ _ _ _ hout (lw.outs_cells (a + 8) (f + 1) (σ + 1) _ _ s' hin)
  unfold inWords at h1 h2
  unfold outWords at h2
  unfold loadOps tableOps
  simp only [shape_append, shape_fillOps, List.length_map, h1, h2]

/-- Without rows, nothing depends on where the permutations start. -/
theorem loadOps_zero (row : ℕ → RowData F) (tail : List (Op F)) (s : ℕ) (s' s'' : ℕ → ℕ) :
    loadOps legacy STEP π lw a f σ q ht step ((List.range 0).map row) tail s s' =
      loadOps legacy STEP π lw a f σ q ht step ((List.range 0).map row) tail s s'' := by
  unfold loadOps
  simp only [List.range_zero, List.map_nil, tablePairs, fillPairs, lw.ops_nil, lw.outs_nil]

end
end Circuit.Table

namespace Circuit
open Halo2 Table

/-- Serial, or parallel with some number of threads. -/
def LoadMode.isSerial : LoadMode → Bool
  | .serial => true
  | .parallel _ => false

namespace Run
variable {F : Type} [Field F] [DecidableEq F] {x : Run F} {π : (Fin 3 → F) → Fin 3 → F}

/-- The same circuit with another table and loading mode. -/
def reload (x : Run F) (t : HashTable F) (m : LoadMode) : Run F := { x with table := t, mode := m }

/-- All columns of the circuit are free from the same row on. -/
def Level (x : Run F) : Prop := ∃ e, (∀ c, x.AdviceCol c → x.before.colEnd (.advice c) = e) ∧
  (∀ c, x.FixedCol c → x.before.colEnd (.fixed c) = e) ∧
  (∀ c, x.Sel c → x.before.colEnd (.selector c) = e)

theorem Fresh.level (h : x.Fresh) : x.Level := ⟨0, h⟩

/-- Both runs start in the same place. -/
theorem ops_reload (lw : x.ch.Lawful π) {t : HashTable F} {m : LoadMode} (hx : x.Legal)
    (hy : (x.reload t m).Legal) (hn : x.native = fun s => .ok (π s)) {L L' : Layouter F}
    (h : x.load = .ok L) (h' : (x.reload t m).load = .ok L')
    (hm : x.mode.isSerial = m.isSerial ∨ x.Level) :
    ∃ s s', L.ops = x.before.ops ++ ops lw s s' ∧
      L'.ops = x.before.ops ++ ops (x := x.reload t m) lw s s' := by
  obtain ⟨s, s', ho, -, st⟩ := (load_iff lw hx hn).2.2 L h
  obtain ⟨s₂, s₂', ho', -, st'⟩ := (load_iff (x := x.reload t m) lw hy hn).2.2 L' h'
  obtain ⟨k, rfl, stk⟩ := st.2
  obtain ⟨k₂, rfl, stk'⟩ := st'.2
  have hs : s = s₂ ∧ (0 < x.calcs → k = k₂) := by
    rcases hm with hk | ⟨e, h1, h2, h3⟩
    · constructor
      · refine st.1.unique ?_
        have := st'.1
        have he : tableKey (conf lw x.cs.numAdvice x.cs.numFixed x.cs.numSelectors x.qEnable x.hashTable x.step)
            m x.calcs = tableKey (conf lw x.cs.numAdvice x.cs.numFixed x.cs.numSelectors x.qEnable x.hashTable
            x.step) x.mode x.calcs := by
          funext c
          unfold tableKey
          have : (m = LoadMode.serial) = (x.mode = LoadMode.serial) := by
            generalize x.mode = m' at hk ⊢
            cases m' <;> cases m <;> simp_all [LoadMode.isSerial]
          rw [this]
        rw [← he]
        exact this
      · intro h0
        refine (stk h0).unique ?_
        have := stk' h0
        have he : chipKey lw x.cs.numAdvice x.cs.numFixed x.cs.numSelectors m =
            chipKey lw x.cs.numAdvice x.cs.numFixed x.cs.numSelectors x.mode := by
          generalize x.mode = m' at hk ⊢
          cases m' <;> cases m <;> simp_all [LoadMode.isSerial, chipKey]
        rw [← he]
        exact this
    · have hT : ∀ (mode : LoadMode) (k : RCol), tableKey (conf lw x.cs.numAdvice x.cs.numFixed
          x.cs.numSelectors x.qEnable x.hashTable x.step) mode x.calcs k → x.before.colEnd k = e := by
        rintro mode k ⟨hk, -⟩
        cases k with
        | advice c =>
          refine h1 c ((adviceCol_iff lw c).mpr ?_)
          rcases hk with ⟨i, hi⟩ | ⟨i, hi⟩ | hi | hi
          · exact Or.inl ⟨i, hi⟩
          · simp only [conf] at hi; exact Or.inr ⟨by omega, by omega⟩
          · simp only [conf] at hi; exact Or.inr ⟨by omega, by omega⟩
          · simp only [conf] at hi; exact Or.inr ⟨by omega, by omega⟩
        | fixed c => exact h2 c (Or.inl hk)
        | selector c =>
          have : c = x.cs.numSelectors := hk
          exact h3 c ((sel_iff lw c).mpr ⟨by omega, by omega⟩)
      have hC : ∀ (mode : LoadMode) (k : RCol), chipKey lw x.cs.numAdvice x.cs.numFixed
          x.cs.numSelectors mode k → x.before.colEnd k = e := by
        intro mode k hk
        have hk' := lw.key_own (x.cs.numAdvice + 8) (x.cs.numFixed + 1) (x.cs.numSelectors + 1) k (by
          cases mode with
          | serial => exact Or.inl hk
          | parallel _ => exact Or.inr hk)
        rcases hk' with ⟨i, hi, rfl⟩ | ⟨i, hi, rfl⟩ | ⟨i, hi, rfl⟩
        · exact h1 _ ((adviceCol_iff lw _).mpr (Or.inr ⟨by omega, by omega⟩))
        · exact h2 _ ((fixedCol_iff lw _).mpr (Or.inr ⟨by omega, by omega⟩))
        · exact h3 _ ((sel_iff lw _).mpr ⟨by omega, by omega⟩)
      exact ⟨(st.1.const (hT _)).trans (st'.1.const (hT _)).symm,
        fun h0 => ((stk h0).const (hC _)).trans ((stk' h0).const (hC _)).symm⟩
  obtain ⟨rfl, hs'⟩ := hs
  refine ⟨s, _, ho, ?_⟩
  rcases Nat.eq_zero_or_pos x.calcs with h0 | h0
  · rw [ho']
    unfold ops
    have hc : (x.reload t m).calcs = 0 := h0
    rw [hc]
    congr 1
    exact loadOps_zero _ _ _ lw _ _ _ _ _ _ _ _ _ _ _
  · rw [hs' h0]; exact ho'

/-- Under the same floor planner, any other table whose checks pass is put in the same place. -/
theorem Loads.reload (lw : x.ch.Lawful π) {t : HashTable F} (hx : x.Legal) (hy : (x.reload t x.mode).Legal)
    (hn : x.native = fun s => .ok (π s)) {L : Layouter F} (h : x.Loads L)
    (hcap : Capacity t x.calcs x.mode) (hck : AllChecks x.legacy x.STEP π (rowData t x.calcs)) :
    ∃ L' s s', (x.reload t x.mode).Loads L' ∧ L.ops = x.before.ops ++ ops lw s s' ∧
      L'.ops = x.before.ops ++ ops (x := x.reload t x.mode) lw s s' := by
  rcases h with h | ⟨plan, hp, h⟩
  · obtain ⟨L', h'⟩ := (load_iff (x := x.reload t x.mode) lw hy hn).1.mpr ⟨hcap, hck⟩
    obtain ⟨s, s', ho, ho'⟩ := ops_reload lw hx hy hn h h' (Or.inl rfl)
    exact ⟨L', s, s', Or.inl h', ho, ho'⟩
  · have hm := hp.1
    obtain ⟨h1, -, h3⟩ := loadPlanned_iff (x := x.reload t x.mode) lw plan hn hm
    obtain ⟨L', h'⟩ := h1.mpr ⟨by rw [hm] at hcap; exact hcap, hck⟩
    exact ⟨L', plan 0, _, Or.inr ⟨plan, hp, h'⟩, (loadPlanned_iff lw plan hn hm).2.2 L h, h3 L' h'⟩

/-- With the same table, both modes write the same, whatever comes before and after. -/
theorem ops_mode (lw : x.ch.Lawful π) (m : LoadMode) (s : ℕ) (s' : ℕ → ℕ) (pre post : List (Op F)) :
    (0 < x.calcs → ops (x := x.reload x.table m) lw s s' = ops lw s s') ∧
    SameCircuit (pre ++ (ops (x := x.reload x.table m) lw s s' ++ post)) (pre ++ (ops lw s s' ++ post)) ∧
    ∀ c r, finalAdvice (pre ++ (ops (x := x.reload x.table m) lw s s' ++ post)) c r =
      finalAdvice (pre ++ (ops lw s s' ++ post)) c r := by
  have htail : 0 < x.calcs ∨ m.isSerial = x.mode.isSerial →
      tailOps (F := F) x.cs.numSelectors s x.calcs m = tailOps x.cs.numSelectors s x.calcs x.mode := by
    generalize x.mode = m'
    intro h
    cases m <;> cases m' <;> simp_all [tailOps, LoadMode.isSerial] <;> omega
  have heq : 0 < x.calcs ∨ m.isSerial = x.mode.isSerial →
      ops (x := x.reload x.table m) lw s s' = ops lw s s' := by
    intro h
    unfold ops
    have := htail h
    simp only [reload]
    rw [this]
  refine ⟨fun h => heq (Or.inl h), ?_⟩
  by_cases hc : 0 < x.calcs ∨ m.isSerial = x.mode.isSerial
  · rw [heq hc]
    exact ⟨⟨fun _ _ => rfl, fun _ _ => rfl, fun _ _ => Iff.rfl⟩, fun _ _ => rfl⟩
  · have h0 : x.calcs = 0 := by omega
    have hk : m.isSerial ≠ x.mode.isSerial := fun h => hc (Or.inr h)
    -- one mode enables the custom selector of the first row twice
    obtain ⟨A, hA⟩ : ∃ A, A = rangeOps x.legacy x.STEP x.cs.numFixed ++ tableOps x.legacy x.STEP π (conf lw
        x.cs.numAdvice x.cs.numFixed x.cs.numSelectors x.qEnable x.hashTable x.step) s
        ((List.range x.calcs).map (rowAt x.table)) := ⟨_, rfl⟩
    obtain ⟨B, hB⟩ : ∃ B, B = lw.ops (x.cs.numAdvice + 8) (x.cs.numFixed + 1) (x.cs.numSelectors + 1)
            (inWords x.legacy x.STEP π lw x.cs.numAdvice x.cs.numFixed x.cs.numSelectors x.qEnable x.hashTable
              x.step (rowAt x.table) x.calcs s) s' ++
          finalOps (outWords x.legacy x.STEP π lw x.cs.numAdvice x.cs.numFixed x.cs.numSelectors x.qEnable
            x.hashTable x.step (rowAt x.table) x.calcs s) (lw.outs (x.cs.numAdvice + 8) (x.cs.numFixed + 1)
            (x.cs.numSelectors + 1) (inWords x.legacy x.STEP π lw x.cs.numAdvice x.cs.numFixed
            x.cs.numSelectors x.qEnable x.hashTable x.step (rowAt x.table) x.calcs s) s') := ⟨_, rfl⟩
    have key : ∀ tail : List (Op F), pre ++ (loadOps x.legacy x.STEP π lw x.cs.numAdvice
        x.cs.numFixed x.cs.numSelectors x.qEnable x.hashTable x.step ((List.range x.calcs).map (rowAt x.table))
        tail s s' ++ post) = (pre ++ A) ++ (tail ++ (B ++ post)) := by
      intro tail
      rw [hA, hB]
      unfold loadOps inWords outWords
      simp only [List.append_assoc]
    have hmem : Op.selector x.cs.numSelectors s ∈ pre ++ A := by
      rw [hA]
      exact List.mem_append_right _ (List.mem_append_right _ (List.mem_append_left _
        ((mem_customOps _ s _).mpr (Or.inl rfl))))
    have e1 : tailOps (F := F) x.cs.numSelectors s x.calcs .serial = [.selector x.cs.numSelectors s] := by
      simp [tailOps, h0]
    have e2 : ∀ n, tailOps (F := F) x.cs.numSelectors s x.calcs (.parallel n) = [] := by
      simp [tailOps, h0]
    unfold ops
    simp only [reload]
    rw [key, key]
    generalize x.mode = m' at hk ⊢
    have dup := dup_selector _ (B ++ post) x.cs.numSelectors s hmem
    cases m with
    | serial =>
      cases m' with
      | serial => exact absurd rfl hk
      | parallel n => rw [e1, e2]; exact dup
    | parallel n =>
      cases m' with
      | serial => rw [e1, e2]; exact ⟨dup.1.symm, fun c r => (dup.2 c r).symm⟩
      | parallel n => exact absurd rfl hk

/-- The circuit part does not depend on table and mode, whatever comes before and after. -/
theorem ops_shape' (lw : x.ch.Lawful π) (t : HashTable F) (m : LoadMode) (s : ℕ) (s' : ℕ → ℕ) (pre post : List (Op F)) :
    SameCircuit (pre ++ (ops lw s s' ++ post)) (pre ++ (ops (x := x.reload t m) lw s s' ++ post)) := by
  refine (ops_mode lw m s s' pre post).2.1.symm.trans (SameCircuit.of_shape ?_)
  unfold ops
  simp only [reload, shape_append]
  rw [shape_loadOps]

theorem ops_shape (lw : x.ch.Lawful π) (t : HashTable F) (m : LoadMode) (s : ℕ) (s' : ℕ → ℕ) :
    SameCircuit (ops lw s s') (ops (x := x.reload t m) lw s s') := by
  have := ops_shape' lw t m s s' [] []
  simpa only [List.nil_append, List.append_nil] using this

/-- Rows used by both logs. -/
theorem ops_fits (lw : x.ch.Lawful π) (t : HashTable F) (m : LoadMode) (s : ℕ) (s' : ℕ → ℕ) (u : ℕ)
    (h : Fits (ops lw s s') u) : Fits (ops (x := x.reload t m) lw s s') u := by
  have hsel : s + x.calcs < u := by
    have hm : Op.selector x.cs.numSelectors (s + x.calcs) ∈ ops lw s s' := by
      rw [← finalSelector_iff]
      exact (load_selector _ _ _ _ _ _ _ _ _ _ _ _ _ s s' _).mpr (Or.inr rfl)
    have := h _ hm
    simp only [Op.bottom] at this
    omega
  intro o ho
  have ho' := (mem_loadOps x.legacy x.STEP π lw x.cs.numAdvice x.cs.numFixed x.cs.numSelectors x.qEnable
    x.hashTable x.step (rowAt t) x.calcs _ s s' o).mp ho
  have hx := fun o => (mem_loadOps x.legacy x.STEP π lw x.cs.numAdvice x.cs.numFixed x.cs.numSelectors x.qEnable
    x.hashTable x.step (rowAt x.table) x.calcs (tailOps x.cs.numSelectors s x.calcs x.mode) s s' o).mpr
  rcases ho' with h1 | h1 | h1 | h1 | h1
  · exact h o (hx o (Or.inl h1))
  · obtain ⟨c, -, -, hb⟩ := tableOps_cols _ _ _ _ h1
    rw [List.length_map, List.length_range] at hb
    omega
  · rw [mem_tailOps _ _ _ _ _ h1]
    simp only [Op.bottom]
    show s + x.calcs + 1 ≤ u
    omega
  · have he := lw.ops_erase (x.cs.numAdvice + 8) (x.cs.numFixed + 1) (x.cs.numSelectors + 1) _ _ s'
      ((inWords_cells x.legacy x.STEP π lw x.cs.numAdvice x.cs.numFixed x.cs.numSelectors x.qEnable
        x.hashTable x.step (rowAt t) x.calcs s).trans (inWords_cells x.legacy x.STEP π lw x.cs.numAdvice
        x.cs.numFixed x.cs.numSelectors x.qEnable x.hashTable x.step (rowAt x.table) x.calcs s).symm)
    have hm := List.mem_map_of_mem (f := Op.erase) h1
    rw [he, List.mem_map] at hm
    obtain ⟨o', ho', e⟩ := hm
    have hb : ∀ o : Op F, o.erase.bottom = o.bottom := fun o => by cases o <;> rfl
    rw [← hb o, ← e, hb o']
    exact h o' (hx o' (Or.inr (Or.inr (Or.inr (Or.inl ho')))))
  · obtain ⟨q, -, k, rfl⟩ := (mem_finalOps _ _ _).mp h1
    simp [Op.bottom]

/-- A grid laid out by one run is laid out by the other. -/
theorem laid_reload (lw : x.ch.Lawful π) {t : HashTable F} {m : LoadMode} {L L' : Layouter F} {s : ℕ} {s' : ℕ → ℕ}
    (h : L.ops = x.before.ops ++ ops lw s s')
    (h' : L'.ops = x.before.ops ++ ops (x := x.reload t m) lw s s') {post : List (Op F)} {g : Grid F}
    (hl : x.Laid L post g) : (x.reload t m).Laid L' post g := by
  have hsame := ops_shape lw t m s s'
  refine ⟨hl.usable_le, ?_, hl.quietFixed, hl.quietSel, fun c hc r hr hu => ?_, fun c hc r hr => ?_⟩
  · rw [newOps_eq (x := x.reload t m) lw h']
    have := hl.fits
    rw [newOps_eq lw h] at this
    exact ops_fits lw t m s s' _ this
  · rw [hl.fixed_new lw h c hc r hr hu, hsame.fixed, h']
    exact (finalFixed_between (fun o ho r v hw => hl.quietFixed o (by simp [ho]) c r v hw hc)
      (fun o ho r v hw => hl.quietFixed o (by simp [ho]) c r v hw hc) r).symm
  · rw [hl.selector_new lw h c hc r hr, hsame.selector, h']
    exact (finalSelector_between (fun r ho => hl.quietSel c r (by simp [ho]) hc)
      (fun r ho => hl.quietSel c r (by simp [ho]) hc) r).symm

/-- A grid accepted for one run is accepted for the other. -/
theorem satisfies_reload (lw : x.ch.Lawful π) {t : HashTable F} {m : LoadMode} {L L' : Layouter F} {s : ℕ} {s' : ℕ → ℕ}
    (h : L.ops = x.before.ops ++ ops lw s s')
    (h' : L'.ops = x.before.ops ++ ops (x := x.reload t m) lw s s') {g : Grid F}
    (hl : x.Satisfies L g) : (x.reload t m).Satisfies L' g := by
  refine ⟨hl.gates, hl.lookups, fun u v hm => ?_⟩
  rw [newOps_eq (x := x.reload t m) lw h'] at hm
  refine hl.copies u v ?_
  rw [newOps_eq lw h]
  exact ((ops_shape lw t m s s').copies u v).mpr hm

/-- The grid with the witness of the run in its advice columns. -/
noncomputable def fillAdvice (x : Run F) (L' : Layouter F) (post : List (Op F)) (g : Grid F) : Grid F :=
  open Classical in
  { g with advice := fun c r => if x.AdviceCol c then finalAdvice (L'.ops ++ post) c r else g.advice c r }

/-- Every laid-out grid can be filled with the witness. -/
theorem honest_fill {L' : Layouter F} {post : List (Op F)} {g : Grid F} (hl : x.Laid L' post g)
    (hq : ∀ c r v, Op.advice c r v ∈ x.before.ops ++ post → ¬ x.AdviceCol c) :
    x.Honest L' post (x.fillAdvice L' post g) :=
  { usable_le := hl.usable_le
    fits := hl.fits
    quietFixed := hl.quietFixed
    quietSel := hl.quietSel
    fixed := hl.fixed
    selector := hl.selector
    quietAdvice := hq
    advice := fun c hc r _ => if_pos hc }

end Run
end Circuit
