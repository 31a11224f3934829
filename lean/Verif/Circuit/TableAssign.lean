import Verif.Circuit.TableFill

/-!
# The serial and parallel assignments of the hash table
-/

set_option linter.unusedVariables false
set_option linter.unusedSectionVars false
set_option linter.unusedSimpArgs false

open Halo2

namespace Circuit.Table

variable {F : Type} [Field F] [DecidableEq F] (legacy : Bool) (STEP : ℕ)
  (π : (Fin 3 → F) → Fin 3 → F) {P : Type} (cfg : SpongeConfig P)

/-- The columns of the table, as seen by the floor planner. -/
def TableCol : RCol → Prop
  | .advice c => (∃ i, c = cfg.hashTable i) ∨ (∃ i, c = cfg.aux i) ∨ c = cfg.controlAux ∨
      c = cfg.sContinue
  | .fixed c => c = cfg.qEnable
  | .selector c => c = cfg.sCustom

/-- The columns whose first free rows decide where the table starts: the enable column belongs to them
only in serial mode with at least one row. -/
def tableKey (mode : LoadMode) (calcs : ℕ) (c : RCol) : Prop :=
  TableCol cfg c ∧ (c = .fixed cfg.qEnable → mode = .serial ∧ 0 < calcs)

/-- The writes of the custom row. -/
def customOps (s : ℕ) : List (Op F) := (fillCustom cfg s).ops

theorem mem_customOps (s : ℕ) (o : Op F) : o ∈ customOps (F := F) cfg s ↔
    o = .selector cfg.sCustom s ∨ ∃ c, o = .advice c s 0 ∧ TableCol cfg (.advice c) := by
  simp only [customOps, fillCustom, fillCustom.for', enableSelector, assignAdvice, bind, pure,
    List.mem_append, List.mem_flatMap, List.mem_singleton, List.mem_ofFn, TableCol,
    List.not_mem_nil, or_false, Nat.add_zero]
  constructor
  · rintro (h | ⟨c, ⟨i, rfl⟩, h⟩ | ⟨c, ⟨i, rfl⟩, h⟩ | ⟨c, rfl, h⟩ | ⟨c, rfl, h⟩)
    · exact Or.inl h
    · exact Or.inr ⟨_, h, Or.inl ⟨i, rfl⟩⟩
    · exact Or.inr ⟨_, h, Or.inr (Or.inl ⟨i, rfl⟩)⟩
    · exact Or.inr ⟨_, h, Or.inr (Or.inr (Or.inl rfl))⟩
    · exact Or.inr ⟨_, h, Or.inr (Or.inr (Or.inr rfl))⟩
  · rintro (h | ⟨c, h, ⟨i, rfl⟩ | ⟨i, rfl⟩ | rfl | rfl⟩)
    · exact Or.inl h
    · exact Or.inr (Or.inl ⟨_, ⟨i, rfl⟩, h⟩)
    · exact Or.inr (Or.inr (Or.inl ⟨_, ⟨i, rfl⟩, h⟩))
    · exact Or.inr (Or.inr (Or.inr (Or.inl ⟨_, rfl, h⟩)))
    · exact Or.inr (Or.inr (Or.inr (Or.inr ⟨_, rfl, h⟩)))

theorem rowW_ops (s off : ℕ) (st : FillState F) (row : RowData F) :
    (rowW legacy π cfg s off st row).ops =
      [.fixed cfg.qEnable (s + off) 1,
       .advice (cfg.aux 0) (s + off) (inState legacy st row 0),
       .advice (cfg.aux 1) (s + off) (inState legacy st row 1),
       .advice (cfg.aux 2) (s + off) (inState legacy st row 2),
       .advice (cfg.aux 5) (s + off) (π (inState legacy st row) 0),
       .advice (cfg.aux 3) (s + off) (π (inState legacy st row) 1),
       .advice (cfg.aux 4) (s + off) (π (inState legacy st row) 2),
       .advice (cfg.hashTable 1) (s + off) (row.inp.getD (0, 0)).1,
       .advice (cfg.hashTable 2) (s + off) (row.inp.getD (0, 0)).2,
       .advice (cfg.hashTable 3) (s + off) (specFlag legacy (row.control.getD 0)),
       .advice (cfg.hashTable 4) (s + off) (row.domain.getD 0),
       .advice (cfg.hashTable 5) (s + off) (if st.isNew then 1 else 0),
       .advice cfg.controlAux (s + off)
         (if (specFlag legacy (row.control.getD 0) : F) = 0 then 0
           else (specFlag legacy (row.control.getD 0))⁻¹),
       .advice cfg.sContinue (s + off) (if st.isNew then 0 else 1)] := rfl

theorem rowW_val (s off : ℕ) (st : FillState F) (row : RowData F) :
    (rowW legacy π cfg s off st row).val =
      (![⟨⟨.advice (cfg.aux 0), s + off⟩, inState legacy st row 0⟩,
         ⟨⟨.advice (cfg.aux 1), s + off⟩, inState legacy st row 1⟩,
         ⟨⟨.advice (cfg.aux 2), s + off⟩, inState legacy st row 2⟩],
       ![⟨⟨.advice (cfg.aux 5), s + off⟩, π (inState legacy st row) 0⟩,
         ⟨⟨.advice (cfg.aux 3), s + off⟩, π (inState legacy st row) 1⟩,
         ⟨⟨.advice (cfg.aux 4), s + off⟩, π (inState legacy st row) 2⟩]) := rfl

theorem mem_writeIndex (s p off : ℕ) (v : F) (o : Op F) :
    o ∈ (writeIndex cfg s p off v).ops ↔
      ∃ i, p ≤ i ∧ i ≤ off ∧ o = .advice (cfg.hashTable 0) (s + i) v := by
  simp only [writeIndex, assignAdvice, List.mem_flatMap, List.mem_range'_1, List.mem_singleton]
  constructor
  · rintro ⟨i, ⟨h1, h2⟩, h⟩; exact ⟨i, h1, by omega, h⟩
  · rintro ⟨i, h1, h2, h⟩; exact ⟨i, ⟨h1, by omega⟩, h⟩

theorem mem_rowOps (s off : ℕ) (st : FillState F) (row : RowData F) (o : Op F) :
    o ∈ rowOps legacy STEP π cfg s off st row ↔
      o ∈ (rowW legacy π cfg s off st row).ops ∨
      (row.control.getD 0 ≤ STEP ∧ ∃ i, (if st.isNew then off else st.processStart) ≤ i ∧ i ≤ off ∧
        o = .advice (cfg.hashTable 0) (s + i) (π (inState legacy st row) 0)) := by
  simp only [rowOps, List.mem_append]
  split
  · rename_i h
    rw [mem_writeIndex]
    simp [h]
  · rename_i h
    simp [h]

/-- All row writes are to columns of the table, at rows up to the current one. -/
theorem rowOps_cols {s off : ℕ} {st : FillState F} {row : RowData F} {o : Op F}
    (h : o ∈ rowOps legacy STEP π cfg s off st row) :
    ∃ c, o.rcol = some c ∧ TableCol cfg c ∧ o.bottom ≤ s + off + 1 := by
  rw [mem_rowOps, rowW_ops] at h
  rcases h with h | ⟨-, i, -, hi, rfl⟩
  · simp only [List.mem_cons, List.not_mem_nil, or_false] at h
    rcases h with rfl | rfl | rfl | rfl | rfl | rfl | rfl | rfl | rfl | rfl | rfl | rfl | rfl | rfl <;>
      exact ⟨_, rfl, by simp [TableCol], le_rfl⟩
  · exact ⟨_, rfl, by simp [TableCol], by simp only [Op.bottom]; omega⟩

theorem fillOps_cols {s off : ℕ} {st : FillState F} {rows : List (RowData F)} {o : Op F}
    (h : o ∈ fillOps legacy STEP π cfg s off st rows) :
    ∃ c, o.rcol = some c ∧ TableCol cfg c ∧ o.bottom ≤ s + off + rows.length := by
  induction rows generalizing off st with
  | nil => cases h
  | cons row rest ih =>
    rcases List.mem_append.mp h with h | h
    · obtain ⟨c, h1, h2, h3⟩ := rowOps_cols legacy STEP π cfg h
      exact ⟨c, h1, h2, by simp only [List.length_cons]; omega⟩
    · obtain ⟨c, h1, h2, h3⟩ := ih h
      exact ⟨c, h1, h2, by simp only [List.length_cons]; omega⟩

theorem customOps_cols {s : ℕ} {o : Op F} (h : o ∈ customOps (F := F) cfg s) :
    ∃ c, o.rcol = some c ∧ TableCol cfg c ∧ o.bottom = s + 1 := by
  rcases (mem_customOps cfg s o).mp h with rfl | ⟨c, rfl, hc⟩
  · exact ⟨_, rfl, rfl, rfl⟩
  · exact ⟨_, rfl, hc, rfl⟩

/-- What the table assignment writes, in order, for a table starting at row `s`. -/
def tableOps (s : ℕ) (rows : List (RowData F)) : List (Op F) :=
  customOps cfg s ++ fillOps legacy STEP π cfg s 1 st0 rows

def tablePairs (s : ℕ) (rows : List (RowData F)) : List (WordPair F) :=
  fillPairs legacy STEP π cfg s 1 st0 rows

/-- The checks of all rows are right. -/
def AllChecks (rows : List (RowData F)) : Prop := ChecksOK legacy STEP π 1 st0 rows

theorem tableOps_cols {s : ℕ} {rows : List (RowData F)} {o : Op F}
    (h : o ∈ tableOps legacy STEP π cfg s rows) :
    ∃ c, o.rcol = some c ∧ TableCol cfg c ∧ o.bottom ≤ s + 1 + rows.length := by
  rcases List.mem_append.mp h with h | h
  · obtain ⟨c, h1, h2, h3⟩ := customOps_cols cfg h
    exact ⟨c, h1, h2, by omega⟩
  · exact fillOps_cols legacy STEP π cfg h

theorem length_rowData (t : HashTable F) (calcs : ℕ) : (rowData t calcs).length = calcs := by
  simp [rowData]

theorem length_fillPairs (s off : ℕ) (st : FillState F) (rows : List (RowData F)) :
    (fillPairs legacy STEP π cfg s off st rows).length = rows.length := by
  induction rows generalizing off st with
  | nil => rfl
  | cons row rest ih => simp only [fillPairs, List.length_cons, ih]

theorem fillCustom_val (s : ℕ) : (fillCustom (F := F) cfg s).val = 1 := rfl

/-- The region body of the serial assignment. -/
theorem serial_body (t : HashTable F) (calcs s : ℕ)
    (h1 : t.inputs.length ≤ calcs ∧ t.controls.length ≤ calcs)
    (h2 : AllChecks legacy STEP π (rowData t calcs)) :
    (do
      let c := fillCustom cfg s
      let x ← fillBody legacy STEP (fun s => .ok (π s)) cfg t calcs s c.val
      return do
        let _ ← c
        x : Except Panic (W F (List (WordPair F)))) =
    .ok ⟨tablePairs legacy STEP π cfg s (rowData t calcs),
      tableOps legacy STEP π cfg s (rowData t calcs) ++ [.selector cfg.sCustom (s + calcs)]⟩ := by
  have e : (if (rowData t calcs).length = 0 then 0 else (rowData t calcs).length - 1 + 1) = calcs := by
    rw [length_rowData]; split <;> omega
  simp only [fillBody, fillCustom_val]
  rw [if_neg (not_not.mpr h1)]
  have h3 := fillRows_ok legacy STEP π cfg s 1 st0 _ h2
  simp only [st0] at h3
  simp only [bind, Except.bind, pure, Except.pure, h3, enableSelector, e, tableOps, customOps,
    tablePairs, st0, List.append_assoc, List.nil_append, List.append_nil]

theorem serial_error (t : HashTable F) (calcs : ℕ) (L : Layouter F)
    (h : ¬ (t.inputs.length ≤ calcs ∧ t.controls.length ≤ calcs) ∨
      ¬ AllChecks legacy STEP π (rowData t calcs)) :
    ∃ e, assignSerial legacy STEP (fun s => .ok (π s)) cfg t calcs L = .error e ∧
      (e = .calcsTooSmall ∧ ¬ (t.inputs.length ≤ calcs ∧ t.controls.length ≤ calcs) ∨
        e = .checkMismatch ∧ (t.inputs.length ≤ calcs ∧ t.controls.length ≤ calcs)) := by
  by_cases h1 : t.inputs.length ≤ calcs ∧ t.controls.length ≤ calcs
  · have h2 : ¬ AllChecks legacy STEP π (rowData t calcs) := by
      rcases h with h | h
      · exact absurd h1 h
      · exact h
    refine ⟨.checkMismatch, ?_, Or.inr ⟨rfl, h1⟩⟩
    unfold assignSerial Layouter.assignRegion
    have h3 := fillRows_error legacy STEP π cfg 0 1 st0 _ h2
    simp only [st0] at h3
    have : fillBody legacy STEP (fun s => .ok (π s)) cfg t calcs 0 1 = .error .checkMismatch := by
      simp only [fillBody]
      rw [if_neg (not_not.mpr h1)]
      simp only [bind, Except.bind, pure, Except.pure, h3]
    simp only [fillCustom_val, bind, Except.bind, this]
  · refine ⟨.calcsTooSmall, ?_, Or.inl ⟨rfl, h1⟩⟩
    unfold assignSerial Layouter.assignRegion
    have : fillBody legacy STEP (fun s => .ok (π s)) cfg t calcs 0 1 = .error .calcsTooSmall := by
      simp only [fillBody]
      rw [if_pos h1]
      simp only [bind, Except.bind, throw, throwThe, MonadExceptOf.throw]
    simp only [fillCustom_val, bind, Except.bind, this]

/-- A layouter in which the columns of the table are unused. -/
def Fresh (L : Layouter F) : Prop := ∀ c, TableCol cfg c → L.colEnd c = 0

theorem startOf_fresh {L : Layouter F} (hL : Fresh cfg L) {shape : List (Op F)}
    (h : ∀ o ∈ shape, ∃ c, o.rcol = some c ∧ TableCol cfg c) : L.startOf shape = 0 := by
  apply Nat.le_zero.mp
  refine foldl_max_le le_rfl fun x hx => ?_
  obtain ⟨c, hc, rfl⟩ := List.mem_map.mp hx
  obtain ⟨o, ho, hr⟩ := Layouter.mem_shapeCols.mp hc
  obtain ⟨c', h1, h2⟩ := h o ho
  rw [h1] at hr; cases hr
  rw [hL c h2]

theorem custom_shape (s : ℕ) (threads calcs : ℕ) (c : RCol) :
    c ∈ Layouter.shapeCols (customOps (F := F) cfg s) ↔ tableKey cfg (.parallel threads) calcs c := by
  rw [Layouter.mem_shapeCols]
  constructor
  · rintro ⟨o, ho, hr⟩
    rcases (mem_customOps cfg s o).mp ho with rfl | ⟨c', rfl, hc'⟩
    · injection hr with hr; subst hr; exact ⟨rfl, fun h => by cases h⟩
    · injection hr with hr; subst hr; exact ⟨hc', fun h => by cases h⟩
  · rintro ⟨h1, h2⟩
    cases c with
    | advice c => exact ⟨.advice c s 0, (mem_customOps cfg s _).mpr (Or.inr ⟨c, rfl, h1⟩), rfl⟩
    | fixed c =>
      have : c = cfg.qEnable := h1
      subst this
      exact absurd (h2 rfl).1 (by simp)
    | selector c =>
      have : c = cfg.sCustom := h1
      subst this
      exact ⟨.selector cfg.sCustom s, (mem_customOps cfg s _).mpr (Or.inl rfl), rfl⟩

theorem serial_shape (t : HashTable F) (calcs s : ℕ) (c : RCol) :
    c ∈ Layouter.shapeCols (tableOps legacy STEP π cfg s (rowData t calcs) ++
        [.selector cfg.sCustom (s + calcs)]) ↔ tableKey cfg .serial calcs c := by
  rw [Layouter.mem_shapeCols]
  constructor
  · rintro ⟨o, ho, hr⟩
    rcases List.mem_append.mp ho with ho | ho
    · obtain ⟨c', h1, h2, -⟩ := tableOps_cols legacy STEP π cfg ho
      rw [h1] at hr; injection hr with hr; subst hr
      refine ⟨h2, fun h => ⟨rfl, ?_⟩⟩
      subst h
      rcases List.mem_append.mp ho with ho | ho
      · rcases (mem_customOps cfg s o).mp ho with rfl | ⟨c', rfl, hc'⟩ <;> cases h1
      · rcases Nat.eq_zero_or_pos calcs with rfl | h
        · have : rowData t 0 = [] := List.eq_nil_of_length_eq_zero (length_rowData t 0)
          rw [this] at ho; cases ho
        · exact h
    · simp only [List.mem_singleton] at ho
      subst ho
      injection hr with hr; subst hr
      exact ⟨rfl, fun h => by cases h⟩
  · rintro ⟨h1, h2⟩
    cases c with
    | advice c =>
      exact ⟨.advice c s 0, List.mem_append_left _ (List.mem_append_left _
        ((mem_customOps cfg s _).mpr (Or.inr ⟨c, rfl, h1⟩))), rfl⟩
    | fixed c =>
      have : c = cfg.qEnable := h1
      subst this
      have hpos := (h2 rfl).2
      have hlen := length_rowData t calcs
      cases hd : rowData t calcs with
      | nil => rw [hd] at hlen; simp at hlen; omega
      | cons row rest =>
        refine ⟨.fixed cfg.qEnable (s + 1) 1, List.mem_append_left _ (List.mem_append_right _
          (List.mem_append_left _ ((mem_rowOps _ _ _ _ _ _ _ _ _).mpr (Or.inl ?_)))), rfl⟩
        rw [rowW_ops]
        exact List.mem_cons_self
    | selector c =>
      have : c = cfg.sCustom := h1
      subst this
      exact ⟨.selector cfg.sCustom (s + calcs), List.mem_append_right _ (by simp), rfl⟩

/-- The first free row of the columns of `tableKey` after a table of `calcs` rows that starts at row `s`. -/
def tableEnd : LoadMode → ℕ → ℕ → RCol → ℕ
  | .serial, calcs, s, _ => s + 1 + calcs
  | .parallel _, calcs, s, c => if c = .advice (cfg.aux 0) then s + 1 + calcs else s + 1

/-- Which columns the floor planner sees occupied after the table. -/
def Reserved (mode : LoadMode) (calcs s : ℕ) (L L' : Layouter F) : Prop :=
  (∀ c, tableKey cfg mode calcs c → L'.colEnd c = tableEnd cfg mode calcs s c) ∧
    ∀ c, ¬ tableKey cfg mode calcs c → L'.colEnd c = L.colEnd c

theorem serial_rows (t : HashTable F) (calcs : ℕ) :
    Layouter.shapeRows (tableOps legacy STEP π cfg 0 (rowData t calcs) ++
      [.selector cfg.sCustom (0 + calcs)]) = calcs + 1 := by
  apply Layouter.shapeRows_eq
  · intro o ho
    rcases List.mem_append.mp ho with ho | ho
    · obtain ⟨c, -, -, h⟩ := tableOps_cols legacy STEP π cfg ho
      rw [length_rowData] at h; omega
    · simp only [List.mem_singleton] at ho
      subst ho
      simp [Op.bottom]
  · exact ⟨_, List.mem_append_right _ (List.mem_singleton.mpr rfl), by simp [Op.bottom]⟩

theorem tableKey_ne (mode : LoadMode) (calcs : ℕ) : ∃ c, tableKey cfg mode calcs c :=
  ⟨.selector cfg.sCustom, rfl, fun h => by cases h⟩

theorem serial_ok (t : HashTable F) (calcs : ℕ) (L : Layouter F)
    (h1 : t.inputs.length ≤ calcs ∧ t.controls.length ≤ calcs)
    (h2 : AllChecks legacy STEP π (rowData t calcs)) :
    ∃ s L', assignSerial legacy STEP (fun s => .ok (π s)) cfg t calcs L =
        .ok (tablePairs legacy STEP π cfg s (rowData t calcs), L') ∧
      L'.ops = L.ops ++ (tableOps legacy STEP π cfg s (rowData t calcs) ++
        [.selector cfg.sCustom (s + calcs)]) ∧
      (∀ c, ¬ TableCol cfg c → L'.colEnd c = L.colEnd c) ∧ (Fresh cfg L → s = 0) ∧
      Top L.colEnd (tableKey cfg .serial calcs) s ∧ Reserved cfg .serial calcs s L L' := by
  have hcols : ∀ s, ∀ o ∈ tableOps legacy STEP π cfg s (rowData t calcs) ++
      [.selector cfg.sCustom (s + calcs)], ∃ c, o.rcol = some c ∧ TableCol cfg c := by
    intro s o ho
    rcases List.mem_append.mp ho with ho | ho
    · obtain ⟨c, h1, h2, -⟩ := tableOps_cols legacy STEP π cfg ho
      exact ⟨c, h1, h2⟩
    · simp only [List.mem_singleton] at ho
      subst ho
      exact ⟨_, rfl, rfl⟩
  unfold assignSerial
  have hb := funext fun s => serial_body legacy STEP π cfg t calcs s h1 h2
  have hr := Layouter.assignRegion_ok L (fun s => (⟨tablePairs legacy STEP π cfg s (rowData t calcs),
      tableOps legacy STEP π cfg s (rowData t calcs) ++ [Op.selector cfg.sCustom (s + calcs)]⟩ :
      W F (List (WordPair F)))) ?_
  · rw [hb, hr]
    refine ⟨_, _, rfl, rfl, fun c hc => ?_, fun hL => startOf_fresh cfg hL (hcols 0),
      L.startOf_top (serial_shape legacy STEP π cfg t calcs 0) (tableKey_ne cfg _ _), fun c hc => ?_, fun c hc => ?_⟩
    · simp only
      rw [if_neg]
      intro hm
      obtain ⟨o, ho, hr⟩ := Layouter.mem_shapeCols.mp hm
      obtain ⟨c', h1, h2⟩ := hcols 0 o ho
      rw [h1] at hr; cases hr
      exact hc h2
    · simp only
      rw [if_pos ((serial_shape legacy STEP π cfg t calcs 0 c).mpr hc), serial_rows, tableEnd]
      omega
    · simp only
      rw [if_neg fun h => hc ((serial_shape legacy STEP π cfg t calcs 0 c).mp h)]
  · intro s c v hm
    obtain ⟨c', h1, h2⟩ := hcols s _ hm
    simp [Op.rcol] at h1

/-! ## Parallel -/

/-- Start rows of consecutive chunks. -/
def starts : ℕ → List (List (RowData F)) → List ℕ
  | _, [] => []
  | s, c :: rest => s :: starts (s + c.length) rest

theorem placeAll_chunks (L : Layouter F) (cs : List (List (RowData F))) (hne : ∀ c ∈ cs, c ≠ []) :
    ∃ L', L.placeAll (cs.map (fillPartialShape cfg)) =
        (starts (L.colEnd (.advice (cfg.aux 0))) cs, L') ∧ L'.ops = L.ops ∧
        (∀ c, c ≠ .advice (cfg.aux 0) → L'.colEnd c = L.colEnd c) ∧
        L'.colEnd (.advice (cfg.aux 0)) = L.colEnd (.advice (cfg.aux 0)) + cs.flatten.length := by
  induction cs generalizing L with
  | nil => exact ⟨L, rfl, rfl, fun _ _ => rfl, by simp⟩
  | cons c cs ih =>
    have hlen : 0 < c.length := List.length_pos_of_ne_nil (hne c (by simp))
    have hs : L.startOf (fillPartialShape cfg c) = L.colEnd (.advice (cfg.aux 0)) := by
      simp [Layouter.startOf, Layouter.shapeCols, fillPartialShape, assignAdvice, Op.rcol]
    have hr : ∀ s x, (L.reserve (fillPartialShape cfg c) s).colEnd x =
        if x = .advice (cfg.aux 0) then s + c.length else L.colEnd x := by
      intro s x
      simp only [Layouter.reserve, Layouter.shapeCols, fillPartialShape, assignAdvice, Op.rcol,
        Layouter.shapeRows, List.filterMap_cons, List.filterMap_nil, List.mem_singleton,
        List.map_cons, List.map_nil, List.foldl_cons, List.foldl_nil, Op.bottom]
      by_cases h : x = RCol.advice (cfg.aux 0)
      · rw [if_pos h, if_pos h]; omega
      · rw [if_neg h, if_neg h]
    obtain ⟨L', e, h1, h2, h3⟩ := ih (L.reserve (fillPartialShape cfg c) (L.colEnd (.advice (cfg.aux 0))))
      (fun c hc => hne c (by simp [hc]))
    refine ⟨L', ?_, ?_, fun x hx => ?_, ?_⟩
    · simp only [List.map_cons, Layouter.placeAll, hs, e, hr, if_true, starts]
    · rw [h1]; rfl
    · rw [h2 x hx, hr, if_neg hx]
    · rw [h3, hr, if_pos rfl, List.flatten_cons, List.length_append]; omega

theorem sim_st0 (k : ℕ) {st : FillState F} (h : st.isNew = true) : Sim k st st0 :=
  ⟨h, fun h' => by rw [h] at h'; cases h'⟩

theorem fillPartial_ok (data : List (RowData F)) (last : Bool) (s : ℕ)
    (h : ChecksOK legacy STEP π 0 st0 data) :
    fillPartial legacy STEP (fun s => .ok (π s)) cfg data last s =
      .ok ⟨fillPairs legacy STEP π cfg s 0 st0 data, fillOps legacy STEP π cfg s 0 st0 data ++
        if last then [.selector cfg.sCustom (s + (data.length - 1))] else []⟩ := by
  have h3 := fillRows_ok legacy STEP π cfg s 0 st0 _ h
  simp only [st0] at h3
  simp only [fillPartial, fillRowsPartial_eq, bind, Except.bind, pure, Except.pure, h3]
  cases last <;> simp [enableSelector, st0, bind]

theorem fillPartial_error (data : List (RowData F)) (last : Bool) (s : ℕ)
    (h : ¬ ChecksOK legacy STEP π 0 st0 data) :
    fillPartial legacy STEP (fun s => .ok (π s)) cfg data last s = .error .checkMismatch := by
  have h3 := fillRows_error legacy STEP π cfg s 0 st0 _ h
  simp only [st0] at h3
  simp only [fillPartial, fillRowsPartial_eq, bind, Except.bind, pure, Except.pure, h3]

/-- The chunks are nonempty and all but the last end at a block boundary. -/
def Good : List (List (RowData F)) → Prop
  | [] => True
  | c :: rest => c ≠ [] ∧ (rest ≠ [] → ∃ row, c.getLast? = some row ∧ row.control.getD 0 ≤ STEP) ∧
      Good rest

theorem good_chunks (data : List (RowData F)) (minLen : ℕ) : Good STEP (chunks STEP data minLen) := by
  rw [chunks_eq]
  have h1 := chunksFrom_ne STEP minLen [] data
  have h2 := chunksFrom_closed STEP minLen [] data
  generalize chunksFrom STEP minLen [] data = cs at h1 h2
  induction cs with
  | nil => trivial
  | cons c cs ih =>
    refine ⟨h1 c (by simp), fun hne => (h2 c ?_).2, ih (fun c hc => h1 c (by simp [hc])) fun c hc => h2 c ?_⟩
    · rw [List.dropLast_cons_of_ne_nil hne]; simp
    · cases cs with
      | nil => simp at hc
      | cons d ds => rw [List.dropLast_cons_of_ne_nil (by simp)]; simp [hc]

theorem chunk_step (s : ℕ) (c : List (RowData F)) (cs : List (List (RowData F)))
    (hg : Good STEP (c :: cs)) :
    fillPairs legacy STEP π cfg s 0 st0 (c :: cs).flatten =
        fillPairs legacy STEP π cfg s 0 st0 c ++
        fillPairs legacy STEP π cfg (s + c.length) 0 st0 cs.flatten ∧
    fillOps legacy STEP π cfg s 0 st0 (c :: cs).flatten =
        fillOps legacy STEP π cfg s 0 st0 c ++
        fillOps legacy STEP π cfg (s + c.length) 0 st0 cs.flatten ∧
    (ChecksOK legacy STEP π 0 st0 (c :: cs).flatten ↔
      ChecksOK legacy STEP π 0 st0 c ∧ ChecksOK legacy STEP π 0 st0 cs.flatten) := by
  rw [List.flatten_cons, fillPairs_append, fillOps_append, checksOK_append]
  by_cases hcs : cs = []
  · subst hcs
    simp [fillPairs, fillOps, ChecksOK]
  · obtain ⟨row, hrow, hle⟩ := hg.2.1 hcs
    have hnew : (stAfter legacy STEP π 0 st0 c).isNew = true := by
      rw [stAfter_isNew, hrow]
      simpa using hle
    obtain ⟨e1, e2, e3⟩ := fill_shift legacy STEP π cfg (sim_st0 c.length hnew) s 0 cs.flatten
    rw [e1, e2, e3]
    exact ⟨rfl, rfl, Iff.rfl⟩

/-- The item passed to `assign_regions` for chunk number `i` of `n`. -/
def chunkItem (n : ℕ) (q : List (RowData F) × ℕ) :
    List (Op F) × (ℕ → Except Panic (W F (List (WordPair F)))) :=
  (fillPartialShape cfg q.1,
    fillPartial legacy STEP (fun s => .ok (π s)) cfg q.1 (decide (q.2 = n - 1)))

theorem mapM_chunks (cs : List (List (RowData F))) (k s n : ℕ) (hn : n = k + cs.length)
    (hg : Good STEP cs) (h : ChecksOK legacy STEP π 0 st0 cs.flatten) :
    ∃ outs, (List.zip ((cs.zipIdx k).map (chunkItem legacy STEP π cfg n)) (starts s cs)).mapM
        (fun (it, s) => it.2 s) = .ok outs ∧
      (outs.map W.val).flatten = fillPairs legacy STEP π cfg s 0 st0 cs.flatten ∧
      outs.flatMap W.ops = fillOps legacy STEP π cfg s 0 st0 cs.flatten ++
        if cs = [] then [] else [.selector cfg.sCustom (s + cs.flatten.length - 1)] := by
  induction cs generalizing k s with
  | nil => exact ⟨[], rfl, rfl, rfl⟩
  | cons c cs ih =>
    obtain ⟨e1, e2, e3⟩ := chunk_step legacy STEP π cfg s c cs hg
    obtain ⟨hc1, hc2⟩ := e3.mp h
    obtain ⟨outs, h1, h2, h3⟩ := ih (k + 1) (s + c.length)
      (by simp only [List.length_cons] at hn; omega) hg.2.2 hc2
    have hlen : 0 < c.length := List.length_pos_of_ne_nil hg.1
    refine ⟨⟨fillPairs legacy STEP π cfg s 0 st0 c, fillOps legacy STEP π cfg s 0 st0 c ++
        if decide (k = n - 1) then [.selector cfg.sCustom (s + (c.length - 1))] else []⟩ :: outs, ?_, ?_, ?_⟩
    · simp only [List.zipIdx_cons, List.map_cons, starts, List.zip_cons_cons, List.mapM_cons,
        chunkItem, fillPartial_ok legacy STEP π cfg c _ _ hc1]
      simp only [chunkItem] at h1
      simp only [h1, bind, Except.bind, pure, Except.pure]
    · simp only [List.map_cons, List.flatten_cons, h2]
      simpa using e1.symm
    · simp only [List.flatMap_cons, h3]
      rw [e2]
      by_cases hcs : cs = []
      · subst hcs
        have hk : k = n - 1 := by simp at hn; omega
        simp [hk, fillOps]
        omega
      · have hk : ¬ k = n - 1 := by
          have := List.length_pos_of_ne_nil hcs
          simp at hn; omega
        simp only [hk, hcs, decide_false, if_false, Bool.false_eq_true, List.append_nil,
          List.append_assoc, List.cons_ne_nil, List.flatten_cons, List.length_append]
        rw [show s + c.length + cs.flatten.length - 1 = s + (c.length + cs.flatten.length) - 1 by omega]

theorem mapM_chunks_error (cs : List (List (RowData F))) (k s n : ℕ) (hg : Good STEP cs)
    (h : ¬ ChecksOK legacy STEP π 0 st0 cs.flatten) :
    (List.zip ((cs.zipIdx k).map (chunkItem legacy STEP π cfg n)) (starts s cs)).mapM
        (fun (it, s) => it.2 s) = .error .checkMismatch := by
  induction cs generalizing k s with
  | nil => exact absurd trivial h
  | cons c cs ih =>
    obtain ⟨e1, e2, e3⟩ := chunk_step legacy STEP π cfg s c cs hg
    simp only [List.zipIdx_cons, List.map_cons, starts, List.zip_cons_cons, List.mapM_cons]
    by_cases hc : ChecksOK legacy STEP π 0 st0 c
    · have := ih (k + 1) (s + c.length) hg.2.2 (fun h' => h (e3.mpr ⟨hc, h'⟩))
      simp only [chunkItem] at this
      simp only [chunkItem, fillPartial_ok legacy STEP π cfg c _ _ hc, this, bind, Except.bind]
    · simp only [chunkItem, fillPartial_error legacy STEP π cfg c _ _ hc, bind, Except.bind]

theorem shapeRows_custom : Layouter.shapeRows (fillCustom (F := F) cfg 0).ops = 1 := by
  apply shapeRows_eq'
  · intro o ho
    obtain ⟨c, -, -, h⟩ := customOps_cols cfg (s := 0) ho
    omega
  · exact ⟨.selector cfg.sCustom 0, (mem_customOps cfg 0 _).mpr (Or.inl rfl), rfl⟩
where
  shapeRows_eq' {shape : List (Op F)} {h : ℕ} (hle : ∀ o ∈ shape, o.bottom ≤ h)
    (hex : ∃ o ∈ shape, o.bottom = h) : Layouter.shapeRows shape = h :=
    Layouter.shapeRows_eq hle hex

/-- The custom region: its start, and the columns it reserves. -/
theorem custom_ok (L : Layouter F) :
    ∃ s L', L.assignRegion (fun start => .ok (fillCustom (F := F) cfg start)) = .ok (1, L') ∧
      L'.ops = L.ops ++ customOps cfg s ∧ L'.colEnd (.advice (cfg.aux 0)) = s + 1 ∧
      (∀ c, ¬ TableCol cfg c → L'.colEnd c = L.colEnd c) ∧ (Fresh cfg L → s = 0) ∧
      (∀ threads calcs, Top L.colEnd (tableKey cfg (.parallel threads) calcs) s) ∧
      ∀ threads calcs c, L'.colEnd c = s + 1 ∧ tableKey cfg (.parallel threads) calcs c ∨
        L'.colEnd c = L.colEnd c ∧ ¬ tableKey cfg (.parallel threads) calcs c := by
  have hcols : ∀ s, ∀ o ∈ (fillCustom (F := F) cfg s).ops, ∃ c, o.rcol = some c ∧ TableCol cfg c := by
    intro s o ho
    obtain ⟨c, h1, h2, -⟩ := customOps_cols cfg (s := s) ho
    exact ⟨c, h1, h2⟩
  rw [Layouter.assignRegion_ok L (fun s => fillCustom cfg s)]
  · refine ⟨_, _, rfl, rfl, ?_, fun c hc => ?_, fun hL => startOf_fresh cfg hL (hcols 0),
      fun threads calcs => L.startOf_top (custom_shape cfg 0 threads calcs) (tableKey_ne cfg _ _),
      fun threads calcs c => ?_⟩
    · simp only
      rw [if_pos, shapeRows_custom]
      refine Layouter.mem_shapeCols.mpr ⟨.advice (cfg.aux 0) 0 0, ?_, rfl⟩
      exact (mem_customOps cfg 0 _).mpr (Or.inr ⟨_, rfl, Or.inr (Or.inl ⟨0, rfl⟩)⟩)
    · simp only
      rw [if_neg]
      intro hm
      obtain ⟨o, ho, hr⟩ := Layouter.mem_shapeCols.mp hm
      obtain ⟨c', h1, h2⟩ := hcols 0 o ho
      rw [h1] at hr; cases hr
      exact hc h2
    · have hk := custom_shape (F := F) cfg 0 threads calcs c
      simp only [← hk]
      by_cases h : c ∈ Layouter.shapeCols (fillCustom (F := F) cfg 0).ops
      · rw [if_pos h, shapeRows_custom]
        exact Or.inl ⟨rfl, h⟩
      · rw [if_neg h]
        exact Or.inr ⟨rfl, h⟩
  · intro s c v hm
    obtain ⟨c', h1, h2⟩ := hcols s _ hm
    simp [Op.rcol] at h1

theorem table_shift (s : ℕ) (rows : List (RowData F)) :
    fillPairs legacy STEP π cfg s 1 st0 rows = fillPairs legacy STEP π cfg (s + 1) 0 st0 rows ∧
    fillOps legacy STEP π cfg s 1 st0 rows = fillOps legacy STEP π cfg (s + 1) 0 st0 rows ∧
    (ChecksOK legacy STEP π 1 st0 rows ↔ ChecksOK legacy STEP π 0 st0 rows) :=
  fill_shift legacy STEP π cfg (sim_st0 1 (st := st0) rfl) s 0 rows

theorem items_eq (cs : List (List (RowData F))) :
    (cs.zipIdx.map fun (data, i) => (fillPartialShape cfg data,
      fillPartial legacy STEP (fun s => .ok (π s)) cfg data (decide (i = cs.length - 1)))) =
    (cs.zipIdx 0).map (chunkItem legacy STEP π cfg cs.length) := rfl

theorem items_fst (cs : List (List (RowData F))) (n k : ℕ) :
    ((cs.zipIdx k).map (chunkItem legacy STEP π cfg n)).map Prod.fst =
      cs.map (fillPartialShape cfg) := by
  rw [List.map_map]
  induction cs generalizing k with
  | nil => rfl
  | cons c cs ih => simp only [List.zipIdx_cons, List.map_cons, ih]; rfl

theorem parallel_ok (t : HashTable F) (calcs threads : ℕ) (L : Layouter F)
    (h2 : AllChecks legacy STEP π (rowData t calcs)) :
    ∃ s L', assignParallel legacy STEP (fun s => .ok (π s)) cfg t calcs threads L =
        .ok (tablePairs legacy STEP π cfg s (rowData t calcs), L') ∧
      L'.ops = L.ops ++ (tableOps legacy STEP π cfg s (rowData t calcs) ++
        if calcs = 0 then [] else [.selector cfg.sCustom (s + calcs)]) ∧
      (∀ c, ¬ TableCol cfg c → L'.colEnd c = L.colEnd c) ∧ (Fresh cfg L → s = 0) ∧
      Top L.colEnd (tableKey cfg (.parallel threads) calcs) s ∧
      Reserved cfg (.parallel threads) calcs s L L' := by
  obtain ⟨s, L₁, e1, o1, c1, u1, f1, tp, rv⟩ := custom_ok cfg L
  obtain ⟨cs, hcs⟩ : ∃ cs, cs = chunks STEP (rowData t calcs) (calcs / threads + 1) := ⟨_, rfl⟩
  have hg : Good STEP cs := by rw [hcs]; exact good_chunks STEP _ _
  have hflat : cs.flatten = rowData t calcs := by
    rw [hcs, chunks_eq, chunksFrom_flatten]; rfl
  have hne : ∀ c ∈ cs, c ≠ [] := by rw [hcs, chunks_eq]; exact chunksFrom_ne STEP _ _ _
  obtain ⟨t1, t2, t3⟩ := table_shift legacy STEP π cfg s (rowData t calcs)
  obtain ⟨L₂, e2, o2, u2, q2⟩ := placeAll_chunks cfg L₁ cs hne
  obtain ⟨outs, e3, v3, o3⟩ := mapM_chunks legacy STEP π cfg cs 0 (s + 1) cs.length (by omega) hg
    (by rw [hflat]; exact t3.mp h2)
  refine ⟨s, {L₂ with ops := L₂.ops ++ outs.flatMap W.ops}, ?_, ?_, ?_, f1, tp _ _, fun c hc => ?_, fun c hc => ?_⟩
  · unfold assignParallel
    simp only [e1, bind, Except.bind, ← hcs, Layouter.assignRegions, items_eq, items_fst, e2, c1, e3,
      pure, Except.pure]
    rw [v3, hflat, tablePairs, t1]
  · simp only [o2, o1, o3, hflat, tableOps, t2]
    by_cases h0 : calcs = 0
    · have : cs = [] := by
        cases cs with
        | nil => rfl
        | cons c cs =>
          have := congrArg List.length hflat
          rw [length_rowData, List.flatten_cons, List.length_append] at this
          have := List.length_pos_of_ne_nil hg.1
          omega
      simp [h0, this]
    · have : cs ≠ [] := by
        rintro rfl
        have := congrArg List.length hflat
        rw [length_rowData] at this
        simp at this; omega
      rw [if_neg h0, if_neg this, length_rowData, show s + 1 + calcs - 1 = s + calcs by omega]
      simp
  · intro c hc
    simp only
    rw [u2 c, u1 c hc]
    rintro rfl
    exact hc (Or.inr (Or.inl ⟨0, rfl⟩))
  · simp only [tableEnd]
    by_cases h : c = .advice (cfg.aux 0)
    · rw [if_pos h, h, q2, c1, hflat, length_rowData]
    · rw [if_neg h, u2 c h]
      rcases rv threads calcs c with ⟨h', -⟩ | ⟨-, h'⟩
      · exact h'
      · exact absurd hc h'
  · simp only
    rw [u2 c]
    · rcases rv threads calcs c with ⟨-, h'⟩ | ⟨h', -⟩
      · exact absurd h' hc
      · exact h'
    · rintro rfl
      exact hc ⟨Or.inr (Or.inl ⟨0, rfl⟩), fun h => by cases h⟩

theorem parallel_error (t : HashTable F) (calcs threads : ℕ) (L : Layouter F)
    (h2 : ¬ AllChecks legacy STEP π (rowData t calcs)) :
    assignParallel legacy STEP (fun s => .ok (π s)) cfg t calcs threads L = .error .checkMismatch := by
  obtain ⟨s, L₁, e1, o1, c1, u1, f1, -, -⟩ := custom_ok cfg L
  obtain ⟨cs, hcs⟩ : ∃ cs, cs = chunks STEP (rowData t calcs) (calcs / threads + 1) := ⟨_, rfl⟩
  have hg : Good STEP cs := by rw [hcs]; exact good_chunks STEP _ _
  have hflat : cs.flatten = rowData t calcs := by
    rw [hcs, chunks_eq, chunksFrom_flatten]; rfl
  have hne : ∀ c ∈ cs, c ≠ [] := by rw [hcs, chunks_eq]; exact chunksFrom_ne STEP _ _ _
  obtain ⟨t1, t2, t3⟩ := table_shift legacy STEP π cfg s (rowData t calcs)
  obtain ⟨L₂, e2, o2, u2, -⟩ := placeAll_chunks cfg L₁ cs hne
  have e3 := mapM_chunks_error legacy STEP π cfg cs 0 (s + 1) cs.length hg
    (by rw [hflat]; exact fun h => h2 (t3.mpr h))
  unfold assignParallel
  simp only [e1, bind, Except.bind, ← hcs, Layouter.assignRegions, items_eq, items_fst, e2, c1, e3]

end Circuit.Table
