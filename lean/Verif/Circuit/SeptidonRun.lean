import Verif.Circuit.SeptidonOps
import Verif.Circuit.Chip

/-!
# Septidon chip: regions placed by `permute` and `permute_batch`
-/

set_option linter.unusedVariables false
set_option linter.unusedSectionVars false
set_option linter.unusedSimpArgs false

open Halo2

namespace Circuit.Septidon

variable {F : Type} [Field F]

section
variable (a f : ℕ) (m : Base.Mds F 3) (rc : ℕ → Fin 3 → F)

theorem fullAssign_shift (full : Fin 3 → SBox) (start o b : ℕ) (k x : Fin 3 → F) :
    fullAssign m start full (o + b) k x = fullAssign m (start + b) full o k x := by
  have e : ∀ (s : SBox) (k v : F), s.assign start (o + b) k v = s.assign (start + b) o k v := by
    intro s k v
    simp only [SBox.assign, assignFixed, assignAdvice]
    rw [show start + (o + b + s.input.regionOffset) = start + b + (o + s.input.regionOffset) by omega]
  simp only [fullAssign, e]

theorem sboxAssign_shift (s : SBox) (start o b : ℕ) (k v : F) :
    s.assign start (o + b) k v = s.assign (start + b) o k v := by
  simp only [SBox.assign, assignFixed, assignAdvice]
  rw [show start + (o + b + s.input.regionOffset) = start + b + (o + s.input.regionOffset) by omega]

theorem assignPartialRounds_shift (start o b : ℕ) (l : List (SBox × F)) :
    ∀ x, assignPartialRounds m start (o + b) l x = assignPartialRounds m (start + b) o l x := by
  induction l with
  | nil => intro x; rfl
  | cons h l ih =>
    intro x
    obtain ⟨s, k⟩ := h
    simp only [assignPartialRounds, sboxAssign_shift, ih]

theorem septupleAssign_shift (start o b : ℕ) (ks : List F) (x : Fin 3 → F) :
    septupleAssign m start (config a f).septuple (o + b) ks x =
      septupleAssign m (start + b) (config a f).septuple o ks x := by
  have e : ∀ (col : ℕ) (v : F), RelCell.assign start ⟨col, 0⟩ (o + b) v =
      RelCell.assign (start + b) ⟨col, 0⟩ o v := by
    intro col v
    simp only [RelCell.assign, assignAdvice]
    rw [show start + (((o + b : ℕ) : ℤ) + 0).toNat = start + b + ((o : ℤ) + 0).toNat by omega]
  simp only [septupleAssign, assignPartialRounds_shift]
  have e0 : (config a f).septuple.linears 0 = ⟨a + 4, 0⟩ := rfl
  have e1 : (config a f).septuple.linears 1 = ⟨a + 5, 0⟩ := rfl
  rw [e0, e1, e, e]

theorem transCells_shift (start o b : ℕ) (h3 : 3 ≤ o) (x : Fin 3 → F) :
    transitionAssignCells start (a + 12) (o + b) x = transitionAssignCells (start + b) (a + 12) o x := by
  have e : ∀ (k : ℤ) (v : F), -3 ≤ k → RelCell.assign start ⟨a + 12, k⟩ (o + b) v =
      RelCell.assign (start + b) ⟨a + 12, k⟩ o v := by
    intro k v hk
    simp only [RelCell.assign, assignAdvice]
    rw [show start + (((o + b : ℕ) : ℤ) + k).toNat = start + b + ((o : ℤ) + k).toNat by omega]
  have e0 : transitionInput (a + 12) 0 = ⟨a + 12, -2⟩ := rfl
  have e1 : transitionInput (a + 12) 1 = ⟨a + 12, -1⟩ := rfl
  have e2 : transitionInput (a + 12) 2 = ⟨a + 12, 0⟩ := rfl
  have e3 : transitionHelper (a + 12) = ⟨a + 12, -3⟩ := rfl
  simp only [transitionAssignCells, e0, e1, e2, e3]
  rw [e _ _ (by omega), e _ _ (by omega), e _ _ (by omega), e _ _ (by omega)]

/-- The position inside the region only matters through the absolute row. -/
theorem assignPermutation_shift (start b : ℕ) (x : Fin 3 → F) :
    assignPermutation m rc (config a f) start x b =
      assignPermutation m rc (config a f) (start + b) x 0 := by
  have ht : (config a f).transition = a + 12 := rfl
  unfold assignPermutation
  simp only [transitionAssign, ht]
  rw [show controlAssign (F := F) start (config a f).isLast b =
      controlAssign (start + b) (config a f).isLast 0 by
    simp only [controlAssign, assignFixed]
    rw [show start + (7 + b) = start + b + (7 + 0) by omega]]
  have e1 : ∀ (o : ℕ) (s : Fin 3 → F), fullAssign m start (config a f).full (o + b) (rc o) s =
      fullAssign m (start + b) (config a f).full (o + 0) (rc o) s :=
    fun o s => fullAssign_shift m _ start o b _ _
  have e2 : ∀ (o : ℕ) (s : Fin 3 → F), fullAssign m start (config a f).full (o + 4 + b)
      (rc (o + 4 + 57)) s = fullAssign m (start + b) (config a f).full (o + 4 + 0) (rc (o + 4 + 57)) s :=
    fun o s => fullAssign_shift m _ start (o + 4) b _ _
  have e3 : ∀ (o : ℕ) (ks : List F) (s : Fin 3 → F),
      septupleAssign m start (config a f).septuple (o + b) ks s =
      septupleAssign m (start + b) (config a f).septuple (o + 0) ks s :=
    fun o ks s => septupleAssign_shift a f m start o b ks s
  have e4 : ∀ (s : Fin 3 → F), transitionAssignCells start (a + 12) (3 + b) s =
      transitionAssignCells (start + b) (a + 12) (3 + 0) s :=
    fun s => transCells_shift a start 3 b (by omega) s
  have e5 : ∀ (s : Fin 3 → F), transitionAssignCells start (a + 12) (7 + b) s =
      transitionAssignCells (start + b) (a + 12) (7 + 0) s :=
    fun s => transCells_shift a start 7 b (by omega) s
  simp only [e1, e2, e3, e4, e5]

theorem permuteBody_shift (w : Fin 3 → ACell F) (start b : ℕ) :
    permuteBody m rc (config a f) w b start = permuteBody m rc (config a f) w 0 (start + b) := by
  unfold permuteBody
  rw [assignPermutation_shift a f m rc start b]
  have e : ∀ (src : ACell F) (col k : ℕ),
      copyAdvice src start col (b + k) = copyAdvice src (start + b) col (0 + k) := by
    intro src col k
    simp only [copyAdvice]
    rw [show start + (b + k) = start + b + (0 + k) by omega]
  have e' : ∀ (col k : ℕ) (v : F),
      assignAdvice start col (b + k) v = assignAdvice (start + b) col (0 + k) v := by
    intro col k v
    simp only [assignAdvice]
    rw [show start + (b + k) = start + b + (0 + k) by omega]
  simp only [e, e']

variable (hc : Compact rc) (w : Fin 3 → ACell F) (p : ℕ)

/-- The words returned for a block at row `p`. -/
def outWords (a : ℕ) (m : Base.Mds F 3) (rc : ℕ → Fin 3 → F) (w : Fin 3 → ACell F) (p : ℕ) :
    Fin 3 → ACell F :=
  fun i => ⟨⟨.advice (a + 12), p + 5 + i⟩, perm m rc (fun i => (w i).value) i⟩

include hc in
theorem permuteBody_val :
    (permuteBody m rc (config a f) w 0 p).val = outWords a m rc w p := by
  simp only [permuteBody, W.bind_val, W.pure_val, assignPermutation_val a f m rc _ p 0 hc]
  funext i
  fin_cases i
  · simp [outWords, Config.finalCells, transitionInput, RelCell.rotated, assignAdvice, config]
  · simp [outWords, Config.finalCells, transitionInput, RelCell.rotated, assignAdvice, config]
  · simp [outWords, Config.finalCells, transitionInput, RelCell.rotated, assignAdvice, config]

include hc in
theorem mem_permuteBody (op : Op F) : op ∈ (permuteBody m rc (config a f) w 0 p).ops ↔
    BlockOp a f m rc (fun i => (w i).value) p op ∨
      ∃ i : Fin 3, op = .copy ⟨.advice (a + i), p⟩ (w i).cell := by
  have hfin : ∀ i : Fin 3, (assignAdvice p ((config a f).finalCells i).column
      (0 + ((config a f).finalCells i).offset.toNat) (perm m rc (fun i => (w i).value) i) : W F _).ops =
      [.advice (a + 12) (p + 5 + i) (perm m rc (fun i => (w i).value) i)] := by
    intro i
    fin_cases i
    · simp [Config.finalCells, transitionInput, RelCell.rotated, assignAdvice, config]
    · simp [Config.finalCells, transitionInput, RelCell.rotated, assignAdvice, config]
    · simp [Config.finalCells, transitionInput, RelCell.rotated, assignAdvice, config]
  have hin : ∀ i : Fin 3, (copyAdvice (w i) p ((config a f).initialCells i).column
      (0 + ((config a f).initialCells i).offset.toNat)).ops =
      [.advice (a + i) p (w i).value, .copy ⟨.advice (a + i), p⟩ (w i).cell] := by
    intro i
    fin_cases i <;> simp [Config.initialCells, copyAdvice, config]
  simp only [permuteBody, W.bind_ops, W.pure_ops, List.append_nil, List.mem_append,
    assignPermutation_val a f m rc _ p 0 hc, hfin, hin, mem_assignPermutation a f m rc _ p 0 hc,
    List.mem_cons, List.not_mem_nil, or_false, Nat.add_zero]
  constructor
  · rintro ((h | h) | (h | h) | (h | h) | h | h | h | h)
    · left; rw [h]; exact BlockOp.fullIn (p := p) 0 (by omega) 0
    · right; exact ⟨0, h⟩
    · left; rw [h]; exact BlockOp.fullIn (p := p) 0 (by omega) 1
    · right; exact ⟨1, h⟩
    · left; rw [h]; exact BlockOp.fullIn (p := p) 0 (by omega) 2
    · right; exact ⟨2, h⟩
    · left; exact h
    · left; rw [h, perm_eq]; exact .fin 0
    · left; rw [h, perm_eq]; exact .fin 1
    · left; rw [h, perm_eq]; exact .fin 2
  · rintro (h | ⟨i, h⟩)
    · simp only [h, true_or, or_true]
    · fin_cases i
      · left; right; exact h
      · right; left; right; exact h
      · right; right; left; right; exact h

end

/-! ## Placement -/

/-- The columns of a chip configured with `a` advice and `f` fixed columns before it. -/
def ChipCol (a f : ℕ) (c : RCol) : Prop :=
  (∃ i < 13, c = .advice (a + i)) ∨ ∃ i < 11, c = .fixed (f + i)

section
variable {a f : ℕ} {m : Base.Mds F 3} {rc : ℕ → Fin 3 → F} {x : Fin 3 → F} {p : ℕ}

theorem sCol_form (a j : ℕ) (hj : j < 7) : ∃ i < 12, 3 ≤ i ∧ sCol a j = a + i := by
  unfold sCol
  split_ifs with h
  · exact ⟨3, by omega, by omega, rfl⟩
  · exact ⟨5 + j, by omega, by omega, by omega⟩

/-- Shape of the operations of a block: column within the chip, row within the block. -/
theorem BlockOp.shape {op : Op F} (h : BlockOp a f m rc x p op) :
    (∃ c r v, op = .advice c r v ∧ a ≤ c ∧ c < a + 13 ∧ p ≤ r ∧ r < p + 8) ∨
    (∃ c r v, op = .fixed c r v ∧ f ≤ c ∧ c < f + 11 ∧ p ≤ r ∧ r < p + 8) := by
  cases h with
  | mark => exact Or.inr ⟨_, _, _, rfl, by omega, by omega, by omega, by omega⟩
  | fullRC o ho i => exact Or.inr ⟨_, _, _, rfl, by omega, by omega, by omega, by omega⟩
  | fullIn o ho i => exact Or.inl ⟨_, _, _, rfl, by omega, by omega, by omega, by omega⟩
  | mid i => exact Or.inl ⟨_, _, _, rfl, by omega, by omega, by omega, by omega⟩
  | midH => exact Or.inl ⟨_, _, _, rfl, by omega, by omega, by omega, by omega⟩
  | lin o ho i => exact Or.inl ⟨_, _, _, rfl, by omega, by omega, by omega, by omega⟩
  | partRC o ho j hj => exact Or.inr ⟨_, _, _, rfl, by omega, by omega, by omega, by omega⟩
  | partIn o ho j hj =>
    obtain ⟨i, h1, h2, h3⟩ := sCol_form a j hj
    exact Or.inl ⟨_, _, _, rfl, by omega, by omega, by omega, by omega⟩
  | fin i => exact Or.inl ⟨_, _, _, rfl, by omega, by omega, by omega, by omega⟩
  | finH => exact Or.inl ⟨_, _, _, rfl, by omega, by omega, by omega, by omega⟩

variable (a f m rc) (hc : Compact rc) (w : Fin 3 → ACell F)
include hc

theorem permuteBody_no_constant (s : ℕ) (c : Cell) (v : F) :
    Op.constant c v ∉ (permuteBody m rc (config a f) w 0 s).ops := by
  rw [mem_permuteBody a f m rc hc]
  rintro (h | ⟨i, h⟩)
  · rcases h.shape with ⟨_, _, _, h, _⟩ | ⟨_, _, _, h, _⟩ <;> cases h
  · cases h

theorem permuteBody_cols (s : ℕ) (c : RCol) :
    c ∈ Layouter.shapeCols (permuteBody m rc (config a f) w 0 s).ops ↔ ChipCol a f c := by
  rw [Layouter.mem_shapeCols]
  constructor
  · rintro ⟨o, ho, e⟩
    rw [mem_permuteBody a f m rc hc] at ho
    rcases ho with h | ⟨i, h⟩
    · rcases h.shape with ⟨c', r, v, rfl, h1, h2, _⟩ | ⟨c', r, v, rfl, h1, h2, _⟩
      · simp only [Op.rcol, Option.some.injEq] at e
        exact Or.inl ⟨c' - a, by omega, by rw [← e]; congr 1; omega⟩
      · simp only [Op.rcol, Option.some.injEq] at e
        exact Or.inr ⟨c' - f, by omega, by rw [← e]; congr 1; omega⟩
    · rw [h] at e; cases e
  · have mem : ∀ o, BlockOp a f m rc (fun i => (w i).value) s o →
        ∃ o' ∈ (permuteBody m rc (config a f) w 0 s).ops, o'.rcol = o.rcol := fun o h =>
      ⟨o, (mem_permuteBody a f m rc hc w s o).mpr (Or.inl h), rfl⟩
    rintro (⟨i, hi, rfl⟩ | ⟨i, hi, rfl⟩)
    · by_cases h3 : i < 3
      · exact mem _ (.fullIn 0 (by omega) ⟨i, h3⟩)
      · by_cases h45 : i = 4 ∨ i = 5
        · have := mem _ (BlockOp.lin 0 (by omega) ⟨i - 4, by omega⟩)
          simpa [Op.rcol, show a + 4 + (i - 4) = a + i by omega] using this
        · by_cases h12 : i = 12
          · subst h12; exact mem _ .midH
          · by_cases h3' : i = 3
            · subst h3'; exact mem _ (.partIn 0 (by omega) 0 (by omega))
            · have := mem _ (BlockOp.partIn 0 (by omega) (i - 5) (by omega))
              simpa [Op.rcol, sCol, show i - 5 ≠ 0 by omega, show a + 5 + (i - 5) = a + i by omega]
                using this
    · by_cases h0 : i = 0
      · subst h0; exact mem _ .mark
      · by_cases h4 : i < 4
        · have := mem _ (BlockOp.fullRC 0 (by omega) ⟨i - 1, by omega⟩)
          simpa [Op.rcol, show f + 1 + (i - 1) = f + i by omega] using this
        · have := mem _ (BlockOp.partRC 0 (by omega) (i - 4) (by omega))
          simpa [Op.rcol, show f + 4 + (i - 4) = f + i by omega] using this

theorem permuteBody_rows :
    Layouter.shapeRows (permuteBody m rc (config a f) w 0 0).ops = 8 := by
  apply Layouter.shapeRows_eq
  · intro o ho
    rw [mem_permuteBody a f m rc hc] at ho
    rcases ho with h | ⟨i, h⟩
    · rcases h.shape with ⟨c', r, v, rfl, _, _, h1, h2⟩ | ⟨c', r, v, rfl, _, _, h1, h2⟩ <;>
        simp only [Op.bottom] <;> omega
    · rw [h]; simp [Op.bottom]
  · exact ⟨_, (mem_permuteBody a f m rc hc w 0 _).mpr (Or.inl .mark), rfl⟩

/-- `permute` places one block at the first row where all columns of the chip are free. -/
theorem permute_ok (L : Layouter F) : ∃ s, (∀ c, ChipCol a f c → L.colEnd c ≤ s) ∧
    (∃ c, ChipCol a f c ∧ L.colEnd c = s) ∧
    ∃ L', permute m rc (config a f) L w = .ok (outWords a m rc w s, L') ∧
      L'.ops = L.ops ++ (permuteBody m rc (config a f) w 0 s).ops ∧
      (∀ c, ChipCol a f c → L'.colEnd c = s + 8) ∧
      (∀ c, ¬ ChipCol a f c → L'.colEnd c = L.colEnd c) ∧ L'.constCol = L.constCol := by
  have hcols := permuteBody_cols a f m rc hc w 0
  refine ⟨L.startOf (permuteBody m rc (config a f) w 0 0).ops,
    fun c h => L.le_startOf ((hcols c).mpr h), ?_,
    ⟨fun c => if c ∈ Layouter.shapeCols (permuteBody m rc (config a f) w 0 0).ops then
        L.startOf (permuteBody m rc (config a f) w 0 0).ops +
          Layouter.shapeRows (permuteBody m rc (config a f) w 0 0).ops else L.colEnd c, L.constCol,
      L.ops ++ (permuteBody m rc (config a f) w 0
        (L.startOf (permuteBody m rc (config a f) w 0 0).ops)).ops⟩,
    (L.assignRegion_ok _ (permuteBody_no_constant a f m rc hc w)).trans
      (by rw [permuteBody_val a f m rc hc]), rfl, ?_, ?_, rfl⟩
  · have hne : Layouter.shapeCols (permuteBody m rc (config a f) w 0 0).ops ≠ [] :=
      List.ne_nil_of_mem ((hcols (.fixed f)).mpr (Or.inr ⟨0, by omega, rfl⟩))
    obtain ⟨c, h1, h2⟩ := L.startOf_mem hne
    exact ⟨c, (hcols c).mp h1, h2⟩
  · intro c h
    simp only [hcols, h, if_true, permuteBody_rows a f m rc hc]
  · intro c h
    simp only [hcols, h, if_false]

omit hc in
/-- Operations of consecutive blocks starting at row `s`. -/
def blocksOps (a f : ℕ) (m : Base.Mds F 3) (rc : ℕ → Fin 3 → F) :
    List (Fin 3 → ACell F) → ℕ → List (Op F)
  | [], _ => []
  | w :: ws, s => (permuteBody m rc (config a f) w 0 s).ops ++ blocksOps a f m rc ws (s + 8)

omit hc in
/-- Words returned for consecutive blocks starting at row `s`. -/
def blocksOut (a : ℕ) (m : Base.Mds F 3) (rc : ℕ → Fin 3 → F) :
    List (Fin 3 → ACell F) → ℕ → List (Fin 3 → ACell F)
  | [], _ => []
  | w :: ws, s => outWords a m rc w s :: blocksOut a m rc ws (s + 8)

theorem serial_level (ws : List (Fin 3 → ACell F)) : ∀ (L : Layouter F) (s : ℕ),
    (∀ c, ChipCol a f c → L.colEnd c = s) →
    ∃ L', mapPermute (permute m rc (config a f)) L ws = .ok (blocksOut a m rc ws s, L') ∧
      L'.ops = L.ops ++ blocksOps a f m rc ws s ∧
      (∀ c, ChipCol a f c → L'.colEnd c = s + 8 * ws.length) ∧
      (∀ c, ¬ ChipCol a f c → L'.colEnd c = L.colEnd c) ∧ L'.constCol = L.constCol := by
  induction ws with
  | nil => intro L s h; exact ⟨L, rfl, by simp [blocksOps], by simpa using h, fun _ _ => rfl, rfl⟩
  | cons w ws ih =>
    intro L s h
    obtain ⟨s', h1, ⟨c, hc1, hc2⟩, L1, e1, o1, l1, n1, k1⟩ := permute_ok a f m rc hc w L
    have : s' = s := by rw [← hc2, h c hc1]
    subst this
    obtain ⟨L2, e2, o2, l2, n2, k2⟩ := ih L1 (s' + 8) l1
    refine ⟨L2, ?_, ?_, ?_, ?_, by rw [k2, k1]⟩
    · simp only [mapPermute, e1, e2, bind, Except.bind, pure, Except.pure]
      rfl
    · rw [o2, o1, List.append_assoc]; rfl
    · intro c hc; rw [l2 c hc, List.length_cons]; omega
    · intro c hc; rw [n2 c hc, n1 c hc]

/-- Permuting a non-empty list one by one: consecutive blocks below everything assigned before. -/
theorem serial_ok (w : Fin 3 → ACell F) (ws : List (Fin 3 → ACell F)) (L : Layouter F) :
    ∃ s, (∀ c, ChipCol a f c → L.colEnd c ≤ s) ∧ (∃ c, ChipCol a f c ∧ L.colEnd c = s) ∧
    ∃ L', mapPermute (permute m rc (config a f)) L (w :: ws) = .ok (blocksOut a m rc (w :: ws) s, L') ∧
      L'.ops = L.ops ++ blocksOps a f m rc (w :: ws) s ∧
      (∀ c, ChipCol a f c → L'.colEnd c = s + 8 * (w :: ws).length) ∧
      (∀ c, ¬ ChipCol a f c → L'.colEnd c = L.colEnd c) ∧ L'.constCol = L.constCol := by
  obtain ⟨s, h1, hex, L1, e1, o1, l1, n1, k1⟩ := permute_ok a f m rc hc w L
  obtain ⟨L2, e2, o2, l2, n2, k2⟩ := serial_level a f m rc hc ws L1 (s + 8) l1
  refine ⟨s, h1, hex, L2, ?_, ?_, ?_, ?_, by rw [k2, k1]⟩
  · simp only [mapPermute, e1, e2, bind, Except.bind, pure, Except.pure]
    rfl
  · rw [o2, o1, List.append_assoc]; rfl
  · intro c hc; rw [l2 c hc, List.length_cons]; omega
  · intro c hc; rw [n2 c hc, n1 c hc]

/-! ## `permute_batch` -/

omit hc in
theorem blocksOps_append (l1 l2 : List (Fin 3 → ACell F)) (s : ℕ) :
    blocksOps a f m rc (l1 ++ l2) s =
      blocksOps a f m rc l1 s ++ blocksOps a f m rc l2 (s + 8 * l1.length) := by
  induction l1 generalizing s with
  | nil => simp [blocksOps]
  | cons w l ih =>
    simp only [List.cons_append, blocksOps, ih, List.append_assoc, List.length_cons]
    rw [show s + 8 + 8 * l.length = s + 8 * (l.length + 1) by ring]

omit hc in
theorem blocksOut_append (l1 l2 : List (Fin 3 → ACell F)) (s : ℕ) :
    blocksOut a m rc (l1 ++ l2) s =
      blocksOut a m rc l1 s ++ blocksOut a m rc l2 (s + 8 * l1.length) := by
  induction l1 generalizing s with
  | nil => simp [blocksOut]
  | cons w l ih =>
    simp only [List.cons_append, blocksOut, ih, List.length_cons]
    rw [show s + 8 + 8 * l.length = s + 8 * (l.length + 1) by ring]

theorem batchBody_eq (ws : List (Fin 3 → ACell F)) : ∀ (b start : ℕ),
    batchBody m rc (config a f) ws b start =
      ⟨blocksOut a m rc ws (start + b), blocksOps a f m rc ws (start + b)⟩ := by
  induction ws with
  | nil => intro b start; rfl
  | cons w ws ih =>
    intro b start
    have h : batchBody m rc (config a f) (w :: ws) b start =
      ⟨(permuteBody m rc (config a f) w b start).val ::
        (batchBody m rc (config a f) ws (b + 8) start).val,
       (permuteBody m rc (config a f) w b start).ops ++
        ((batchBody m rc (config a f) ws (b + 8) start).ops ++ [])⟩ := rfl
    rw [h, permuteBody_shift, permuteBody_val a f m rc hc, ih, List.append_nil]
    rw [show start + (b + 8) = start + b + 8 by omega]
    rfl

omit hc in
theorem finalColumn : ((config a f).finalCells 0).column = a + 12 := rfl

omit hc in
theorem chunksOf_spec {α : Type} (n : ℕ) (hn : 0 < n) (l : List α) :
    (chunksOf n l).flatten = l ∧ ∀ c ∈ chunksOf n l, c ≠ [] := by
  induction hl : l.length using Nat.strong_induction_on generalizing l with
  | _ k ih =>
    unfold chunksOf
    split_ifs with h
    · rcases h with rfl | h
      · simp
      · omega
    · have hne : l ≠ [] := fun e => h (Or.inl e)
      have hlen : 0 < l.length := List.length_pos_iff.mpr hne
      obtain ⟨i1, i2⟩ := ih (l.drop n).length (by rw [List.length_drop]; omega) (l.drop n) rfl
      refine ⟨?_, ?_⟩
      · rw [List.flatten_cons, i1, List.take_append_drop]
      · intro c hcm
        rcases List.mem_cons.mp hcm with rfl | hcm
        · intro e
          have := congrArg List.length e
          rw [List.length_take, List.length_nil] at this
          omega
        · exact i2 c hcm

omit hc in
/-- Placement of the chunks: one below the other in the output column. -/
theorem placeAll_chunks (chunks : List (List (Fin 3 → ACell F))) :
    ∀ (L : Layouter F) (s : ℕ), (∀ c ∈ chunks, c ≠ []) → L.colEnd (.advice (a + 12)) = s →
      ∃ starts L', L.placeAll (chunks.map fun chunk =>
          [Op.advice ((config a f).finalCells 0).column (chunk.length * 8 - 1) (0 : F)]) = (starts, L') ∧
        starts.length = chunks.length ∧ L'.ops = L.ops ∧ L'.constCol = L.constCol ∧
        (∀ k (h : k < starts.length),
          starts[k] = s + 8 * (chunks.take k).flatten.length) ∧
        (∀ c, c ≠ .advice (a + 12) → L'.colEnd c = L.colEnd c) ∧
        L'.colEnd (.advice (a + 12)) = s + 8 * chunks.flatten.length := by
  induction chunks with
  | nil => intro L s _ hs; exact ⟨[], L, rfl, rfl, rfl, rfl, by simp, fun _ _ => rfl, by simpa using hs⟩
  | cons ch chunks ih =>
    intro L s hne hL
    have hpos : 0 < ch.length := List.length_pos_iff.mpr (hne ch (by simp))
    have hst : L.startOf [Op.advice ((config a f).finalCells 0).column (ch.length * 8 - 1) (0 : F)] = s := by
      simp [Layouter.startOf, Layouter.shapeCols, Op.rcol, finalColumn, hL]
    have hrows : Layouter.shapeRows
        [Op.advice ((config a f).finalCells 0).column (ch.length * 8 - 1) (0 : F)] = 8 * ch.length := by
      simp only [Layouter.shapeRows, List.map_cons, List.map_nil, Op.bottom, List.foldl_cons,
        List.foldl_nil]
      omega
    have hL' : (L.reserve [Op.advice ((config a f).finalCells 0).column (ch.length * 8 - 1) (0 : F)]
        s).colEnd (.advice (a + 12)) = s + 8 * ch.length := by
      simp only [Layouter.reserve, hrows]
      rw [if_pos (by simp [Layouter.shapeCols, Op.rcol, finalColumn])]
    obtain ⟨starts, L', e, hlen, ho, hk, hs, hcol, hend⟩ := ih
      (L.reserve [Op.advice ((config a f).finalCells 0).column (ch.length * 8 - 1) (0 : F)] s)
      (s + 8 * ch.length) (fun c h => hne c (by simp [h])) hL'
    refine ⟨s :: starts, L', ?_, by simp [hlen], ho, hk, ?_, ?_,
      by rw [hend, List.flatten_cons, List.length_append]; ring⟩
    · rw [List.map_cons, Layouter.placeAll, hst, e]
    · intro k hk
      cases k with
      | zero => simp
      | succ k =>
        simp only [List.getElem_cons_succ, List.take_succ_cons, List.flatten_cons, List.length_append]
        rw [hs k (by simpa using hk)]
        ring
    · intro c hcne
      rw [hcol c hcne]
      simp only [Layouter.reserve]
      rw [if_neg]
      simp [Layouter.shapeCols, Op.rcol, finalColumn, hcne]

omit hc in
theorem zip_flatten_aux (chunks : List (List (Fin 3 → ACell F))) : ∀ (starts : List ℕ) (s : ℕ),
    starts.length = chunks.length →
    (∀ k (h : k < starts.length), starts[k] = s + 8 * (chunks.take k).flatten.length) →
    ((chunks.zip starts).map fun q => blocksOut a m rc q.1 q.2).flatten =
      blocksOut a m rc chunks.flatten s ∧
    ((chunks.zip starts).map fun q => blocksOps a f m rc q.1 q.2).flatten =
      blocksOps a f m rc chunks.flatten s := by
  induction chunks with
  | nil => intro starts s h _; simp [blocksOut, blocksOps]
  | cons ch chunks ih =>
    intro starts s hlen hs
    cases starts with
    | nil => simp at hlen
    | cons s0 starts =>
      have h0 := hs 0 (by simp)
      simp at h0
      subst h0
      obtain ⟨i1, i2⟩ := ih starts (s0 + 8 * ch.length) (by simpa using hlen) (by
        intro k hk
        have := hs (k + 1) (by simpa using hk)
        simp only [List.getElem_cons_succ, List.take_succ_cons, List.flatten_cons,
          List.length_append] at this
        rw [this]; ring)
      constructor
      · simp only [List.zip_cons_cons, List.map_cons, List.flatten_cons, i1]
        rw [blocksOut_append]
      · simp only [List.zip_cons_cons, List.map_cons, List.flatten_cons, i2]
        rw [blocksOps_append]

theorem batch_ok (ws : List (Fin 3 → ACell F)) (threads : ℕ) (L : Layouter F) (s : ℕ)
    (hL : L.colEnd (.advice (a + 12)) = s) :
    ∃ L', permuteBatch m rc (config a f) threads L ws = .ok (blocksOut a m rc ws s, L') ∧
      L'.ops = L.ops ++ blocksOps a f m rc ws s ∧ L'.constCol = L.constCol ∧
      (∀ c, c ≠ .advice (a + 12) → L'.colEnd c = L.colEnd c) ∧
      L'.colEnd (.advice (a + 12)) = s + 8 * ws.length := by
  obtain ⟨hflat, hne⟩ := chunksOf_spec (ws.length / threads + 2) (Nat.succ_pos _) ws
  obtain ⟨starts, L', e, hlen, ho, hk, hs, hcol, hend⟩ := placeAll_chunks a f (F := F)
    (chunksOf (ws.length / threads + 2) ws) L s hne hL
  obtain ⟨z1, z2⟩ := zip_flatten_aux a f m rc _ starts s hlen hs
  rw [hflat] at z1 z2
  refine ⟨{L' with ops := L'.ops ++ blocksOps a f m rc ws s}, ?_, by simp [ho], hk, hcol,
    by rw [hend, hflat]⟩
  have key := L.assignRegions_ok (chunksOf (ws.length / threads + 2) ws)
    (fun chunk => [Op.advice ((config a f).finalCells 0).column (chunk.length * 8 - 1) (0 : F)])
    (fun chunk start => (Except.ok (batchBody m rc (config a f) chunk 0 start) :
          Except Panic (W F (List (Fin 3 → ACell F)))))
    (fun chunk start => ⟨blocksOut a m rc chunk start, blocksOps a f m rc chunk start⟩) starts L' e
    (fun q _ => by rw [batchBody_eq a f m rc hc, Nat.add_zero])
  unfold permuteBatch
  rw [key]
  simp only [bind, Except.bind, pure, Except.pure]
  rw [z1, z2]

end

end Circuit.Septidon
