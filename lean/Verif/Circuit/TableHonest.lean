import Verif.Circuit.TableRun

/-!
# The honest witness of the hash table
-/

set_option linter.unusedVariables false
set_option linter.unusedSectionVars false
set_option linter.unusedSimpArgs false

open Halo2

namespace Circuit.Table

variable {F : Type} [Field F] [DecidableEq F] (legacy : Bool) (STEP : ℕ)
  (π : (Fin 3 → F) → Fin 3 → F)

section Blocks
variable (row : ℕ → RowData F)

/-- Control, words and domain of row `j` (0 when absent). -/
def ctl (j : ℕ) : ℕ := (row j).control.getD 0

theorem seq_isNew (j : ℕ) :
    (seq legacy STEP π row j).isNew = true ↔ j = 0 ∨ ctl row (j - 1) ≤ STEP := by
  cases j with
  | zero => simp [seq, st0]
  | succ j => simp [seq, stepSt, ctl]

/-- First row (counted from 1) of the block of row `j`. -/
def pstart (j : ℕ) : ℕ := (seq legacy STEP π row (j + 1)).processStart

theorem pstart_eq (j : ℕ) : pstart legacy STEP π row j =
    if (seq legacy STEP π row j).isNew then j + 1 else (seq legacy STEP π row j).processStart := rfl

theorem pstart_new (j : ℕ) (h : (seq legacy STEP π row j).isNew = true) :
    pstart legacy STEP π row j = j + 1 := by rw [pstart_eq, if_pos h]

theorem pstart_old (j : ℕ) (h : STEP < ctl row j) :
    pstart legacy STEP π row (j + 1) = pstart legacy STEP π row j := by
  rw [pstart_eq, if_neg]
  · rfl
  · rw [seq_isNew]; simp; omega

theorem pstart_le (j : ℕ) : pstart legacy STEP π row j ≤ j + 1 := by
  induction j with
  | zero => rw [pstart_new _ _ _ _ _ rfl]
  | succ j ih =>
    by_cases h : ctl row j ≤ STEP
    · rw [pstart_new]; rw [seq_isNew]; simp [h]
    · rw [pstart_old _ _ _ _ _ (by omega)]; omega

theorem pstart_pos (j : ℕ) : 1 ≤ pstart legacy STEP π row j := by
  induction j with
  | zero => rw [pstart_new _ _ _ _ _ rfl]
  | succ j ih =>
    by_cases h : ctl row j ≤ STEP
    · rw [pstart_new]
      · omega
      · rw [seq_isNew]; simp [h]
    · rw [pstart_old _ _ _ _ _ (by omega)]; omega

/-- A block starts after every closed row before it. -/
theorem pstart_gt (j d : ℕ) (h : ctl row j ≤ STEP) : j + 2 ≤ pstart legacy STEP π row (j + 1 + d) := by
  induction d with
  | zero =>
    rw [Nat.add_zero, pstart_new]
    rw [seq_isNew]; simp [h]
  | succ d ih =>
    by_cases h' : ctl row (j + 1 + d) ≤ STEP
    · rw [show j + 1 + (d + 1) = j + 1 + d + 1 by omega, pstart_new]
      · omega
      · rw [seq_isNew]; simp [h']
    · rw [show j + 1 + (d + 1) = j + 1 + d + 1 by omega, pstart_old _ _ _ _ _ (by omega)]
      exact ih

theorem pstart_run (j d : ℕ) (h : ∀ i, j ≤ i → i < j + d → STEP < ctl row i) :
    pstart legacy STEP π row (j + d) = pstart legacy STEP π row j := by
  induction d with
  | zero => rfl
  | succ d ih =>
    rw [show j + (d + 1) = j + d + 1 by omega,
      pstart_old _ _ _ _ _ (h (j + d) (by omega) (by omega))]
    exact ih fun i h1 h2 => h i h1 (by omega)

end Blocks

section Log
variable {ch : Chip F 3} (lw : ch.Lawful π) (a f σ q : ℕ) (ht : Fin 6 → ℕ) (step : ℕ)
  (row : ℕ → RowData F) (N : ℕ) (mode : LoadMode)

/-- Advice writes to the columns of the table. -/
theorem advice_mem (s : ℕ) (s' : ℕ → ℕ) (c r : ℕ) (v : F) (hc : c < a + 8) :
    Op.advice c r v ∈ loadOps legacy STEP π lw a f σ q ht step ((List.range N).map row)
      (tailOps σ s N mode) s s' ↔
    (r = s ∧ v = 0 ∧ TableCol (conf lw a f σ q ht step) (.advice c)) ∨
    (∃ j < N, Op.advice c r v ∈
      (rowW legacy π (conf lw a f σ q ht step) s (j + 1) (seq legacy STEP π row j) (row j)).ops) ∨
    (c = ht 0 ∧ ∃ j < N, ctl row j ≤ STEP ∧ ∃ i, pstart legacy STEP π row j ≤ i ∧ i ≤ j + 1 ∧
      r = s + i ∧ v = π (inState legacy (seq legacy STEP π row j) (row j)) 0) := by
  rw [mem_loadOps]
  constructor
  · rintro (h | h | h | h | h)
    · rcases (mem_rangeOps legacy STEP f _).mp h with ⟨i, hi, h⟩ | h <;> cases h
    · rcases List.mem_append.mp h with h | h
      · rcases (mem_customOps _ s _).mp h with h | ⟨c', h, hc'⟩
        · cases h
        · cases h
          exact Or.inl ⟨rfl, rfl, hc'⟩
      · obtain ⟨j, hj, h⟩ := (mem_fillOps legacy STEP π _ s row N _).mp h
        rcases (mem_rowOps _ _ _ _ _ _ _ _ _).mp h with h | ⟨h1, i, h2, h3, h4⟩
        · exact Or.inr (Or.inl ⟨j, hj, h⟩)
        · cases h4
          exact Or.inr (Or.inr ⟨rfl, j, hj, h1, i, h2, h3, rfl, rfl⟩)
    · have := mem_tailOps σ N s mode _ h
      cases this
    · rcases lw.shape _ _ _ _ _ _ h with ⟨c', r', v', h, h1, -⟩ | ⟨c', r', v', h, -⟩ |
        ⟨c', r', h, -⟩ | ⟨c', r', w, k, h, -⟩ <;> cases h
      omega
    · obtain ⟨_, _, _, h⟩ := (mem_finalOps _ _ _).mp h
      cases h
  · rintro (⟨rfl, rfl, h⟩ | ⟨j, hj, h⟩ | ⟨rfl, j, hj, h1, i, h2, h3, rfl, rfl⟩)
    · exact Or.inr (Or.inl (List.mem_append_left _ ((mem_customOps _ _ _).mpr (Or.inr ⟨c, rfl, h⟩))))
    · exact Or.inr (Or.inl (List.mem_append_right _ ((mem_fillOps legacy STEP π _ s row N _).mpr
        ⟨j, hj, (mem_rowOps _ _ _ _ _ _ _ _ _).mpr (Or.inl h)⟩)))
    · exact Or.inr (Or.inl (List.mem_append_right _ ((mem_fillOps legacy STEP π _ s row N _).mpr
        ⟨j, hj, (mem_rowOps _ _ _ _ _ _ _ _ _).mpr (Or.inr ⟨h1, i, h2, h3, rfl⟩)⟩)))

variable (hht : ∀ i, ht i < a) (hinj : Function.Injective ht)
include hht hinj

/-- The row writes each column once, and not column 0. -/
theorem rowW_unique (s off : ℕ) (st : FillState F) (rw_ : RowData F) (c r r' : ℕ) (v v' : F)
    (h : Op.advice c r v ∈ (rowW legacy π (conf lw a f σ q ht step) s off st rw_).ops)
    (h' : Op.advice c r' v' ∈ (rowW legacy π (conf lw a f σ q ht step) s off st rw_).ops) :
    v = v' ∧ c ≠ ht 0 ∧ r = s + off ∧ r' = s + off := by
  have hne : ∀ i j, i ≠ j → ht i ≠ ht j := fun i j h h' => h (hinj h')
  have h10 := hne 1 0 (by decide)
  have h20 := hne 2 0 (by decide)
  have h30 := hne 3 0 (by decide)
  have h40 := hne 4 0 (by decide)
  have h50 := hne 5 0 (by decide)
  have h12 := hne 1 2 (by decide)
  have h13 := hne 1 3 (by decide)
  have h14 := hne 1 4 (by decide)
  have h15 := hne 1 5 (by decide)
  have h23 := hne 2 3 (by decide)
  have h24 := hne 2 4 (by decide)
  have h25 := hne 2 5 (by decide)
  have h34 := hne 3 4 (by decide)
  have h35 := hne 3 5 (by decide)
  have h45 := hne 4 5 (by decide)
  have b0 := hht 0
  have b1 := hht 1
  have b2 := hht 2
  have b3 := hht 3
  have b4 := hht 4
  have b5 := hht 5
  rw [rowW_ops] at h h'
  simp only [conf, List.mem_cons, List.not_mem_nil, or_false, Op.advice.injEq, reduceCtorEq, false_or,
    Fin.isValue, Fin.val_zero, Fin.val_one, Fin.coe_ofNat_eq_mod, Nat.reduceMod] at h h'
  rcases h with ⟨rfl, rfl, rfl⟩ | ⟨rfl, rfl, rfl⟩ | ⟨rfl, rfl, rfl⟩ | ⟨rfl, rfl, rfl⟩ | ⟨rfl, rfl, rfl⟩ |
    ⟨rfl, rfl, rfl⟩ | ⟨rfl, rfl, rfl⟩ | ⟨rfl, rfl, rfl⟩ | ⟨rfl, rfl, rfl⟩ | ⟨rfl, rfl, rfl⟩ |
    ⟨rfl, rfl, rfl⟩ | ⟨rfl, rfl, rfl⟩ | ⟨rfl, rfl, rfl⟩ <;>
  rcases h' with ⟨e1, e2, e3⟩ | ⟨e1, e2, e3⟩ | ⟨e1, e2, e3⟩ | ⟨e1, e2, e3⟩ | ⟨e1, e2, e3⟩ | ⟨e1, e2, e3⟩ |
    ⟨e1, e2, e3⟩ | ⟨e1, e2, e3⟩ | ⟨e1, e2, e3⟩ | ⟨e1, e2, e3⟩ | ⟨e1, e2, e3⟩ | ⟨e1, e2, e3⟩ |
    ⟨e1, e2, e3⟩ <;>
  first
    | exact absurd e1 (by omega)
    | exact ⟨e3.symm, by omega, rfl, e2⟩

/-- Values of all columns but the first one at row `s + j + 1`. -/
theorem final_row (s : ℕ) (s' : ℕ → ℕ) (c j : ℕ) (v : F) (hc : c < a + 8) (hj : j < N)
    (h : Op.advice c (s + (j + 1)) v ∈
      (rowW legacy π (conf lw a f σ q ht step) s (j + 1) (seq legacy STEP π row j) (row j)).ops) :
    finalAdvice (loadOps legacy STEP π lw a f σ q ht step ((List.range N).map row)
      (tailOps σ s N mode) s s') c (s + (j + 1)) = v := by
  refine finalAdvice_eq ((advice_mem legacy STEP π lw a f σ q ht step row N mode s s' c _ v hc).mpr
    (Or.inr (Or.inl ⟨j, hj, h⟩))) fun v' h' => ?_
  rcases (advice_mem legacy STEP π lw a f σ q ht step row N mode s s' c _ v' hc).mp h' with
    ⟨h1, -⟩ | ⟨j', hj', h'⟩ | ⟨rfl, -⟩
  · omega
  · have hr := (rowW_unique legacy π lw a f σ q ht step hht hinj s (j' + 1) _ _ c _ _ v' v' h' h').2.2.1
    obtain rfl : j' = j := by omega
    exact (rowW_unique legacy π lw a f σ q ht step hht hinj s (j' + 1) _ _ c _ _ v' v h' h).1
  · exact absurd rfl (rowW_unique legacy π lw a f σ q ht step hht hinj s (j + 1) _ _ _ _ _ v v h h).2.1

/-- The first row is zero. -/
theorem final_zero (s : ℕ) (s' : ℕ → ℕ) (c : ℕ) (hc : TableCol (conf lw a f σ q ht step) (.advice c)) :
    finalAdvice (loadOps legacy STEP π lw a f σ q ht step ((List.range N).map row)
      (tailOps σ s N mode) s s') c s = 0 := by
  have hlt : c < a + 8 := by
    rcases hc with ⟨i, rfl⟩ | ⟨i, rfl⟩ | rfl | rfl
    · have := hht i; simp only [conf]; omega
    · simp only [conf]; omega
    · simp only [conf]; omega
    · simp only [conf]; omega
  refine finalAdvice_eq ((advice_mem legacy STEP π lw a f σ q ht step row N mode s s' c _ 0 hlt).mpr
    (Or.inl ⟨rfl, rfl, hc⟩)) fun v' h' => ?_
  rcases (advice_mem legacy STEP π lw a f σ q ht step row N mode s s' c _ v' hlt).mp h' with
    ⟨-, h1, -⟩ | ⟨j', hj', h'⟩ | ⟨-, j, hj, hcl, i, h1, h2, h3, -⟩
  · exact h1
  · have hr := (rowW_unique legacy π lw a f σ q ht step hht hinj s (j' + 1) _ _ c _ _ v' v' h' h').2.2.1
    omega
  · have := pstart_pos legacy STEP π row j
    omega

/-- Rows outside the table are empty. -/
theorem final_outside (s : ℕ) (s' : ℕ → ℕ) (c r : ℕ) (hc : c < a + 8) (hr : r < s ∨ s + N < r) :
    finalAdvice (loadOps legacy STEP π lw a f σ q ht step ((List.range N).map row)
      (tailOps σ s N mode) s s') c r = 0 := by
  refine finalAdvice_zero fun v h => ?_
  rcases (advice_mem legacy STEP π lw a f σ q ht step row N mode s s' c _ v hc).mp h with
    ⟨h1, -, -⟩ | ⟨j', hj', h'⟩ | ⟨-, j, hj, hcl, i, h1, h2, h3, -⟩
  · omega
  · have hr := (rowW_unique legacy π lw a f σ q ht step hht hinj s (j' + 1) _ _ c _ _ v v h' h').2.2.1
    omega
  · omega

/-- The digest column, on the rows of a closed block. -/
theorem final_idx (s : ℕ) (s' : ℕ → ℕ) (i j : ℕ) (hj : j < N) (hcl : ctl row j ≤ STEP)
    (h1 : pstart legacy STEP π row j ≤ i) (h2 : i ≤ j + 1) :
    finalAdvice (loadOps legacy STEP π lw a f σ q ht step ((List.range N).map row)
      (tailOps σ s N mode) s s') (ht 0) (s + i) =
      π (inState legacy (seq legacy STEP π row j) (row j)) 0 := by
  have hlt : ht 0 < a + 8 := by have := hht 0; omega
  refine finalAdvice_eq ((advice_mem legacy STEP π lw a f σ q ht step row N mode s s' _ _ _ hlt).mpr
    (Or.inr (Or.inr ⟨rfl, j, hj, hcl, i, h1, h2, rfl, rfl⟩))) fun v' h' => ?_
  rcases (advice_mem legacy STEP π lw a f σ q ht step row N mode s s' _ _ v' hlt).mp h' with
    ⟨h, -, -⟩ | ⟨j', hj', h'⟩ | ⟨-, j', hj', hcl', i', h1', h2', h3', h4'⟩
  · have := pstart_pos legacy STEP π row j
    omega
  · exact absurd rfl (rowW_unique legacy π lw a f σ q ht step hht hinj s (j' + 1) _ _ _ _ _ v' v' h' h').2.1
  · obtain rfl : i' = i := by omega
    rw [h4']
    rcases Nat.lt_trichotomy j j' with hlt | rfl | hlt
    · have := pstart_gt legacy STEP π row j (j' - j - 1) hcl
      rw [show j + 1 + (j' - j - 1) = j' by omega] at this
      omega
    · rfl
    · have := pstart_gt legacy STEP π row j' (j - j' - 1) hcl'
      rw [show j' + 1 + (j - j' - 1) = j by omega] at this
      omega

end Log
end Circuit.Table
