import Verif.Circuit.TableShape

/-!
# What the generator of the witness hashes
-/

set_option linter.unusedVariables false
set_option linter.unusedSectionVars false
set_option linter.unusedSimpArgs false

open Halo2

namespace Circuit.Table

variable {F : Type} [Field F] [DecidableEq F] (legacy : Bool) (STEP : ℕ)
  (π : (Fin 3 → F) → Fin 3 → F) (row : ℕ → RowData F)

/-- The rows `a, ..., a + m` of a block as the generator absorbs them: the domain counts on the first row
only. -/
def absorbed (a m : ℕ) : List (F × F × F) :=
  ((row a).domain.getD 0, ((row a).inp.getD (0, 0)).1, ((row a).inp.getD (0, 0)).2) ::
    (List.range m).map fun i =>
      (0, ((row (a + i + 1)).inp.getD (0, 0)).1, ((row (a + i + 1)).inp.getD (0, 0)).2)

/-- The state after a row of a block. -/
theorem seq_absorb (a m : ℕ) (hnew : a = 0 ∨ ctl row (a - 1) ≤ STEP)
    (hin : ∀ i < m, STEP < ctl row (a + i)) :
    let st := (seq legacy STEP π row (a + m + 1)).state
    (st 0, st 1, st 2) = Spec.absorbRows (Spec.onTriples π) (specFlag legacy (ctl row a), 0, 0)
      (absorbed row a m) := by
  induction m with
  | zero =>
    have h := (seq_isNew legacy STEP π row a).mpr hnew
    simp only [absorbed, List.range_zero, List.map_nil, Spec.absorbRows, Spec.onTriples, Nat.add_zero,
      seq_state, inState, h, if_true, zero_add, ctl]
  | succ m ih =>
    have ih := ih fun i hi => hin i (by omega)
    have h : ¬ (seq legacy STEP π row (a + (m + 1))).isNew = true := by
      rw [seq_isNew]
      have := hin m (by omega)
      rw [show a + (m + 1) - 1 = a + m by omega]
      omega
    have e : absorbed row a (m + 1) = absorbed row a m ++
        [(0, ((row (a + m + 1)).inp.getD (0, 0)).1, ((row (a + m + 1)).inp.getD (0, 0)).2)] := by
      simp only [absorbed, List.range_succ, List.map_append, List.map_cons, List.map_nil, List.cons_append]
    rw [e, absorbRows_append]
    simp only at ih
    rw [← ih]
    rw [show a + m + 1 = a + (m + 1) by omega]
    simp only [Spec.absorbRows, Spec.onTriples, add_zero, seq_state, inState, h, if_false, Bool.false_eq_true]

/-- The digest word after a row of a block. -/
theorem seq_digest (a m : ℕ) (hnew : a = 0 ∨ ctl row (a - 1) ≤ STEP)
    (hin : ∀ i < m, STEP < ctl row (a + i)) :
    π (inState legacy (seq legacy STEP π row (a + m)) (row (a + m))) 0 =
      Spec.rowsDigest (Spec.onTriples π) (specFlag legacy (ctl row a)) (absorbed row a m) := by
  have h := congrArg Prod.fst (seq_absorb legacy STEP π row a m hnew hin)
  simp only [seq_state] at h
  exact h

/-- Every row lies in a block. -/
theorem exists_start (j : ℕ) : ∃ a m, j = a + m ∧ (a = 0 ∨ ctl row (a - 1) ≤ STEP) ∧
    ∀ i < m, STEP < ctl row (a + i) := by
  induction j with
  | zero => exact ⟨0, 0, rfl, Or.inl rfl, fun i h => by omega⟩
  | succ j ih =>
    obtain ⟨a, m, rfl, h1, h2⟩ := ih
    by_cases h : ctl row (a + m) ≤ STEP
    · exact ⟨a + m + 1, 0, rfl, Or.inr h, fun i h => by omega⟩
    · refine ⟨a, m + 1, by omega, h1, fun i hi => ?_⟩
      rcases Nat.lt_succ_iff_lt_or_eq.mp hi with h' | rfl
      · exact h2 i h'
      · omega

/-- The checks of all rows, in terms of digests. -/
theorem allChecks_digest (n : ℕ) : AllChecks legacy STEP π ((List.range n).map row) ↔
    ∀ a m, a + m < n → (a = 0 ∨ ctl row (a - 1) ≤ STEP) → (∀ i < m, STEP < ctl row (a + i)) →
      ∀ ck, (row (a + m)).check = some ck →
        ck = Spec.rowsDigest (Spec.onTriples π) (specFlag legacy (ctl row a)) (absorbed row a m) := by
  rw [allChecks_iff]
  constructor
  · intro h a m hn h1 h2 ck hck
    rw [← seq_digest legacy STEP π row a m h1 h2]
    exact h (a + m) hn ck hck
  · intro h j hj ck hck
    obtain ⟨a, m, rfl, h1, h2⟩ := exists_start STEP row j
    rw [seq_digest legacy STEP π row a m h1 h2]
    exact h a m hj h1 h2 ck hck

/-- The digest column of the honest witness. -/
theorem HonestView.block {legacy : Bool} {STEP : ℕ} {π : (Fin 3 → F) → Fin 3 → F} {row : ℕ → RowData F}
    {v : View F} {s N : ℕ} (h : HonestView legacy STEP π row v s N) (a m : ℕ)
    (h1 : a = 0 ∨ ctl row (a - 1) ≤ STEP) (h2 : ∀ i < m, STEP < ctl row (a + i))
    (hc : ctl row (a + m) ≤ STEP) (hN : a + m < N) :
    ∀ i ≤ m, a + i + 1 < N → v.idx (s + (a + i + 1)) =
      Spec.rowsDigest (Spec.onTriples π) (specFlag legacy (ctl row a)) (absorbed row a m) := by
  intro i hi hlt
  have hp : pstart legacy STEP π row (a + m) = a + 1 := by
    rw [pstart_run legacy STEP π row a m (fun j h3 h4 => by
      have := h2 (j - a) (by omega); rwa [show a + (j - a) = j by omega] at this)]
    exact pstart_new legacy STEP π row a ((seq_isNew legacy STEP π row a).mpr h1)
  rw [h.idx (a + i + 1) (a + m) hlt hN hc (by omega) (by omega), seq_digest legacy STEP π row a m h1 h2]

end Circuit.Table
