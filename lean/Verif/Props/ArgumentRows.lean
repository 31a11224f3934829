import Verif.Props.ArgumentCount

/-!
# The terms of the argument on the rows of the domain
-/

set_option linter.unusedSectionVars false
set_option linter.unusedDecidableInType false

namespace Halo2
open Polynomial
variable {F : Type} [Field F]

namespace Key

/-- The domain has as many rows as the key says, of which some can be assigned and some cannot. -/
structure Wf (K : Key F) : Prop where
  root : IsPrimitiveRoot K.ω K.n
  pos : 0 < K.usable
  lt : K.usable < K.n

variable {K : Key F} {m : Messages F}

theorem Wf.n_pos (h : K.Wf) : 0 < K.n := by have := h.lt; omega

theorem rotEval_row (h : K.Wf) (p : F[X]) (r : ℕ) (k : ℤ) :
    rotEval K.ω p k (K.ω ^ r) = p.eval (K.ω ^ (((r : ℤ) + k) % (K.n : ℤ)).toNat) := by
  rw [rotEval, rot_pow h.root h.n_pos]

theorem rot_lt (h : K.Wf) (r : ℕ) (k : ℤ) : (((r : ℤ) + k) % (K.n : ℤ)).toNat < K.n := by
  have h0 := h.n_pos
  have h1 := Int.emod_nonneg ((r : ℤ) + k) (b := K.n) (by omega)
  have h2 := Int.emod_lt_of_pos ((r : ℤ) + k) (b := K.n) (by omega)
  omega

theorem expr_row (h : K.Wf) {r : ℕ} (hr : r < K.n) : ∀ e : Expr F,
    e.evalAt (K.opened m (K.ω ^ r)) = e.eval (K.grid m.advice) r
  | .const c => rfl
  | .selector i => interp_eval h.root _ hr
  | .fixed i k => by
    simp only [Expr.evalAt, Expr.eval, opened, grid, Grid.rot]
    rw [rotEval_row h, fixedPoly, interp_eval h.root _ (rot_lt h r k)]
  | .advice i k => by
    simp only [Expr.evalAt, Expr.eval, opened, grid, Grid.rot]
    rw [rotEval_row h]
  | .neg e => by simp [Expr.evalAt, Expr.eval, expr_row h hr e]
  | .add a b => by simp [Expr.evalAt, Expr.eval, expr_row h hr a, expr_row h hr b]
  | .mul a b => by simp [Expr.evalAt, Expr.eval, expr_row h hr a, expr_row h hr b]
  | .scaled a c => by simp [Expr.evalAt, Expr.eval, expr_row h hr a]

theorem rot_zero (_ : K.Wf) {r : ℕ} (hr : r < K.n) : (((r : ℤ) + 0) % (K.n : ℤ)).toNat = r := by
  rw [add_zero, Int.emod_eq_of_lt (by omega) (by omega), Int.toNat_natCast]

theorem rot_one (_ : K.Wf) {r : ℕ} (hr : r + 1 < K.n) : (((r : ℤ) + 1) % (K.n : ℤ)).toNat = r + 1 := by
  rw [Int.emod_eq_of_lt (by omega) (by omega)]
  omega

theorem rot_pred (_ : K.Wf) {r : ℕ} (hr : r + 1 < K.n) : ((((r + 1 : ℕ) : ℤ) + -1) % (K.n : ℤ)).toNat = r := by
  rw [Int.emod_eq_of_lt (by omega) (by omega)]
  omega

theorem rot_last (h : K.Wf) : ((((0 : ℕ) : ℤ) + -((K.n : ℤ) - K.usable)) % (K.n : ℤ)).toNat = K.usable := by
  have := h.lt
  have e : (((0 : ℕ) : ℤ) + -((K.n : ℤ) - K.usable)) = (K.usable : ℤ) + K.n * (-1) := by push_cast; ring
  rw [e, Int.add_mul_emod_self_left, Int.emod_eq_of_lt (by omega) (by omega), Int.toNat_natCast]

theorem col_row (h : K.Wf) {r : ℕ} (hr : r < K.n) (c : Col) :
    (K.opened m (K.ω ^ r)).col c = (K.grid m.advice).cell ⟨c, r⟩ := by
  cases c with
  | advice i =>
    simp only [Opened.col, opened, grid, Grid.cell]
    rw [rotEval_row h, rot_zero h hr]
  | fixed i =>
    simp only [Opened.col, opened, grid, Grid.cell]
    rw [rotEval_row h, rot_zero h hr, fixedPoly, interp_eval h.root _ hr]

theorem active_row (h : K.Wf) {r : ℕ} (hr : r < K.n) :
    (K.opened m (K.ω ^ r)).active = if r < K.usable then 1 else 0 := by
  simp only [Opened.active, opened, lLastPoly, lBlindPoly]
  rw [interp_eval h.root _ hr, interp_eval h.root _ hr]
  rcases lt_trichotomy r K.usable with h1 | h1 | h1
  · rw [if_neg (by omega), if_neg (by omega), if_pos h1]; ring
  · rw [if_pos h1, if_neg (by omega), if_neg (by omega)]; ring
  · rw [if_neg (by omega), if_pos h1, if_neg (by omega)]; ring

theorem l0_row (h : K.Wf) {r : ℕ} (hr : r < K.n) : (K.opened m (K.ω ^ r)).l0 = if r = 0 then 1 else 0 :=
  interp_eval h.root _ hr

theorem lLast_row (h : K.Wf) {r : ℕ} (hr : r < K.n) : (K.opened m (K.ω ^ r)).lLast = if r = K.usable then 1 else 0 :=
  interp_eval h.root _ hr

theorem chunkLen_pos (K : Key F) : 0 < K.chunkLen := by
  have := K.three_le_degree
  unfold chunkLen
  omega

/-- Every column is in one chunk. -/
theorem prod_chunks (K : Key F) (f : Fin K.cols.length → F) :
    ∏ i ∈ Finset.range K.chunks, ∏ j ∈ K.chunk i, f j = ∏ j, f j := by
  unfold chunk
  refine Finset.prod_fiberwise_of_maps_to (fun j _ => ?_) f
  rw [Finset.mem_range]
  have h0 := K.chunkLen_pos
  have hj := j.isLt
  unfold chunks
  rw [Nat.div_lt_iff_lt_mul h0]
  have h1 := Nat.div_add_mod (K.cols.length + K.chunkLen - 1) K.chunkLen
  have h2 := Nat.mod_lt (K.cols.length + K.chunkLen - 1) h0
  rw [mul_comm]
  omega

theorem chunks_zero (K : Key F) (h : K.chunks = 0) : K.cols.length = 0 := by
  have h0 := K.chunkLen_pos
  rcases Nat.div_eq_zero_iff.mp h with h | h <;> omega

/-- Cells of the permutation argument that can be assigned. -/
def cells (K : Key F) : Finset (ℕ × Fin K.cols.length) := Finset.range K.usable ×ˢ Finset.univ

/-- Content, name and name of the image of a cell. -/
noncomputable def val (K : Key F) (advice : ℕ → F[X]) (p : ℕ × Fin K.cols.length) : F :=
  (K.grid advice).cell ⟨K.cols.get p.2, p.1⟩
def name (K : Key F) (p : ℕ × Fin K.cols.length) : F := K.δ ^ (p.2 : ℕ) * K.ω ^ p.1
noncomputable def image (K : Key F) (p : ℕ × Fin K.cols.length) : F := (K.sigmaPoly p.2).eval (K.ω ^ p.1)

/-- Factors of the permutation argument. -/
noncomputable def num (K : Key F) (advice : ℕ → F[X]) (β γ : F) (p : ℕ × Fin K.cols.length) : F :=
  K.val advice p + β * K.name p + γ
noncomputable def den (K : Key F) (advice : ℕ → F[X]) (β γ : F) (p : ℕ × Fin K.cols.length) : F :=
  K.val advice p + β * K.image p + γ

/-- The terms of the permutation argument on all rows. -/
theorem permTerms_iff (h : K.Wf) (β γ : F) (hc : K.chunks ≠ 0) :
    (∀ r < K.n, ∀ t ∈ permTerms K β γ (K.opened m (K.ω ^ r)), t = 0) ↔
      (m.zPerm 0).eval (K.ω ^ 0) = 1 ∧
      ((m.zPerm (K.chunks - 1)).eval (K.ω ^ K.usable) ^ 2 = (m.zPerm (K.chunks - 1)).eval (K.ω ^ K.usable)) ∧
      (∀ i < K.chunks - 1, (m.zPerm (i + 1)).eval (K.ω ^ 0) = (m.zPerm i).eval (K.ω ^ K.usable)) ∧
      ∀ i < K.chunks, ∀ r < K.usable,
        (m.zPerm i).eval (K.ω ^ (r + 1)) * ∏ j ∈ K.chunk i, K.den m.advice β γ (r, j) =
          (m.zPerm i).eval (K.ω ^ r) * ∏ j ∈ K.chunk i, K.num m.advice β γ (r, j) := by
  have hn := h.n_pos
  have hlt := h.lt
  have eden : ∀ r < K.n, ∀ i, ∏ j ∈ K.chunk i, ((K.opened m (K.ω ^ r)).col (K.cols.get j) +
      algebraMap F F β * (K.opened m (K.ω ^ r)).sigma j + algebraMap F F γ) = ∏ j ∈ K.chunk i, K.den m.advice β γ (r, j) :=
    fun r hr i => Finset.prod_congr rfl fun j _ => by rw [col_row h hr]; rfl
  have enum : ∀ r < K.n, ∀ i, ∏ j ∈ K.chunk i, ((K.opened m (K.ω ^ r)).col (K.cols.get j) +
      algebraMap F F (K.δ ^ (j : ℕ) * β) * (K.opened m (K.ω ^ r)).x + algebraMap F F γ) =
        ∏ j ∈ K.chunk i, K.num m.advice β γ (r, j) :=
    fun r hr i => Finset.prod_congr rfl fun j _ => by
      rw [col_row h hr]
      simp only [num, val, name, opened, Algebra.algebraMap_self_apply]
      ring
  have unfold_terms : ∀ r, permTerms K β γ (K.opened m (K.ω ^ r)) = _ := fun r => by
    rw [permTerms, if_neg hc]
  have hmem : ∀ r < K.n, (∀ t ∈ permTerms K β γ (K.opened m (K.ω ^ r)), t = 0) ↔
      ((if r = 0 then (1 : F) else 0) * (1 - (m.zPerm 0).eval (K.ω ^ r)) = 0 ∧
      (if r = K.usable then (1 : F) else 0) * ((m.zPerm (K.chunks - 1)).eval (K.ω ^ r) ^ 2 - (m.zPerm (K.chunks - 1)).eval (K.ω ^ r)) = 0) ∧
      (∀ i < K.chunks - 1, (if r = 0 then (1 : F) else 0) * ((m.zPerm (i + 1)).eval (K.ω ^ r) -
        rotEval K.ω (m.zPerm i) (-((K.n : ℤ) - K.usable)) (K.ω ^ r)) = 0) ∧
      ∀ i < K.chunks, (rotEval K.ω (m.zPerm i) 1 (K.ω ^ r) * ∏ j ∈ K.chunk i, K.den m.advice β γ (r, j) -
        (m.zPerm i).eval (K.ω ^ r) * ∏ j ∈ K.chunk i, K.num m.advice β γ (r, j)) *
          (if r < K.usable then (1 : F) else 0) = 0 := by
    intro r hr
    rw [unfold_terms]
    simp only [List.forall_mem_append, List.forall_mem_map, List.mem_range, List.forall_mem_cons, List.not_mem_nil,
      false_imp_iff, implies_true, and_true, l0_row h hr, lLast_row h hr, active_row h hr]
    simp only [eden r hr, enum r hr]
    rw [and_assoc]
    rfl
  constructor
  · intro H
    refine ⟨?_, ?_, ?_, ?_⟩
    · have := ((hmem 0 hn).mp (H 0 hn)).1.1
      rw [if_pos rfl, one_mul] at this
      exact (sub_eq_zero.mp this).symm
    · have := ((hmem _ hlt).mp (H _ hlt)).1.2
      rw [if_pos rfl, one_mul] at this
      exact sub_eq_zero.mp this
    · intro i hi
      have := ((hmem 0 hn).mp (H 0 hn)).2.1 i hi
      rw [if_pos rfl, one_mul, rotEval_row h, rot_last h] at this
      exact sub_eq_zero.mp this
    · intro i hi r hr
      have := ((hmem r (by omega)).mp (H r (by omega))).2.2 i hi
      rw [if_pos hr, mul_one, rotEval_row h, rot_one h (by omega)] at this
      exact sub_eq_zero.mp this
  · rintro ⟨h1, h2, h3, h4⟩ r hr
    rw [hmem r hr]
    refine ⟨⟨?_, ?_⟩, fun i hi => ?_, fun i hi => ?_⟩
    · split_ifs with h0
      · rw [h0, h1]; ring
      · ring
    · split_ifs with h0
      · rw [h0, h2]; ring
      · ring
    · split_ifs with h0
      · rw [h0, h3 i hi, rotEval_row h, rot_last h]; ring
      · ring
    · split_ifs with h0
      · rw [rotEval_row h, rot_one h (by omega), h4 i hi r h0]; ring
      · ring

/-- If the permutation argument holds on all rows, the products of all factors agree, or vanish. -/
theorem perm_product (h : K.Wf) {β γ : F} (H : ∀ r < K.n, ∀ t ∈ permTerms K β γ (K.opened m (K.ω ^ r)), t = 0) :
    ∏ p ∈ K.cells, K.num m.advice β γ p = 0 ∨
      ∏ p ∈ K.cells, K.num m.advice β γ p = ∏ p ∈ K.cells, K.den m.advice β γ p := by
  by_cases hc : K.chunks = 0
  · right
    refine Finset.prod_congr rfl fun p _ => ?_
    have := p.2.isLt
    have := K.chunks_zero hc
    omega
  obtain ⟨h1, h2, h3, h4⟩ := (permTerms_iff h β γ hc).mp H
  have one : ∀ i < K.chunks, ∀ u ≤ K.usable,
      (m.zPerm i).eval (K.ω ^ u) * ∏ r ∈ Finset.range u, ∏ j ∈ K.chunk i, K.den m.advice β γ (r, j) =
        (m.zPerm i).eval (K.ω ^ 0) * ∏ r ∈ Finset.range u, ∏ j ∈ K.chunk i, K.num m.advice β γ (r, j) := by
    intro i hi u
    induction u with
    | zero => intro _; simp
    | succ u ih =>
      intro hu
      have ih := ih (by omega)
      have hs := h4 i hi u (by omega)
      rw [Finset.prod_range_succ, Finset.prod_range_succ]
      linear_combination (∏ r ∈ Finset.range u, ∏ j ∈ K.chunk i, K.den m.advice β γ (r, j)) * hs +
        (∏ j ∈ K.chunk i, K.num m.advice β γ (u, j)) * ih
  have all : ∀ k < K.chunks, (m.zPerm k).eval (K.ω ^ K.usable) *
      ∏ i ∈ Finset.range (k + 1), ∏ r ∈ Finset.range K.usable, ∏ j ∈ K.chunk i, K.den m.advice β γ (r, j) =
        ∏ i ∈ Finset.range (k + 1), ∏ r ∈ Finset.range K.usable, ∏ j ∈ K.chunk i, K.num m.advice β γ (r, j) := by
    intro k
    induction k with
    | zero =>
      intro hk
      have := one 0 hk K.usable le_rfl
      rw [h1] at this
      simpa using this
    | succ k ih =>
      intro hk
      have ih := ih (by omega)
      have h3 := h3 k (by omega)
      have h1 := one (k + 1) hk K.usable le_rfl
      rw [h3] at h1
      rw [Finset.prod_range_succ, Finset.prod_range_succ _ (k + 1), ← ih]
      linear_combination (∏ i ∈ Finset.range (k + 1), ∏ r ∈ Finset.range K.usable, ∏ j ∈ K.chunk i,
        K.den m.advice β γ (r, j)) * h1
  have hlast := all (K.chunks - 1) (by omega)
  rw [Nat.sub_add_cancel (by omega)] at hlast
  have regroup : ∀ f : ℕ × Fin K.cols.length → F,
      ∏ i ∈ Finset.range K.chunks, ∏ r ∈ Finset.range K.usable, ∏ j ∈ K.chunk i, f (r, j) = ∏ p ∈ K.cells, f p := by
    intro f
    rw [Finset.prod_comm, cells, Finset.prod_product]
    exact Finset.prod_congr rfl fun r _ => K.prod_chunks fun j => f (r, j)
  rw [regroup, regroup] at hlast
  have hz : (m.zPerm (K.chunks - 1)).eval (K.ω ^ K.usable) = 0 ∨ (m.zPerm (K.chunks - 1)).eval (K.ω ^ K.usable) = 1 := by
    rw [sq] at h2
    rcases eq_or_ne ((m.zPerm (K.chunks - 1)).eval (K.ω ^ K.usable)) 0 with h | h
    · exact Or.inl h
    · exact Or.inr (mul_left_cancel₀ h (by rw [h2, mul_one]))
  rcases hz with hz | hz
  · left; rw [← hlast, hz, zero_mul]
  · right; rw [← hlast, hz, one_mul]

/-- The terms of a lookup on all rows. -/
theorem lookupTerms_iff (h : K.Wf) (β γ : F) (i : ℕ) (p : Expr F × Expr F) :
    (∀ r < K.n, ∀ t ∈ lookupTerms β γ i p (K.opened m (K.ω ^ r)), t = 0) ↔
      (m.zLookup i).eval (K.ω ^ 0) = 1 ∧
      (m.zLookup i).eval (K.ω ^ K.usable) ^ 2 = (m.zLookup i).eval (K.ω ^ K.usable) ∧
      (∀ r < K.usable, (m.zLookup i).eval (K.ω ^ (r + 1)) * ((m.permuted i).1.eval (K.ω ^ r) + β) *
          ((m.permuted i).2.eval (K.ω ^ r) + γ) =
        (m.zLookup i).eval (K.ω ^ r) * (p.1.eval (K.grid m.advice) r + β) * (p.2.eval (K.grid m.advice) r + γ)) ∧
      (m.permuted i).1.eval (K.ω ^ 0) = (m.permuted i).2.eval (K.ω ^ 0) ∧
      ∀ r, r + 1 < K.usable → (m.permuted i).1.eval (K.ω ^ (r + 1)) = (m.permuted i).2.eval (K.ω ^ (r + 1)) ∨
        (m.permuted i).1.eval (K.ω ^ (r + 1)) = (m.permuted i).1.eval (K.ω ^ r) := by
  have hn := h.n_pos
  have hlt := h.lt
  have hpos := h.pos
  have hmem : ∀ r < K.n, (∀ t ∈ lookupTerms β γ i p (K.opened m (K.ω ^ r)), t = 0) ↔
      (if r = 0 then (1 : F) else 0) * (1 - (m.zLookup i).eval (K.ω ^ r)) = 0 ∧
      (if r = K.usable then (1 : F) else 0) * ((m.zLookup i).eval (K.ω ^ r) ^ 2 - (m.zLookup i).eval (K.ω ^ r)) = 0 ∧
      (rotEval K.ω (m.zLookup i) 1 (K.ω ^ r) * ((m.permuted i).1.eval (K.ω ^ r) + β) * ((m.permuted i).2.eval (K.ω ^ r) + γ) -
        (m.zLookup i).eval (K.ω ^ r) * (p.1.eval (K.grid m.advice) r + β) * (p.2.eval (K.grid m.advice) r + γ)) *
          (if r < K.usable then (1 : F) else 0) = 0 ∧
      (if r = 0 then (1 : F) else 0) * ((m.permuted i).1.eval (K.ω ^ r) - (m.permuted i).2.eval (K.ω ^ r)) = 0 ∧
      ((m.permuted i).1.eval (K.ω ^ r) - (m.permuted i).2.eval (K.ω ^ r)) *
        ((m.permuted i).1.eval (K.ω ^ r) - rotEval K.ω (m.permuted i).1 (-1) (K.ω ^ r)) *
          (if r < K.usable then (1 : F) else 0) = 0 := by
    intro r hr
    simp only [lookupTerms, List.forall_mem_cons, List.not_mem_nil, false_imp_iff, implies_true, and_true, l0_row h hr,
      lLast_row h hr, active_row h hr, expr_row h hr]
    rfl
  constructor
  · intro H
    refine ⟨?_, ?_, ?_, ?_, ?_⟩
    · have := ((hmem 0 hn).mp (H 0 hn)).1
      rw [if_pos rfl, one_mul] at this
      exact (sub_eq_zero.mp this).symm
    · have := ((hmem _ hlt).mp (H _ hlt)).2.1
      rw [if_pos rfl, one_mul] at this
      exact sub_eq_zero.mp this
    · intro r hr
      have := ((hmem r (by omega)).mp (H r (by omega))).2.2.1
      rw [if_pos hr, mul_one, rotEval_row h, rot_one h (by omega)] at this
      exact sub_eq_zero.mp this
    · have := ((hmem 0 hn).mp (H 0 hn)).2.2.2.1
      rw [if_pos rfl, one_mul] at this
      exact sub_eq_zero.mp this
    · intro r hr
      have := ((hmem (r + 1) (by omega)).mp (H (r + 1) (by omega))).2.2.2.2
      rw [if_pos hr, mul_one, rotEval_row h, rot_pred h (by omega)] at this
      rcases mul_eq_zero.mp this with this | this
      · exact Or.inl (sub_eq_zero.mp this)
      · exact Or.inr (sub_eq_zero.mp this)
  · rintro ⟨h1, h2, h3, h4, h5⟩ r hr
    rw [hmem r hr]
    refine ⟨?_, ?_, ?_, ?_, ?_⟩
    · split_ifs with h0
      · rw [h0, h1]; ring
      · ring
    · split_ifs with h0
      · rw [h0, h2]; ring
      · ring
    · split_ifs with h0
      · rw [rotEval_row h, rot_one h (by omega), h3 r h0]; ring
      · ring
    · split_ifs with h0
      · rw [h0, h4]; ring
      · ring
    · split_ifs with h0
      · rcases r with _ | r
        · rw [h4]; ring
        · rw [rotEval_row h, rot_pred h (by omega)]
          rcases h5 r h0 with h5 | h5
          · rw [h5]; ring
          · rw [h5]; ring
      · ring

/-- If a lookup holds on all rows, the products of all factors agree, or vanish, and every permuted input is a permuted
table entry. -/
theorem lookup_product (h : K.Wf) {β γ : F} {i : ℕ} {p : Expr F × Expr F}
    (H : ∀ r < K.n, ∀ t ∈ lookupTerms β γ i p (K.opened m (K.ω ^ r)), t = 0) :
    ((∏ r ∈ Finset.range K.usable, (p.1.eval (K.grid m.advice) r + β)) *
        ∏ r ∈ Finset.range K.usable, (p.2.eval (K.grid m.advice) r + γ) = 0 ∨
      (∏ r ∈ Finset.range K.usable, (p.1.eval (K.grid m.advice) r + β)) *
        ∏ r ∈ Finset.range K.usable, (p.2.eval (K.grid m.advice) r + γ) =
      (∏ r ∈ Finset.range K.usable, ((m.permuted i).1.eval (K.ω ^ r) + β)) *
        ∏ r ∈ Finset.range K.usable, ((m.permuted i).2.eval (K.ω ^ r) + γ)) ∧
    ∀ r < K.usable, ∃ r' < K.usable, (m.permuted i).1.eval (K.ω ^ r) = (m.permuted i).2.eval (K.ω ^ r') := by
  obtain ⟨h1, h2, h3, h4, h5⟩ := (lookupTerms_iff h β γ i p).mp H
  constructor
  · have all : ∀ u ≤ K.usable, (m.zLookup i).eval (K.ω ^ u) *
        ((∏ r ∈ Finset.range u, ((m.permuted i).1.eval (K.ω ^ r) + β)) *
          ∏ r ∈ Finset.range u, ((m.permuted i).2.eval (K.ω ^ r) + γ)) =
        (∏ r ∈ Finset.range u, (p.1.eval (K.grid m.advice) r + β)) *
          ∏ r ∈ Finset.range u, (p.2.eval (K.grid m.advice) r + γ) := by
      intro u
      induction u with
      | zero => intro _; rw [h1]; simp
      | succ u ih =>
        intro hu
        have ih := ih (by omega)
        have hs := h3 u (by omega)
        simp only [Finset.prod_range_succ]
        linear_combination (∏ r ∈ Finset.range u, ((m.permuted i).1.eval (K.ω ^ r) + β)) *
          (∏ r ∈ Finset.range u, ((m.permuted i).2.eval (K.ω ^ r) + γ)) * hs +
          (p.1.eval (K.grid m.advice) u + β) * (p.2.eval (K.grid m.advice) u + γ) * ih
    have hlast := all K.usable le_rfl
    have hz : (m.zLookup i).eval (K.ω ^ K.usable) = 0 ∨ (m.zLookup i).eval (K.ω ^ K.usable) = 1 := by
      rw [sq] at h2
      rcases eq_or_ne ((m.zLookup i).eval (K.ω ^ K.usable)) 0 with h | h
      · exact Or.inl h
      · exact Or.inr (mul_left_cancel₀ h (by rw [h2, mul_one]))
    rcases hz with hz | hz
    · left; rw [← hlast, hz, zero_mul]
    · right; rw [← hlast, hz, one_mul]
  · intro r
    induction r with
    | zero => intro hr; exact ⟨0, hr, h4⟩
    | succ r ih =>
      intro hr
      rcases h5 r hr with h | h
      · exact ⟨r + 1, hr, h⟩
      · obtain ⟨r', hr', e⟩ := ih (by omega)
        exact ⟨r', hr', h.trans e⟩

end Key
end Halo2
