import Verif.Circuit.TableLoad
import Mathlib.Tactic.LinearCombination

/-!
# The gates of the hash table, row by row
-/

set_option linter.unusedVariables false
set_option linter.unusedSectionVars false
set_option linter.unusedSimpArgs false

open Halo2

namespace Circuit.Table

variable {F : Type} [Field F] [DecidableEq F]

/-- The advice columns of the table, as sequences indexed by the row. -/
structure View (F : Type) where
  idx : ℕ → F
  w0 : ℕ → F
  w1 : ℕ → F
  ctrl : ℕ → F
  dom : ℕ → F
  head : ℕ → F
  cont : ℕ → F
  caux : ℕ → F
  inp : ℕ → Fin 3 → F
  out : ℕ → Fin 3 → F

def view (a : ℕ) (ht : Fin 6 → ℕ) (g : Grid F) : View F where
  idx r := g.advice (ht 0) r
  w0 r := g.advice (ht 1) r
  w1 r := g.advice (ht 2) r
  ctrl r := g.advice (ht 3) r
  dom r := g.advice (ht 4) r
  head r := g.advice (ht 5) r
  cont r := g.advice (a + 6) r
  caux r := g.advice (a + 7) r
  inp r := ![g.advice a r, g.advice (a + 1) r, g.advice (a + 2) r]
  out r := ![g.advice (a + 5) r, g.advice (a + 3) r, g.advice (a + 4) r]

/-- The equations of the enabled gates between row `p` and the next row `r`. `K` is the step. -/
structure RowEqs (v : View F) (K : F) (p r : ℕ) : Prop where
  bool : v.cont r * (1 - v.cont r) = 0
  caux : v.ctrl r * (1 - v.ctrl r * v.caux r) = 0
  contCtrl : v.cont r * (1 - v.ctrl r * v.caux r) = 0
  head : 1 - v.cont r - v.head r = 0
  step : v.cont r * (v.ctrl r + K - v.ctrl p) = 0
  same : v.cont r * (v.idx r - v.idx p) = 0
  digest : (1 - v.cont r) * (v.out p 0 - v.idx p) = 0
  in1 : v.out p 1 * v.cont r + v.w0 r - v.inp r 1 = 0
  in2 : v.out p 2 * v.cont r + v.w1 r - v.inp r 2 = 0
  in0 : (1 - v.cont r) * (v.inp r 0 - (v.ctrl r + v.dom r)) = 0
  in0c : v.cont r * (v.inp r 0 - v.out p 0 - v.dom r) = 0

/-- The equations of the custom gate. -/
structure ZeroRow (v : View F) (r : ℕ) : Prop where
  w0 : v.w0 r = 0
  w1 : v.w1 r = 0
  ctrl : v.ctrl r = 0

variable (legacy : Bool) (a f σ q : ℕ) (ht : Fin 6 → ℕ) (step : ℕ) (g : Grid F)

def tablePolys : List (Expr F) :=
  controlConstrainGate (tcols a f σ q ht) ++ (controlStepGate (tcols a f σ q ht) legacy step ++
    (hashIndexGate (tcols a f σ q ht) ++ inputConstrainGate (tcols a f σ q ht)))

theorem gates_iff : (∀ p ∈ tableGates legacy a f σ q ht step, p.Holds g) ↔
    ∀ r < g.n, (∀ e ∈ customRowGate (tcols a f σ q ht), e.eval g r = 0) ∧
      ∀ e ∈ tablePolys (F := F) legacy a f σ q ht step, e.eval g r = 0 := by
  simp only [tableGates, List.forall_mem_cons, List.not_mem_nil, false_imp_iff, implies_true, and_true,
    Gate.Holds, tablePolys, List.forall_mem_append]
  constructor
  · rintro ⟨h1, h2, h3, h4, h5⟩ r hr
    exact ⟨fun e he => h1 e he r hr, fun e he => h2 e he r hr, fun e he => h3 e he r hr,
      fun e he => h4 e he r hr, fun e he => h5 e he r hr⟩
  · intro h
    exact ⟨fun e he r hr => (h r hr).1 e he, fun e he r hr => (h r hr).2.1 e he,
      fun e he r hr => (h r hr).2.2.1 e he, fun e he r hr => (h r hr).2.2.2.1 e he,
      fun e he r hr => (h r hr).2.2.2.2 e he⟩

theorem custom_iff (r : ℕ) (hr : r < g.n) :
    (∀ e ∈ customRowGate (tcols a f σ q ht), e.eval g r = 0) ↔
      (g.selector σ r = true → ZeroRow (view a ht g) r) := by
  simp only [customRowGate, tcols, List.forall_mem_cons, List.not_mem_nil, false_imp_iff, implies_true,
    and_true, Expr.eval_mul, Expr.eval_selector, Expr.eval_advice, g.rot_zero hr]
  cases h : g.selector σ r with
  | false => simp
  | true =>
    simp only [if_true, one_mul, forall_const]
    exact ⟨fun ⟨h1, h2, h3⟩ => ⟨h1, h2, h3⟩, fun ⟨h1, h2, h3⟩ => ⟨h1, h2, h3⟩⟩

theorem polys_off (r : ℕ) (hr : r < g.n) (h : g.fixed q r = 0) :
    ∀ e ∈ tablePolys (F := F) legacy a f σ q ht step, e.eval g r = 0 := by
  simp only [tablePolys, controlConstrainGate, controlStepGate, hashIndexGate, inputConstrainGate,
    tcols, List.forall_mem_append, List.forall_mem_cons, List.not_mem_nil, false_imp_iff,
    implies_true, and_true, Expr.eval_mul, Expr.eval_fixed, Expr.eval_sub, Expr.eval_add,
    g.rot_zero hr, h, zero_mul, and_self]

theorem polys_on (r p : ℕ) (hr : r < g.n) (hp : g.rot r (-1) = p) (h : g.fixed q r = 1) :
    (∀ e ∈ tablePolys (F := F) legacy a f σ q ht step, e.eval g r = 0) ↔
      RowEqs (view a ht g) (specFlag legacy step) p r := by
  simp only [tablePolys, controlConstrainGate, controlStepGate, hashIndexGate, inputConstrainGate,
    tcols, List.forall_mem_append, List.forall_mem_cons, List.not_mem_nil, false_imp_iff,
    implies_true, and_true, Expr.eval_mul, Expr.eval_fixed, Expr.eval_sub, Expr.eval_add,
    Expr.eval_advice, Expr.eval_const,
    g.rot_zero hr, hp, h, one_mul]
  constructor
  · rintro ⟨⟨h1, h2, h3, h4⟩, ⟨h5, h6⟩, ⟨h7, h8⟩, h9, h10, h11, h12⟩
    exact ⟨h1, h2, h3, h4, h5, h7, h8, h9, h10, h11, h12⟩
  · rintro ⟨h1, h2, h3, h4, h5, h7, h8, h9, h10, h11, h12⟩
    exact ⟨⟨h1, h2, h3, h4⟩, ⟨h5, h3⟩, ⟨h7, h8⟩, h9, h10, h11, h12⟩

/-- With the fixed columns and selectors laid down by `load`, the gates say exactly this. -/
theorem tableGates_iff (s N : ℕ) (hN : s + N < g.n)
    (hq : ∀ r < g.n, g.fixed q r = if s < r ∧ r ≤ s + N then 1 else 0)
    (hσ : ∀ r < g.n, g.selector σ r = true ↔ r = s ∨ r = s + N) :
    (∀ p ∈ tableGates legacy a f σ q ht step, p.Holds g) ↔
      ZeroRow (view a ht g) s ∧ ZeroRow (view a ht g) (s + N) ∧
      ∀ j < N, RowEqs (view a ht g) (specFlag legacy step) (s + j) (s + j + 1) := by
  rw [gates_iff]
  constructor
  · intro h
    refine ⟨?_, ?_, fun j hj => ?_⟩
    · exact (custom_iff a f σ q ht g s (by omega)).mp (h s (by omega)).1 ((hσ s (by omega)).mpr (Or.inl rfl))
    · exact (custom_iff a f σ q ht g (s + N) hN).mp (h _ hN).1 ((hσ _ hN).mpr (Or.inr rfl))
    · refine (polys_on legacy a f σ q ht step g (s + j + 1) (s + j) (by omega) ?_ ?_).mp
        (h _ (by omega)).2
      · exact g.rot_of_lt _ (by push_cast; ring) (by omega)
      · rw [hq _ (by omega), if_pos (by omega)]
  · rintro ⟨h1, h2, h3⟩ r hr
    refine ⟨(custom_iff a f σ q ht g r hr).mpr fun hs => ?_, ?_⟩
    · rcases (hσ r hr).mp hs with rfl | rfl
      · exact h1
      · exact h2
    · by_cases hen : s < r ∧ r ≤ s + N
      · obtain ⟨j, rfl⟩ : ∃ j, r = s + j + 1 := ⟨r - s - 1, by omega⟩
        refine (polys_on legacy a f σ q ht step g (s + j + 1) (s + j) hr ?_ ?_).mpr (h3 j (by omega))
        · exact g.rot_of_lt _ (by push_cast; ring) (by omega)
        · rw [hq _ hr, if_pos hen]
      · exact polys_off legacy a f σ q ht step g r hr (by rw [hq r hr, if_neg hen])

end Circuit.Table
