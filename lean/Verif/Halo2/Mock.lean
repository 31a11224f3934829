import Verif.Halo2.Core

/-!
# What halo2's `MockProver` checks

The tests of the crate accept a circuit when `MockProver::run(..).verify()` returns `Ok(())`
(`/repo/poseidon-circuit/src/hash.rs`, lines 1100-1101 and 1128-1129; `poseidon/septidon/tests.rs`, lines 16-17;
`poseidon/pow5.rs`, lines 834-835, 955-956 and 973-974). No halo2 source lives in
`/repo`; this file is a trusted model of `dev::MockProver::verify`, as is `Halo2.Core` of the rest of
halo2. The mock prover differs from the gates and lookups of the real proof system in two ways:

* advice cells on rows that the circuit cannot assign (the blinding rows) are *poisoned*: a polynomial that
  depends on one fails. A poisoned value times zero is zero, all other results of poisoned values are poisoned.
* a cell that is queried by a gate must have been assigned in the region in which a selector of the gate
  is enabled.

Simplifications: the values of all cells are known, and the queries of a gate are those occurring in its
polynomials (all queries made by the gates of the crate do).
-/

set_option linter.unusedVariables false
set_option linter.unusedSectionVars false

namespace Halo2
variable {F : Type} [Field F]

open Classical in
/-- Value of an expression at row `r`, `none` if poisoned. -/
noncomputable def Expr.mock (g : Grid F) (r : ℕ) : Expr F → Option F
  | .const c => some c
  | .selector i => some (if g.selector i r then 1 else 0)
  | .fixed i k => some (g.fixed i (g.rot r k))
  | .advice i k => if g.rot r k < g.usable then some (g.advice i (g.rot r k)) else none
  | .neg e => (e.mock g r).map fun v => -v
  | .add a b => match a.mock g r, b.mock g r with
    | some x, some y => some (x + y)
    | _, _ => none
  | .mul a b => match a.mock g r, b.mock g r with
    | some x, some y => some (x * y)
    | some x, none => if x = 0 then some 0 else none
    | none, some y => if y = 0 then some 0 else none
    | none, none => none
  | .scaled a c => match a.mock g r with
    | some x => some (x * c)
    | none => if c = 0 then some 0 else none

/-- Columns and rotations queried by an expression. -/
def Expr.queries : Expr F → List (Col × ℤ)
  | .const _ => []
  | .selector _ => []
  | .fixed i k => [(.fixed i, k)]
  | .advice i k => [(.advice i, k)]
  | .neg e => e.queries
  | .add a b => a.queries ++ b.queries
  | .mul a b => a.queries ++ b.queries
  | .scaled a _ => a.queries

/-- Selectors queried by an expression. -/
def Expr.sels : Expr F → List ℕ
  | .const _ => []
  | .selector i => [i]
  | .fixed _ _ => []
  | .advice _ _ => []
  | .neg e => e.sels
  | .add a b => a.sels ++ b.sels
  | .mul a b => a.sels ++ b.sels
  | .scaled a _ => a.sels

/-- The polynomials of the gate are zero, and not poisoned, on the first `rows` rows. -/
def Gate.Mock (p : Gate F) (g : Grid F) (rows : ℕ) : Prop :=
  ∀ e ∈ p.polys, ∀ r < rows, e.mock g r = some 0

/-- The lookup input is, on every usable row, not poisoned and one of the entries of the table. -/
def Lookup.Mock (l : Lookup F) (g : Grid F) : Prop :=
  ∀ r < g.usable, ∃ r' < g.usable, l.input.mock g r = some (g.fixed l.table r')

/-- The operation assigns a value to the cell. -/
def Op.Assigns (c : Col) (r : ℕ) : Op F → Prop
  | .advice i r' _ => c = .advice i ∧ r = r'
  | .fixed i r' _ => c = .fixed i ∧ r = r'
  | _ => False

/-- The cell check for one region: wherever the region enables a selector of the gate, it assigns every
cell that the gate queries there. -/
def Gate.CellsAssigned (p : Gate F) (region : List (Op F)) : Prop :=
  ∀ s r, Op.selector s r ∈ region → (∃ e ∈ p.polys, s ∈ e.sels) →
    ∀ e ∈ p.polys, ∀ q ∈ e.queries, ∃ r' : ℕ, (r : ℤ) + q.2 = r' ∧ ∃ op ∈ region, op.Assigns q.1 r'

/-! ## Poison -/

namespace Expr
variable (g : Grid F) (r : ℕ)

/-- The mock prover never sees another value than the proof system. -/
theorem eval_of_mock : ∀ (e : Expr F) (v : F), e.mock g r = some v → e.eval g r = v
  | .const c, v, h => by simpa [mock] using h
  | .selector i, v, h => by simpa [mock] using h
  | .fixed i k, v, h => by simpa [mock] using h
  | .advice i k, v, h => by
    simp only [mock] at h
    split_ifs at h
    simpa using h
  | .neg e, v, h => by
    simp only [mock, Option.map_eq_some_iff] at h
    obtain ⟨w, hw, rfl⟩ := h
    rw [eval, eval_of_mock e w hw]
  | .add a b, v, h => by
    simp only [mock] at h
    split at h
    · rename_i x y hx hy
      rw [eval, eval_of_mock a _ hx, eval_of_mock b _ hy]
      simpa using h
    · cases h
  | .mul a b, v, h => by
    simp only [mock] at h
    split at h
    · rename_i x y hx hy
      rw [eval, eval_of_mock a _ hx, eval_of_mock b _ hy]
      simpa using h
    · rename_i x hx hy
      split_ifs at h with h0
      rw [eval, eval_of_mock a _ hx, h0, zero_mul]
      simpa using h
    · rename_i y hx hy
      split_ifs at h with h0
      rw [eval, eval_of_mock b _ hy, h0, mul_zero]
      simpa using h
    · cases h
  | .scaled a c, v, h => by
    simp only [mock] at h
    split at h
    · rename_i x hx
      rw [eval, eval_of_mock a _ hx]
      simpa using h
    · split_ifs at h with h0
      rw [eval, h0, mul_zero]
      simpa using h

/-- The expression is not poisoned. -/
def Clean (e : Expr F) : Prop := e.mock g r = some (e.eval g r)

variable {g r}

theorem clean_of_isSome {e : Expr F} {v : F} (h : e.mock g r = some v) : e.Clean g r := by
  rw [Clean, h, eval_of_mock g r e v h]

variable (g r)
@[simp] theorem clean_const (c : F) : (Expr.const c).Clean g r := rfl
@[simp] theorem clean_selector (i : ℕ) : (Expr.selector i : Expr F).Clean g r := rfl
@[simp] theorem clean_fixed (i : ℕ) (k : ℤ) : (Expr.fixed i k : Expr F).Clean g r := rfl
theorem clean_advice {i : ℕ} {k : ℤ} (h : g.rot r k < g.usable) :
    (Expr.advice i k : Expr F).Clean g r := by
  rw [Clean, mock, if_pos h]; rfl
variable {g r}
theorem Clean.neg {e : Expr F} (h : e.Clean g r) : (-e).Clean g r := by
  change (Expr.neg e).mock g r = _
  rw [mock, h]; rfl
theorem Clean.add {a b : Expr F} (ha : a.Clean g r) (hb : b.Clean g r) : (a + b).Clean g r := by
  change (Expr.add a b).mock g r = _
  simp only [mock, show a.mock g r = _ from ha, show b.mock g r = _ from hb]; rfl
theorem Clean.sub {a b : Expr F} (ha : a.Clean g r) (hb : b.Clean g r) : (a - b).Clean g r :=
  Clean.add ha (Clean.neg hb)
theorem Clean.mul {a b : Expr F} (ha : a.Clean g r) (hb : b.Clean g r) : (a * b).Clean g r := by
  change (Expr.mul a b).mock g r = _
  simp only [mock, show a.mock g r = _ from ha, show b.mock g r = _ from hb]; rfl
/-- Zero absorbs poison. -/
theorem Clean.mul_zero {a : Expr F} (b : Expr F) (ha : a.Clean g r) (h0 : a.eval g r = 0) :
    (a * b).Clean g r := by
  cases hb : b.mock g r with
  | some y => exact ha.mul (clean_of_isSome hb)
  | none =>
    refine clean_of_isSome (v := 0) ?_
    change (Expr.mul a b).mock g r = _
    simp only [mock, show a.mock g r = _ from ha, hb, h0, if_true]
theorem Clean.scaled {a : Expr F} (ha : a.Clean g r) (c : F) : (Expr.scaled a c).Clean g r := by
  rw [Clean, mock, show a.mock g r = _ from ha]; rfl

/-- Nothing is poisoned if all advice queries stay on usable rows. -/
theorem clean_of_queries : ∀ e : Expr F,
    (∀ q ∈ e.queries, ∀ i, q.1 = .advice i → g.rot r q.2 < g.usable) → e.Clean g r
  | .const c, _ => rfl
  | .selector i, _ => rfl
  | .fixed i k, _ => rfl
  | .advice i k, h => clean_advice g r (h _ (List.mem_singleton_self _) i rfl)
  | .neg e, h => (clean_of_queries e h).neg
  | .add a b, h => (clean_of_queries a fun q hq => h q (List.mem_append_left _ hq)).add
      (clean_of_queries b fun q hq => h q (List.mem_append_right _ hq))
  | .mul a b, h => (clean_of_queries a fun q hq => h q (List.mem_append_left _ hq)).mul
      (clean_of_queries b fun q hq => h q (List.mem_append_right _ hq))
  | .scaled a c, h => (clean_of_queries a h).scaled c

section
variable (a b : Expr F) (c : F) (i : ℕ) (k : ℤ)
@[simp] theorem queries_const : (Expr.const c).queries = [] := rfl
@[simp] theorem queries_selector : (Expr.selector i : Expr F).queries = [] := rfl
@[simp] theorem queries_fixed : (Expr.fixed i k : Expr F).queries = [(.fixed i, k)] := rfl
@[simp] theorem queries_advice : (Expr.advice i k : Expr F).queries = [(.advice i, k)] := rfl
@[simp] theorem queries_neg : (-a).queries = a.queries := rfl
@[simp] theorem queries_add : (a + b).queries = a.queries ++ b.queries := rfl
@[simp] theorem queries_mul : (a * b).queries = a.queries ++ b.queries := rfl
@[simp] theorem queries_sub : (a - b).queries = a.queries ++ b.queries := rfl
@[simp] theorem queries_scaled : (Expr.scaled a c).queries = a.queries := rfl
@[simp] theorem sels_const : (Expr.const c).sels = [] := rfl
@[simp] theorem sels_selector : (Expr.selector i : Expr F).sels = [i] := rfl
@[simp] theorem sels_fixed : (Expr.fixed i k : Expr F).sels = [] := rfl
@[simp] theorem sels_advice : (Expr.advice i k : Expr F).sels = [] := rfl
@[simp] theorem sels_neg : (-a).sels = a.sels := rfl
@[simp] theorem sels_add : (a + b).sels = a.sels ++ b.sels := rfl
@[simp] theorem sels_mul : (a * b).sels = a.sels ++ b.sels := rfl
@[simp] theorem sels_sub : (a - b).sels = a.sels ++ b.sels := rfl
@[simp] theorem sels_scaled : (Expr.scaled a c).sels = a.sels := rfl
end

end Expr

/-- No polynomial of the gate is poisoned on any row, and all vanish on the rows that the circuit cannot
assign, whatever the advice cells hold there. -/
def Gate.Unpoisoned (p : Gate F) (g : Grid F) : Prop :=
  ∀ e ∈ p.polys, ∀ r < g.n, e.Clean g r ∧ (g.usable ≤ r → e.eval g r = 0)

/-- For gates without poison, the mock prover and the proof system agree, whether or not the mock
prover looks at the rows that the circuit cannot assign. -/
theorem Gate.Unpoisoned.mock_iff {p : Gate F} {g : Grid F} (h : p.Unpoisoned g) {rows : ℕ}
    (h1 : g.usable ≤ rows) (h2 : rows ≤ g.n) : p.Mock g rows ↔ p.Holds g := by
  constructor
  · intro hm e he r hr
    by_cases hu : g.usable ≤ r
    · exact (h e he r hr).2 hu
    · exact Expr.eval_of_mock g r e 0 (hm e he r (by omega))
  · intro hh e he r hr
    have := (h e he r (by omega)).1
    rw [Expr.Clean, hh e he r (by omega)] at this
    exact this

/-- A gate whose polynomials are all multiplied by one selector is not poisoned if the cell check
passes for every region, and all regions lie on usable rows. -/
theorem Gate.unpoisoned_of_assigned {p : Gate F} {g : Grid F} {s : ℕ} (hu : g.usable ≤ g.n)
    (hp : ∀ e ∈ p.polys, ∃ e', e = .selector s * e')
    (hs : ∀ r < g.n, g.selector s r = true → r < g.usable ∧
      ∀ e ∈ p.polys, ∀ q ∈ e.queries, ∃ r' : ℕ, (r : ℤ) + q.2 = r' ∧ r' < g.usable) :
    p.Unpoisoned g := by
  intro e he r hr
  obtain ⟨e', h⟩ := hp e he
  by_cases hsel : g.selector s r = true
  · obtain ⟨h1, h2⟩ := hs r hr hsel
    refine ⟨Expr.clean_of_queries e fun q hq i _ => ?_, fun h => by omega⟩
    obtain ⟨r', h3, h4⟩ := h2 e he q hq
    rw [g.rot_of_lt r' h3 (by omega)]
    exact h4
  · have h0 : (Expr.selector s : Expr F).eval g r = 0 := by simp [hsel]
    subst h
    exact ⟨Expr.Clean.mul_zero e' (Expr.clean_selector g r s) h0, fun _ => by rw [Expr.eval_mul, h0, zero_mul]⟩

end Halo2
