import Verif.Base.Permute
import Mathlib.Algebra.Field.Basic
import Mathlib.Data.Int.ModEq

/-!
# The part of the halo2 API used by `poseidon-circuit`

No halo2 source lives in `/repo`; this file is a trusted model of the semantics of the calls made by
`/repo/poseidon-circuit/src` (`halo2_proofs` of the scroll fork, as pinned in
`/repo/poseidon-circuit/Cargo.toml`, lines 12-18, with the simple floor planner):
expressions, gates on all `n` rows with wrap-around rotations, lookups into a fixed table on the
usable rows, equality constraints, regions placed by the simple floor planner.

Simplifications: selectors stay selectors (halo2 later compresses them into fixed columns without
changing their value); `Value<F>` is always known; annotations and names of regions are dropped.
-/

set_option linter.unusedVariables false
set_option linter.unusedSectionVars false


namespace Halo2

/-- A column that can hold field values and take part in copy constraints. -/
inductive Col where
  | advice (i : ℕ)
  | fixed (i : ℕ)
  deriving DecidableEq

/-- A cell at an absolute row. -/
structure Cell where
  col : Col
  row : ℕ
  deriving DecidableEq

/-- `plonk::Expression<F>`. -/
inductive Expr (F : Type) where
  | const (c : F)
  | selector (i : ℕ)
  | fixed (i : ℕ) (rot : ℤ)
  | advice (i : ℕ) (rot : ℤ)
  | neg (e : Expr F)
  | add (a b : Expr F)
  | mul (a b : Expr F)
  | scaled (a : Expr F) (c : F)

namespace Expr
variable {F : Type}
instance : Add (Expr F) := ⟨Expr.add⟩
instance : Mul (Expr F) := ⟨Expr.mul⟩
instance : Neg (Expr F) := ⟨Expr.neg⟩
/-- halo2: `self - rhs` is `self + (-rhs)`. -/
instance : Sub (Expr F) := ⟨fun a b => Expr.add a (Expr.neg b)⟩
end Expr

/-- A fully assigned circuit: `n` rows, of which the first `usable` can be assigned by the circuit
(the last ones hold blinding factors in advice columns). -/
structure Grid (F : Type) where
  n : ℕ
  usable : ℕ
  advice : ℕ → ℕ → F
  fixed : ℕ → ℕ → F
  selector : ℕ → ℕ → Bool

namespace Grid
variable {F : Type}

/-- The row a rotation by `k` reaches from row `r`: queries wrap around modulo `n`. -/
def rot (g : Grid F) (r : ℕ) (k : ℤ) : ℕ := (((r : ℤ) + k) % (g.n : ℤ)).toNat

def cell (g : Grid F) (c : Cell) : F :=
  match c.col with
  | .advice i => g.advice i c.row
  | .fixed i => g.fixed i c.row

theorem rot_of_lt (g : Grid F) {r : ℕ} {k : ℤ} (r' : ℕ) (h : (r : ℤ) + k = r') (hr : r' < g.n) :
    g.rot r k = r' := by
  unfold rot
  rw [h, Int.emod_eq_of_lt (by omega) (by omega)]
  simp

theorem rot_zero (g : Grid F) {r : ℕ} (hr : r < g.n) : g.rot r 0 = r :=
  g.rot_of_lt r (by simp) hr

theorem rot_wrap (g : Grid F) {r : ℕ} {k : ℤ} (r' : ℕ) (h : (r : ℤ) + k = r' + g.n)
    (hr : r' < g.n) : g.rot r k = r' := by
  unfold rot
  rw [h, Int.add_emod_right, Int.emod_eq_of_lt (by omega) (by omega)]
  simp

theorem rot_lt (g : Grid F) (r : ℕ) (k : ℤ) (hn : 0 < g.n) : g.rot r k < g.n := by
  unfold rot
  have h1 := Int.emod_lt_of_pos ((r : ℤ) + k) (by omega : (0 : ℤ) < g.n)
  have h2 := Int.emod_nonneg ((r : ℤ) + k) (by omega : (g.n : ℤ) ≠ 0)
  omega

end Grid

variable {F : Type} [Field F]

/-- Value of an expression at row `r`. -/
def Expr.eval (g : Grid F) (r : ℕ) : Expr F → F
  | .const c => c
  | .selector i => if g.selector i r then 1 else 0
  | .fixed i k => g.fixed i (g.rot r k)
  | .advice i k => g.advice i (g.rot r k)
  | .neg e => - e.eval g r
  | .add a b => a.eval g r + b.eval g r
  | .mul a b => a.eval g r * b.eval g r
  | .scaled a c => a.eval g r * c

namespace Expr
variable (g : Grid F) (r : ℕ) (a b : Expr F) (c : F) (i : ℕ) (k : ℤ)
@[simp] theorem eval_const : (Expr.const c).eval g r = c := rfl
@[simp] theorem eval_selector :
    (Expr.selector i : Expr F).eval g r = if g.selector i r then 1 else 0 := rfl
@[simp] theorem eval_fixed : (Expr.fixed i k : Expr F).eval g r = g.fixed i (g.rot r k) := rfl
@[simp] theorem eval_advice : (Expr.advice i k : Expr F).eval g r = g.advice i (g.rot r k) := rfl
@[simp] theorem eval_neg : (-a).eval g r = - a.eval g r := rfl
@[simp] theorem eval_add : (a + b).eval g r = a.eval g r + b.eval g r := rfl
@[simp] theorem eval_mul : (a * b).eval g r = a.eval g r * b.eval g r := rfl
@[simp] theorem eval_sub : (a - b).eval g r = a.eval g r - b.eval g r := (sub_eq_add_neg _ _).symm
@[simp] theorem eval_scaled : (Expr.scaled a c).eval g r = a.eval g r * c := rfl

/-- `Expression::degree`. -/
def degree : Expr F → ℕ
  | .const _ => 0
  | .selector _ => 1
  | .fixed _ _ => 1
  | .advice _ _ => 1
  | .neg e => e.degree
  | .add a b => max a.degree b.degree
  | .mul a b => a.degree + b.degree
  | .scaled a _ => a.degree
end Expr

/-- The expression queries only advice columns in `A`, fixed columns in `B` and selectors in `S`. -/
def Expr.Within (A B S : ℕ → Prop) : Expr F → Prop
  | .const _ => True
  | .selector i => S i
  | .fixed i _ => B i
  | .advice i _ => A i
  | .neg e => e.Within A B S
  | .add a b => a.Within A B S ∧ b.Within A B S
  | .mul a b => a.Within A B S ∧ b.Within A B S
  | .scaled a _ => a.Within A B S

namespace Expr
variable (A B S : ℕ → Prop) (a b : Expr F) (c : F) (i : ℕ) (k : ℤ)
@[simp] theorem within_const : (Expr.const c).Within A B S := trivial
@[simp] theorem within_selector : (Expr.selector i : Expr F).Within A B S ↔ S i := Iff.rfl
@[simp] theorem within_fixed : (Expr.fixed i k : Expr F).Within A B S ↔ B i := Iff.rfl
@[simp] theorem within_advice : (Expr.advice i k : Expr F).Within A B S ↔ A i := Iff.rfl
@[simp] theorem within_add : (a + b).Within A B S ↔ a.Within A B S ∧ b.Within A B S := Iff.rfl
@[simp] theorem within_mul : (a * b).Within A B S ↔ a.Within A B S ∧ b.Within A B S := Iff.rfl
@[simp] theorem within_sub : (a - b).Within A B S ↔ a.Within A B S ∧ b.Within A B S := Iff.rfl
@[simp] theorem within_scaled : (Expr.scaled a c).Within A B S ↔ a.Within A B S := Iff.rfl
end Expr

theorem Expr.Within.eval_congr {A B S : ℕ → Prop} {g g' : Grid F} (hn : g.n = g'.n)
    (hA : ∀ c, A c → g.advice c = g'.advice c) (hB : ∀ c, B c → g.fixed c = g'.fixed c)
    (hS : ∀ c, S c → g.selector c = g'.selector c) (r : ℕ) :
    ∀ {e : Expr F}, e.Within A B S → e.eval g r = e.eval g' r
  | .const _, _ => rfl
  | .selector i, h => by simp only [Expr.eval, hS i h]
  | .fixed i k, h => by simp only [Expr.eval, hB i h, Grid.rot, hn]
  | .advice i k, h => by simp only [Expr.eval, hA i h, Grid.rot, hn]
  | .neg e, h => by simp only [Expr.eval, eval_congr hn hA hB hS r (e := e) h]
  | .add a b, h => by
    simp only [Expr.eval, eval_congr hn hA hB hS r (e := a) h.1, eval_congr hn hA hB hS r (e := b) h.2]
  | .mul a b, h => by
    simp only [Expr.eval, eval_congr hn hA hB hS r (e := a) h.1, eval_congr hn hA hB hS r (e := b) h.2]
  | .scaled a c, h => by simp only [Expr.eval, eval_congr hn hA hB hS r (e := a) h]

/-- A gate: a name and polynomials that must vanish on every row. -/
structure Gate (F : Type) where
  name : String
  polys : List (Expr F)

/-- A lookup argument into a one-column fixed table (`meta.lookup` with one pair). -/
structure Lookup (F : Type) where
  name : String
  input : Expr F
  table : ℕ

/-- `plonk::ConstraintSystem<F>`. -/
structure CS (F : Type) where
  numAdvice : ℕ
  numFixed : ℕ
  numSelectors : ℕ
  gates : List (Gate F)
  lookups : List (Lookup F)
  equality : List Col

namespace CS

/-- `meta.advice_column()` -/
def adviceColumn : StateM (CS F) ℕ := fun cs => (cs.numAdvice, {cs with numAdvice := cs.numAdvice + 1})
/-- `meta.fixed_column()` and `meta.lookup_table_column()` (which allocates a fixed column). -/
def fixedColumn : StateM (CS F) ℕ := fun cs => (cs.numFixed, {cs with numFixed := cs.numFixed + 1})
/-- `meta.selector()` and `meta.complex_selector()`. -/
def newSelector : StateM (CS F) ℕ :=
  fun cs => (cs.numSelectors, {cs with numSelectors := cs.numSelectors + 1})
/-- `meta.create_gate(name, ...)`. -/
def createGate (name : String) (polys : List (Expr F)) : StateM (CS F) Unit :=
  fun cs => ((), {cs with gates := cs.gates ++ [⟨name, polys⟩]})
/-- `meta.lookup(name, ...)` with one `(input, table column)` pair. -/
def lookup (name : String) (input : Expr F) (table : ℕ) : StateM (CS F) Unit :=
  fun cs => ((), {cs with lookups := cs.lookups ++ [⟨name, input, table⟩]})
/-- `meta.enable_equality(column)`. -/
def enableEquality (c : Col) : StateM (CS F) Unit :=
  fun cs => ((), {cs with equality := cs.equality ++ [c]})

end CS

/-- `Constraints::with_selector(q, cs)`: every constraint is multiplied by `q`. -/
def withSelector (q : Expr F) (cs : List (Expr F)) : List (Expr F) := cs.map fun c => q * c

/-- Gate `p` vanishes on all rows. -/
def Gate.Holds (p : Gate F) (g : Grid F) : Prop :=
  ∀ e ∈ p.polys, ∀ r < g.n, e.eval g r = 0

/-- The lookup input is, on every usable row, one of the entries of the table column. -/
def Lookup.Holds (l : Lookup F) (g : Grid F) : Prop :=
  ∀ r < g.usable, ∃ r' < g.usable, l.input.eval g r = g.fixed l.table r'

/-- The grid meets all gates and lookups. -/
def CS.Holds (cs : CS F) (g : Grid F) : Prop :=
  (∀ p ∈ cs.gates, p.Holds g) ∧ ∀ l ∈ cs.lookups, l.Holds g

/-! ## Synthesis -/

/-- What a circuit does during synthesis, with absolute rows. `constant` is the request of
`constrain_constant`; `fill` is the default fill of an assigned table column. -/
inductive Op (F : Type) where
  | advice (col row : ℕ) (v : F)
  | fixed (col row : ℕ) (v : F)
  | selector (sel row : ℕ)
  | copy (a b : Cell)
  | constant (c : Cell) (v : F)
  | fill (col row : ℕ) (v : F)

/-- An assigned cell together with its (known) value. -/
structure ACell (F : Type) where
  cell : Cell
  value : F

/-- Results with a log of operations: the body of a region. -/
structure W (F α : Type) where
  val : α
  ops : List (Op F)

namespace W
variable {α β : Type}
instance : Monad (W F) where
  pure a := ⟨a, []⟩
  bind x f := ⟨(f x.val).val, x.ops ++ (f x.val).ops⟩

@[simp] theorem pure_val (a : α) : (pure a : W F α).val = a := rfl
@[simp] theorem pure_ops (a : α) : (pure a : W F α).ops = [] := rfl
@[simp] theorem bind_val (x : W F α) (f : α → W F β) : (x >>= f).val = (f x.val).val := rfl
@[simp] theorem bind_ops (x : W F α) (f : α → W F β) :
    (x >>= f).ops = x.ops ++ (f x.val).ops := rfl

/-- `for i in 0..n { s = f(i, s) }`. -/
def loop (f : ℕ → α → W F α) : ℕ → α → W F α
  | 0, s => pure s
  | n + 1, s => loop f n s >>= f n

theorem mem_loop (f : ℕ → α → W F α) (n : ℕ) (s : α) (o : Op F) :
    o ∈ (loop f n s).ops ↔ ∃ i < n, o ∈ (f i (loop f i s).val).ops := by
  induction n with
  | zero => simp [loop]
  | succ n ih =>
    simp only [loop, bind_ops, List.mem_append, ih]
    constructor
    · rintro (⟨i, hi, h⟩ | h)
      · exact ⟨i, by omega, h⟩
      · exact ⟨n, by omega, h⟩
    · rintro ⟨i, hi, h⟩
      rcases Nat.lt_succ_iff_lt_or_eq.mp hi with h' | rfl
      · exact Or.inl ⟨i, h', h⟩
      · exact Or.inr h

@[simp] theorem loop_zero (f : ℕ → α → W F α) (s : α) : loop f 0 s = pure s := rfl
theorem loop_succ_val (f : ℕ → α → W F α) (n : ℕ) (s : α) :
    (loop f (n + 1) s).val = (f n (loop f n s).val).val := rfl
end W

/-- `region.assign_advice(column, offset, value)` in a region starting at `start`. -/
def assignAdvice (start col offset : ℕ) (v : F) : W F (ACell F) :=
  ⟨⟨⟨.advice col, start + offset⟩, v⟩, [.advice col (start + offset) v]⟩

/-- `region.assign_fixed(column, offset, value)`. -/
def assignFixed (start col offset : ℕ) (v : F) : W F (ACell F) :=
  ⟨⟨⟨.fixed col, start + offset⟩, v⟩, [.fixed col (start + offset) v]⟩

/-- `selector.enable(region, offset)`. -/
def enableSelector (start sel offset : ℕ) : W F Unit := ⟨(), [.selector sel (start + offset)]⟩

/-- `region.constrain_equal(left, right)`. -/
def constrainEqual (a b : Cell) : W F Unit := ⟨(), [.copy a b]⟩

/-- `cell.copy_advice(region, column, offset)`: assign the same value and constrain the two cells to
be equal. -/
def copyAdvice (src : ACell F) (start col offset : ℕ) : W F (ACell F) :=
  ⟨⟨⟨.advice col, start + offset⟩, src.value⟩,
    [.advice col (start + offset) src.value, .copy ⟨.advice col, start + offset⟩ src.cell]⟩

/-- `region.assign_advice_from_constant(column, offset, constant)`. -/
def assignAdviceFromConstant (start col offset : ℕ) (v : F) : W F (ACell F) :=
  ⟨⟨⟨.advice col, start + offset⟩, v⟩,
    [.advice col (start + offset) v, .constant ⟨.advice col, start + offset⟩ v]⟩

/-- Columns tracked by the floor planner (selectors count as columns). -/
inductive RCol where
  | advice (i : ℕ)
  | fixed (i : ℕ)
  | selector (i : ℕ)
  deriving DecidableEq

/-- The column a region-shape pass records for an operation. -/
def Op.rcol : Op F → Option RCol
  | .advice c _ _ => some (.advice c)
  | .fixed c _ _ => some (.fixed c)
  | .selector s _ => some (.selector s)
  | _ => none

/-- Forget the witness: what the operation contributes to the circuit shape. -/
def Op.erase : Op F → Op F
  | .advice c r _ => .advice c r 0
  | o => o

/-- The first row below the operation (`fill_from_row` needs its first row to be usable). -/
def Op.bottom : Op F → ℕ
  | .advice _ r _ => r + 1
  | .fixed _ r _ => r + 1
  | .selector _ r => r + 1
  | .fill _ r _ => r + 1
  | _ => 0

/-- Simple floor planner: first free row of every column, the first column registered with
`enable_constant` (if any), and the operations performed so far. -/
structure Layouter (F : Type) where
  colEnd : RCol → ℕ
  constCol : Option ℕ
  ops : List (Op F)

/-- `s` is the largest value of `e` on `K`. -/
def Top {α : Type} (e : α → ℕ) (K : α → Prop) (s : ℕ) : Prop := (∀ c, K c → e c ≤ s) ∧ ∃ c, K c ∧ e c = s

theorem Top.unique {α : Type} {e : α → ℕ} {K : α → Prop} {s s' : ℕ} (h : Top e K s) (h' : Top e K s') :
    s = s' := by
  obtain ⟨c, hc, rfl⟩ := h.2
  obtain ⟨c', hc', rfl⟩ := h'.2
  exact le_antisymm (h'.1 c hc) (h.1 c' hc')

theorem Top.congr {α : Type} {e e' : α → ℕ} {K : α → Prop} {s : ℕ} (h : Top e K s)
    (he : ∀ c, K c → e' c = e c) : Top e' K s := by
  obtain ⟨c, hc, rfl⟩ := h.2
  exact ⟨fun c' hc' => by rw [he c' hc']; exact h.1 c' hc', c, hc, he c hc⟩

theorem Top.const {α : Type} {e : α → ℕ} {K : α → Prop} {s t : ℕ} (h : Top e K s) (he : ∀ c, K c → e c = t) :
    s = t := by
  obtain ⟨c, hc, rfl⟩ := h.2
  exact he c hc

namespace Layouter
variable {α : Type}

/-- Columns in a region shape. -/
def shapeCols (shape : List (Op F)) : List RCol := shape.filterMap Op.rcol
/-- Row count of a region shape. -/
def shapeRows (shape : List (Op F)) : ℕ := (shape.map Op.bottom).foldl max 0

/-- Region start: the lowest row at which every column of the shape is free. -/
def startOf (L : Layouter F) (shape : List (Op F)) : ℕ :=
  ((shapeCols shape).map L.colEnd).foldl max 0

/-- Reserve a region of the given shape at `start`. -/
def reserve (L : Layouter F) (shape : List (Op F)) (start : ℕ) : Layouter F :=
  {L with colEnd := fun c => if c ∈ shapeCols shape then start + shapeRows shape else L.colEnd c}

/-- Serve the `constrain_constant` requests of a region: each takes the next free row of the
constants column. -/
def serveConstants (L : Layouter F) : List (Op F) → Except Panic (Layouter F)
  | [] => .ok L
  | .constant c v :: os =>
    match L.constCol with
    | none => .error .noConstantColumn
    | some k =>
      let row := L.colEnd (.fixed k)
      serveConstants {L with
        colEnd := fun x => if x = .fixed k then row + 1 else L.colEnd x
        ops := L.ops ++ [.fixed k row v, .copy ⟨.fixed k, row⟩ c]} os
  | _ :: os => serveConstants L os

/-- `layouter.assign_region(body)`: a shape pass at row 0, then the real pass at the chosen start. -/
def assignRegion (L : Layouter F) (body : ℕ → Except Panic (W F α)) :
    Except Panic (α × Layouter F) := do
  let shape ← body 0
  let start := L.startOf shape.ops
  let out ← body start
  let L' := L.reserve shape.ops start
  let L' ← serveConstants {L' with ops := L'.ops ++ out.ops} out.ops
  return (out.val, L')

/-- First loop of `layouter.assign_regions`: place the regions in order, according to what each
closure does on its first call. -/
def placeAll (L : Layouter F) : List (List (Op F)) → List ℕ × Layouter F
  | [] => ([], L)
  | sh :: rest =>
    let start := L.startOf sh
    let (starts, L') := placeAll (L.reserve sh start) rest
    (start :: starts, L')

/-- `layouter.assign_regions(bodies)` of the scroll fork. Each item is the pair of what the closure
logs on its first call (shape pass, rows relative to 0) and what it does on its second call, given
the region start. The second calls run in parallel threads on disjoint row ranges; the model logs
them in order (`Halo2/Threads` has the other orders). Simplification: no `constrain_constant` requests
(none are made here). -/
def assignRegions (L : Layouter F) (items : List (List (Op F) × (ℕ → Except Panic (W F α)))) :
    Except Panic (List α × Layouter F) := do
  let (starts, L') := L.placeAll (items.map Prod.fst)
  let outs ← (List.zip items starts).mapM fun (it, s) => it.2 s
  return (outs.map W.val, {L' with ops := L'.ops ++ outs.flatMap W.ops})

/-- `layouter.assign_table`: one column, the given entries from row 0, remaining rows filled with the
first entry. -/
def assignTable (L : Layouter F) (col : ℕ) (entries : List F) : Layouter F :=
  {L with ops := L.ops ++ (entries.zipIdx.map fun (v, i) => .fixed col i v) ++
    [.fill col entries.length (entries.headD 0)]}

end Layouter

/-! ## The assigned circuit -/

/-- Content of a fixed cell after the operations: the last write wins, unwritten cells are zero. -/
def finalFixed (ops : List (Op F)) (c r : ℕ) : F :=
  ops.foldl (fun acc o => match o with
    | .fixed c' r' v => if c' = c ∧ r' = r then v else acc
    | .fill c' r' v => if c' = c ∧ r' ≤ r then v else acc
    | _ => acc) 0

/-- Content of an advice cell after the operations. -/
def finalAdvice (ops : List (Op F)) (c r : ℕ) : F :=
  ops.foldl (fun acc o => match o with
    | .advice c' r' v => if c' = c ∧ r' = r then v else acc
    | _ => acc) 0

/-- Whether a selector is enabled by the operations. -/
def finalSelector (ops : List (Op F)) (s r : ℕ) : Bool :=
  ops.any fun o => match o with
    | .selector s' r' => s' = s ∧ r' = r
    | _ => false

/-- Every operation stays within the usable rows (otherwise halo2 reports `NotEnoughRowsAvailable`).
-/
def Fits (ops : List (Op F)) (usable : ℕ) : Prop := ∀ o ∈ ops, o.bottom ≤ usable

/-- The prover does not choose fixed columns, selectors and copy constraints: a grid `g` is an
*instance* of a synthesised circuit if its fixed columns (for the columns in `cols`) and selectors
(in `sels`) are those laid out by the synthesis, and all copy constraints hold. -/
structure InstanceOf (g : Grid F) (ops : List (Op F)) (cols sels : Set ℕ) : Prop where
  usable_le : g.usable ≤ g.n
  fixed : ∀ c ∈ cols, ∀ r < g.n, g.fixed c r = finalFixed ops c r
  selector : ∀ s ∈ sels, ∀ r < g.n, g.selector s r = finalSelector ops s r
  copies : ∀ a b, Op.copy a b ∈ ops → g.cell a = g.cell b

/-- The grid an honest prover commits to: as `InstanceOf`, and all assignable advice cells are those
of the synthesis (blinding rows are arbitrary). Copy constraints are a *consequence*. -/
structure HonestFor (g : Grid F) (ops : List (Op F)) (cols sels adv : Set ℕ) : Prop where
  usable_le : g.usable ≤ g.n
  fixed : ∀ c ∈ cols, ∀ r < g.n, g.fixed c r = finalFixed ops c r
  selector : ∀ s ∈ sels, ∀ r < g.n, g.selector s r = finalSelector ops s r
  advice : ∀ c ∈ adv, ∀ r < g.usable, g.advice c r = finalAdvice ops c r

/-- All copy constraints of the synthesis hold. -/
def CopiesHold (g : Grid F) (ops : List (Op F)) : Prop :=
  ∀ a b, Op.copy a b ∈ ops → g.cell a = g.cell b

end Halo2
