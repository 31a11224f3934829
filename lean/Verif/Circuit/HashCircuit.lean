import Verif.Circuit.Gadget

/-!
# Model of the test circuits of the Pow5 chip

Models `PermuteCircuit` and `HashCircuit`, `/repo/poseidon-circuit/src/poseidon/pow5.rs` lines 733-828 and
838-939. They are the only complete users of `Pow5Chip::permute` and of the hash gadget in the crate. `WIDTH =
t + 1`, `RATE = t`.

Here the messages and outputs are known (`Some`); `Circuit/HashCircuitValues.lean` has the circuit for optional ones and
`without_witnesses`.
-/

set_option linter.unusedVariables false
set_option linter.unusedSectionVars false

open Halo2

namespace Circuit.TestCircuit

variable {F : Type} [Field F] {t : ℕ}

/-- `(0..n).map(|_| meta.advice_column())`, pow5.rs:748 and 866. -/
def adviceColumns : (n : ℕ) → StateM (CS F) (Fin n → ℕ)
  | 0 => pure Fin.elim0
  | n + 1 => do
    let cs ← adviceColumns n
    let c ← CS.adviceColumn
    return Fin.snoc (α := fun _ => ℕ) cs c

/-- `(0..n).map(|_| meta.fixed_column())`, pow5.rs:751-752 and 869-870. -/
def fixedColumns : (n : ℕ) → StateM (CS F) (Fin n → ℕ)
  | 0 => pure Fin.elim0
  | n + 1 => do
    let cs ← fixedColumns n
    let c ← CS.fixedColumn
    return Fin.snoc (α := fun _ => ℕ) cs c

/-- The columns of both circuits, pow5.rs:748-752 and 866-870. -/
def columns (t : ℕ) : StateM (CS F) (Pow5.Cols t) := do
  let state ← adviceColumns (t + 1)
  let partialSbox ← CS.adviceColumn
  let rcA ← fixedColumns (t + 1)
  let rcB ← fixedColumns (t + 1)
  return ⟨state, partialSbox, rcA, rcB⟩

/-- A new constraint system (`ConstraintSystem::default()`, made by halo2 before it calls `configure`). -/
def emptyCS : CS F := ⟨0, 0, 0, [], [], []⟩

/-- `PermuteCircuit::configure`, pow5.rs:747-761. -/
def permuteConfigure (S : Pow5.Params F t) : Except Panic (Pow5.Config F t × CS F) :=
  let (cols, cs) := columns t emptyCS
  Pow5.configureChecked S cols cs

/-- `HashCircuit::configure`, pow5.rs:865-881; `meta.enable_constant(rc_b[0])` (line 872) also enables
equality on the column. Returned with the column of constants. -/
def hashConfigure (S : Pow5.Params F t) : Except Panic (Pow5.Config F t × CS F × ℕ) := do
  let (cols, cs) := columns t emptyCS
  let (_, cs) := CS.enableEquality (.fixed (cols.rcB 0)) cs
  let (c, cs) ← Pow5.configureChecked S cols cs
  return (c, cs, cols.rcB 0)

/-- The layouter at the start of synthesis. -/
def freshLayouter (constCol : Option ℕ) : Layouter F := ⟨fun _ => 0, constCol, []⟩

/-- Region "prepare initial state", pow5.rs:768-784, for any initial state (the test uses `0, 1, 2, ...`). -/
def prepareBody (c : Pow5.Config F t) (x : Fin (t + 1) → F) (start : ℕ) : W F (Words F (t + 1)) :=
  forFin (t + 1) fun i => assignAdvice start (c.state i) 0 (x i)

/-- Region "constrain final state", pow5.rs:807-826. -/
def constrainBody (c : Pow5.Config F t) (final : Words F (t + 1)) (y : Fin (t + 1) → F) (start : ℕ) :
    W F (Fin (t + 1) → Unit) :=
  forFin (t + 1) fun i => do
    let var ← assignAdvice start (c.state i) 0 (y i)
    constrainEqual (final i).cell var.cell

/-- `PermuteCircuit::synthesize`, pow5.rs:763-827, for any initial state `x` and any expected final state `y`
(the test computes `y` with the native permutation, lines 796-805). -/
def permuteSynthesize (S : Pow5.Params F t) (c : Pow5.Config F t) (x y : Fin (t + 1) → F) (L : Layouter F) :
    Except Panic (Layouter F) := do
  let (initial, L) ← L.assignRegion fun start => .ok (prepareBody c x start)
  let (final, L) ← Pow5.permute S c L initial
  let (_, L) ← L.assignRegion fun start => .ok (constrainBody c final y start)
  return L

/-- Region "load message", pow5.rs:890-912. `config.state[i]` is out of bounds for messages of more than
`WIDTH` words. -/
def loadBody (c : Pow5.Config F t) {n : ℕ} (m : Fin n → F) (start : ℕ) :
    Except Panic (W F (Fin n → ACell F)) :=
  if h : n ≤ t + 1 then .ok (forFin n fun i => assignAdvice start (c.state (i.castLE h)) 0 (m i))
  else .error .index

/-- Region "constrain output", pow5.rs:920-937. -/
def outputBody (c : Pow5.Config F t) (out : ACell F) (y : F) (start : ℕ) : W F Unit := do
  let var ← assignAdvice start (c.state 0) 0 y
  constrainEqual out.cell var.cell

/-- `HashCircuit::synthesize`, pow5.rs:883-938, for the message `m` and the claimed output `y`. -/
def hashSynthesize (S : Pow5.Params F t) (c : Pow5.Config F t) {n : ℕ} (m : Fin n → F) (y : F)
    (L : Layouter F) : Except Panic (Layouter F) := do
  let (message, L) ← L.assignRegion fun start => loadBody c m start
  let (out, L) ← Gadget.hashCells S c L message
  let (_, L) ← L.assignRegion fun start => .ok (outputBody c out y start)
  return L

/-- The whole `PermuteCircuit`: constraint system and layout. -/
def permuteCircuit (S : Pow5.Params F t) (x y : Fin (t + 1) → F) : Except Panic (CS F × Layouter F) := do
  let (c, cs) ← permuteConfigure S
  let L ← permuteSynthesize S c x y (freshLayouter none)
  return (cs, L)

/-- The whole `HashCircuit`: constraint system and layout. -/
def hashCircuit (S : Pow5.Params F t) {n : ℕ} (m : Fin n → F) (y : F) : Except Panic (CS F × Layouter F) := do
  let (c, cs, k) ← hashConfigure S
  let L ← hashSynthesize S c m y (freshLayouter (some k))
  return (cs, L)

end Circuit.TestCircuit
