import Verif.Circuit.Septidon
import Verif.Circuit.Table

/-!
# The other setting of `GATE_DEGREE_5`, and the column accessors of the table

`GATE_DEGREE_5` is a constant of the source, `/repo/poseidon-circuit/src/poseidon/septidon/params.rs`
lines 1-3; `Circuit.Septidon` is the build with its committed value `false`. Here it is a parameter.
-/

set_option linter.unusedVariables false

open Halo2

namespace Circuit
variable {F : Type} [Field F]

namespace Septidon

/-- `ControlChip::derive_selector`, control.rs:65-80, both branches. -/
def deriveSelectorD (deg5 : Bool) (isLast : ℕ) : Expr F :=
  if deg5 then .const 1 else deriveSelector isLast

/-- `ControlChip::configure`, control.rs:25-43. -/
def controlConfigureD (deg5 : Bool) : StateM (CS F) (ℕ × Signals F) := do
  let isLast ← CS.fixedColumn
  queryGate
  let middle : Expr F := .fixed isLast 4
  let last : Expr F := .fixed isLast 0
  return (isLast, ⟨middle + last, middle, last, deriveSelectorD deg5 isLast⟩)

/-- `SeptidonChip::configure`, septidon_chip.rs:37-89. -/
def configureChipD (deg5 : Bool) (m : Base.Mds F 3) (rc : ℕ → Fin 3 → F) : StateM (CS F) Config := do
  let (isLast, signals) ← controlConfigureD deg5
  let (full, fullBody) ← fullConfigure m
  let (sept, septBody) ← septupleConfigure m signals.selector
  let transition ← transitionConfigure m (rc 4 0) signals.transition sept.input
  loopConfigure signals.selector fullBody signals.breakFull (transitionInput transition)
  loopConfigure signals.selector septBody signals.breakPartial fun i => (full i).input.rotated (-3)
  return ⟨isLast, transition, full, sept⟩

/-- `PermuteChip::configure`, instruction.rs:18-30. -/
def configureD (deg5 : Bool) (m : Base.Mds F 3) (rc : ℕ → Fin 3 → F) : StateM (CS F) Config := do
  let c ← configureChipD deg5 m rc
  CS.enableEquality (.advice (c.initialCells 0).column)
  CS.enableEquality (.advice (c.initialCells 1).column)
  CS.enableEquality (.advice (c.initialCells 2).column)
  CS.enableEquality (.advice (c.finalCells 0).column)
  CS.enableEquality (.advice (c.finalCells 1).column)
  CS.enableEquality (.advice (c.finalCells 2).column)
  return c

end Septidon

namespace Table

/-- `SpongeConfig::commitment_index`, hash.rs:65-67: `Column::index` of an advice column is its number. -/
def commitmentIndex {P : Type} (cfg : SpongeConfig P) : Fin 6 → ℕ := cfg.hashTable

/-- `SpongeConfig::hash_tbl_cols`, hash.rs:70-72. -/
def hashTblCols {P : Type} (cfg : SpongeConfig P) : Fin 6 → Col := fun i => .advice (cfg.hashTable i)

end Table
end Circuit
