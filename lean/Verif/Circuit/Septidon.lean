import Verif.Halo2.Threads
import Mathlib.Data.Fin.VecNotation

/-!
# Model of the Septidon permutation chip

Models `/repo/poseidon-circuit/src/poseidon/septidon/*.rs`. The matrix and the round constants
(`F::cached_mds()`, `F::cached_round_constants()`) are the parameters `mds` and `rc`. Simplification:
`rc` is a function of the index, whereas the code indexes a slice; the largest index used is 64.
-/

set_option linter.unusedVariables false

open Halo2

namespace Circuit

variable {F : Type} [Field F]

/-- `util::pow_5::expr`, util.rs:47-50. -/
def pow5Expr (v : Expr F) : Expr F := (v * v) * (v * v) * v

/-- `util::pow_5::value`, util.rs:52-55. -/
def pow5Value (v : F) : F := (v * v) * (v * v) * v

namespace Septidon

/-- `params::sbox::expr`, params.rs:11-16. -/
def sboxExpr (input rc : Expr F) : Expr F := pow5Expr (input + rc)

/-- `params::sbox::value`, params.rs:18-20. -/
def sboxValue (input rc : F) : F := pow5Value (input + rc)

/-- `util::matmul::expr`, util.rs:66-77. -/
def matmulExpr (m : Base.Mds F 3) (v : Fin 3 → Expr F) : Fin 3 → Expr F :=
  fun i => Expr.scaled (v 0) (m i 0) + Expr.scaled (v 1) (m i 1) + Expr.scaled (v 2) (m i 2)

/-- `util::matmul::value`, util.rs:80-91. -/
def matmulValue (m : Base.Mds F 3) (v : Fin 3 → F) : Fin 3 → F :=
  fun i => v 0 * m i 0 + v 1 * m i 1 + v 2 * m i 2

/-- `util::select::expr`, util.rs:102-109. -/
def selectExpr (s t f : Expr F) : Expr F := s * t + (Expr.const 1 - s) * f

/-- `util::query`, util.rs:16-26: creates the trivial gate `0`. The queried expressions are built
directly by the callers. -/
def queryGate : StateM (CS F) Unit := CS.createGate "query" [Expr.const 0]

/-- `state::Cell`, state.rs:12-16. -/
structure RelCell where
  column : ℕ
  offset : ℤ

namespace RelCell
/-- state.rs:19-24 -/
def configure : StateM (CS F) RelCell := do
  let c ← CS.adviceColumn
  return ⟨c, 0⟩
/-- state.rs:30-35 -/
def rotated (c : RelCell) (k : ℤ) : RelCell := ⟨c.column, c.offset + k⟩
/-- state.rs:37-39 -/
def query (c : RelCell) (k : ℤ) : Expr F := .advice c.column (c.offset + k)
/-- state.rs:41-44. The assertion `offset >= 0` holds at all uses (offset 0). -/
def regionOffset (c : RelCell) : ℕ := c.offset.toNat
/-- state.rs:46-56. The assertion `offset >= 0` holds at all uses (3 - 3, 7 - 3, ...). -/
def assign (start : ℕ) (c : RelCell) (origin : ℕ) (v : F) : W F Unit := do
  let _ ← assignAdvice start c.column ((origin : ℤ) + c.offset).toNat v
  return ()
end RelCell

/-- `state::SBox`, state.rs:60-63. -/
structure SBox where
  input : RelCell
  roundConstant : ℕ

namespace SBox
/-- state.rs:66-71 -/
def configure : StateM (CS F) SBox := do
  let input ← RelCell.configure
  let rc ← CS.fixedColumn
  return ⟨input, rc⟩
/-- state.rs:74-95 -/
def assign (start : ℕ) (s : SBox) (offset : ℕ) (rc input : F) : W F F := do
  let _ ← assignFixed start s.roundConstant (offset + s.input.regionOffset) rc
  let _ ← assignAdvice start s.input.column (offset + s.input.regionOffset) input
  return sboxValue input rc
/-- state.rs:97-99 -/
def inputExpr (s : SBox) : Expr F := s.input.query 0
/-- state.rs:101-103 -/
def rcExpr (s : SBox) : Expr F := .fixed s.roundConstant s.input.offset
/-- state.rs:105-109 -/
def outputExpr (s : SBox) : Expr F := sboxExpr s.inputExpr s.rcExpr
end SBox

/-- `control::ControlSignals`, control.rs:14-22. -/
structure Signals (F : Type) where
  breakFull : Expr F
  transition : Expr F
  breakPartial : Expr F
  selector : Expr F

/-- `ControlChip::derive_selector`, control.rs:65-80 (with `GATE_DEGREE_5 = false`, params.rs:3). -/
def deriveSelector (isLast : ℕ) : Expr F :=
  ((List.range 7).map fun i => Expr.fixed isLast ((i : ℤ) + 1)).foldl (· + ·) (Expr.fixed isLast 0)

/-- `ControlChip::configure`, control.rs:25-43. -/
def controlConfigure : StateM (CS F) (ℕ × Signals F) := do
  let isLast ← CS.fixedColumn
  queryGate
  let middle : Expr F := .fixed isLast 4
  let last : Expr F := .fixed isLast 0
  return (isLast, ⟨middle + last, middle, last, deriveSelector isLast⟩)

/-- `ControlChip::assign_with_offset`, control.rs:51-63. -/
def controlAssign (start isLast begin_ : ℕ) : W F Unit := do
  let _ ← assignFixed start isLast (7 + begin_) 1
  return ()

/-- `loop_chip::LoopBody`, loop_chip.rs:10-14. -/
structure LoopBody (F : Type) where
  nextState : Fin 3 → Expr F
  output : Fin 3 → Expr F

/-- `LoopChip::configure`, loop_chip.rs:17-41. -/
def loopConfigure (q : Expr F) (body : LoopBody F) (brk : Expr F) (output : Fin 3 → RelCell) :
    StateM (CS F) Unit :=
  CS.createGate "loop" (withSelector q ((List.finRange 3).map fun i =>
    selectExpr brk ((output i).query 0) (body.nextState i) - body.output i))

/-- `FullRoundChip::full_round_expr`, full_round.rs:25-31. -/
def fullRoundExpr (m : Base.Mds F 3) (full : Fin 3 → SBox) : Fin 3 → Expr F :=
  matmulExpr m fun i => (full i).outputExpr

/-- `FullRoundChip::configure`, full_round.rs:13-23 with `FullState::configure`, state.rs:116-122. -/
def fullConfigure (m : Base.Mds F 3) : StateM (CS F) ((Fin 3 → SBox) × LoopBody F) := do
  let s0 ← SBox.configure
  let s1 ← SBox.configure
  let s2 ← SBox.configure
  let full : Fin 3 → SBox := ![s0, s1, s2]
  queryGate
  return (full, ⟨fun i => (full i).input.query 1, fullRoundExpr m full⟩)

/-- `FullRoundChip::assign`, full_round.rs:38-52. -/
def fullAssign (m : Base.Mds F 3) (start : ℕ) (full : Fin 3 → SBox) (offset : ℕ) (rc : Fin 3 → F)
    (input : Fin 3 → F) : W F (Fin 3 → F) := do
  let o0 ← (full 0).assign start offset (rc 0) (input 0)
  let o1 ← (full 1).assign start offset (rc 1) (input 1)
  let o2 ← (full 2).assign start offset (rc 2) (input 2)
  return matmulValue m ![o0, o1, o2]

/-- `SeptupleRoundChip`, septuple_round.rs:10-14. -/
structure Septuple where
  first : SBox
  linears : Fin 2 → RelCell
  following : List SBox

/-- `SeptupleRoundChip::input`, septuple_round.rs:88-94. -/
def Septuple.input (c : Septuple) : Fin 3 → RelCell := ![c.first.input, c.linears 0, c.linears 1]

/-- `SeptupleRoundChip::partial_round_expr`, septuple_round.rs:79-86. -/
def partialRoundExpr (m : Base.Mds F 3) (s : SBox) (input : Fin 3 → Expr F) : Fin 3 → Expr F :=
  matmulExpr m ![s.outputExpr, input 1, input 2]

/-- The loop of septuple_round.rs:52-70: constraints and output state. -/
def septupleLoop (m : Base.Mds F 3) :
    SBox → (Fin 3 → Expr F) → List SBox → List (Expr F) × (Fin 3 → Expr F)
  | ck, st, [] => ([], partialRoundExpr m ck st)
  | ck, st, s :: rest =>
    let st' := partialRoundExpr m ck st
    let r := septupleLoop m s st' rest
    ((st' 0 - s.inputExpr) :: r.1, r.2)

/-- `SeptupleRoundChip::configure`, septuple_round.rs:17-77. -/
def septupleConfigure (m : Base.Mds F 3) (q : Expr F) : StateM (CS F) (Septuple × LoopBody F) := do
  let first ← SBox.configure
  let l0 ← RelCell.configure
  let l1 ← RelCell.configure
  let s0 ← SBox.configure
  let s1 ← SBox.configure
  let s2 ← SBox.configure
  let s3 ← SBox.configure
  let s4 ← SBox.configure
  let s5 ← SBox.configure
  let chip : Septuple := ⟨first, ![l0, l1], [s0, s1, s2, s3, s4, s5]⟩
  queryGate
  let r := septupleLoop m chip.first (fun i => (chip.input i).query 0) chip.following
  CS.createGate "septuple_round" (withSelector q r.1)
  return (chip, ⟨fun i => (chip.input i).query 1, r.2⟩)

/-- `assign_partial_round` applied to the S-boxes in turn, septuple_round.rs:109-122. -/
def assignPartialRounds (m : Base.Mds F 3) (start offset : ℕ) :
    List (SBox × F) → (Fin 3 → F) → W F (Fin 3 → F)
  | [], st => pure st
  | (s, rc) :: rest, st => do
    let o ← s.assign start offset rc (st 0)
    assignPartialRounds m start offset rest (matmulValue m ![o, st 1, st 2])

/-- `SeptupleRoundChip::assign`, septuple_round.rs:97-125. -/
def septupleAssign (m : Base.Mds F 3) (start : ℕ) (c : Septuple) (offset : ℕ) (rcs : List F)
    (input : Fin 3 → F) : W F (Fin 3 → F) := do
  (c.linears 0).assign start offset (input 1)
  (c.linears 1).assign start offset (input 2)
  assignPartialRounds m start offset ((c.first :: c.following).zip rcs) input

/-- `TransitionRoundChip::input`, transition_round.rs:73-80. -/
def transitionInput (col : ℕ) : Fin 3 → RelCell := ![⟨col, -2⟩, ⟨col, -1⟩, ⟨col, 0⟩]

/-- `TransitionRoundChip::helper_cell`, transition_round.rs:82-84. -/
def transitionHelper (col : ℕ) : RelCell := ⟨col, -3⟩

/-- `TransitionRoundChip::first_partial_round_expr`, transition_round.rs:55-65. -/
def firstPartialRoundExpr (m : Base.Mds F 3) (rc4 : F) (input : Fin 3 → Expr F) : Fin 3 → Expr F :=
  matmulExpr m ![sboxExpr (input 0) (.const rc4), input 1, input 2]

/-- `TransitionRoundChip::configure`, transition_round.rs:14-51. -/
def transitionConfigure (m : Base.Mds F 3) (rc4 : F) (signal : Expr F) (next : Fin 3 → RelCell) :
    StateM (CS F) ℕ := do
  let col ← CS.adviceColumn
  let output := firstPartialRoundExpr m rc4 fun i => (transitionInput col i).query 0
  CS.createGate "transition round"
    (withSelector signal ((List.finRange 3).map fun i => output i - (next i).query (-3)))
  return col

/-- `TransitionRoundChip::assign_final_state`, transition_round.rs:113-125 (also the cell
assignments of `assign_first_partial_state`, transition_round.rs:94-98). -/
def transitionAssignCells (start col offset : ℕ) (input : Fin 3 → F) : W F Unit := do
  (transitionInput col 0).assign start offset (input 0)
  (transitionInput col 1).assign start offset (input 1)
  (transitionInput col 2).assign start offset (input 2)
  (transitionHelper col).assign start offset 0

/-- `TransitionRoundChip::assign_first_partial_state` and `first_partial_round`,
transition_round.rs:87-110. -/
def transitionAssign (m : Base.Mds F 3) (rc4 : F) (start col middle : ℕ) (input : Fin 3 → F) :
    W F (Fin 3 → F) := do
  transitionAssignCells start col middle input
  return matmulValue m ![sboxValue (input 0) rc4, input 1, input 2]

/-- `SeptidonChip`, septidon_chip.rs:25-33. -/
structure Config where
  isLast : ℕ
  transition : ℕ
  full : Fin 3 → SBox
  septuple : Septuple

/-- `SeptidonChip::configure`, septidon_chip.rs:37-89. -/
def configureChip (m : Base.Mds F 3) (rc : ℕ → Fin 3 → F) : StateM (CS F) Config := do
  let (isLast, signals) ← controlConfigure
  let (full, fullBody) ← fullConfigure m
  let (sept, septBody) ← septupleConfigure m signals.selector
  let transition ← transitionConfigure m (rc 4 0) signals.transition sept.input
  loopConfigure signals.selector fullBody signals.breakFull (transitionInput transition)
  loopConfigure signals.selector septBody signals.breakPartial fun i => (full i).input.rotated (-3)
  return ⟨isLast, transition, full, sept⟩

namespace Config

/-- `initial_state_cells`, septidon_chip.rs:102-104. -/
def initialCells (c : Config) : Fin 3 → RelCell := fun i => (c.full i).input

/-- `final_state_cells`, septidon_chip.rs:108-113. -/
def finalCells (c : Config) : Fin 3 → RelCell := fun i => (transitionInput c.transition i).rotated 7

end Config

/-- `PermuteChip::configure`, instruction.rs:18-30. -/
def configure (m : Base.Mds F 3) (rc : ℕ → Fin 3 → F) : StateM (CS F) Config := do
  let c ← configureChip m rc
  CS.enableEquality (.advice (c.initialCells 0).column)
  CS.enableEquality (.advice (c.initialCells 1).column)
  CS.enableEquality (.advice (c.initialCells 2).column)
  CS.enableEquality (.advice (c.finalCells 0).column)
  CS.enableEquality (.advice (c.finalCells 1).column)
  CS.enableEquality (.advice (c.finalCells 2).column)
  return c

/-- `assign_permutation_with_offset`, septidon_chip.rs:125-184. -/
def assignPermutation (m : Base.Mds F 3) (rc : ℕ → Fin 3 → F) (c : Config) (start : ℕ)
    (initial : Fin 3 → F) (begin_ : ℕ) : W F (Fin 3 → F) := do
  controlAssign start c.isLast begin_
  let state ← W.loop (fun o s => fullAssign m start c.full (o + begin_) (rc o) s) 4 initial
  let state ← transitionAssign m (rc 4 0) start c.transition (3 + begin_) state
  let state ← W.loop (fun o s => septupleAssign m start c.septuple (o + begin_)
    ((List.range 7).map fun j => rc (5 + o * 7 + j) 0) s) 8 state
  let state ← W.loop (fun o s => fullAssign m start c.full (o + 4 + begin_) (rc (o + 4 + 57)) s) 4
    state
  transitionAssignCells start c.transition (7 + begin_) state
  return state

/-- One iteration of the loop of `permute_batch`, instruction.rs:118-152; with `lastOffset = 0` it is
the region of `permute`, instruction.rs:47-84. -/
def permuteBody (m : Base.Mds F 3) (rc : ℕ → Fin 3 → F) (c : Config) (initial : Fin 3 → ACell F)
    (lastOffset start : ℕ) : W F (Fin 3 → ACell F) := do
  let _ ← copyAdvice (initial 0) start (c.initialCells 0).column
    (lastOffset + (c.initialCells 0).offset.toNat)
  let _ ← copyAdvice (initial 1) start (c.initialCells 1).column
    (lastOffset + (c.initialCells 1).offset.toNat)
  let _ ← copyAdvice (initial 2) start (c.initialCells 2).column
    (lastOffset + (c.initialCells 2).offset.toNat)
  let final ← assignPermutation m rc c start (fun i => (initial i).value) lastOffset
  let o0 ← assignAdvice start (c.finalCells 0).column
    (lastOffset + (c.finalCells 0).offset.toNat) (final 0)
  let o1 ← assignAdvice start (c.finalCells 1).column
    (lastOffset + (c.finalCells 1).offset.toNat) (final 1)
  let o2 ← assignAdvice start (c.finalCells 2).column
    (lastOffset + (c.finalCells 2).offset.toNat) (final 2)
  return ![o0, o1, o2]

/-- `PoseidonInstructions::permute`, instruction.rs:42-85. -/
def permute (m : Base.Mds F 3) (rc : ℕ → Fin 3 → F) (c : Config) (L : Layouter F)
    (initial : Fin 3 → ACell F) : Except Panic ((Fin 3 → ACell F) × Layouter F) :=
  L.assignRegion fun start => .ok (permuteBody m rc c initial 0 start)

/-- Second call of the closure of `permute_batch`, instruction.rs:118-156. -/
def batchBody (m : Base.Mds F 3) (rc : ℕ → Fin 3 → F) (c : Config) :
    List (Fin 3 → ACell F) → ℕ → ℕ → W F (List (Fin 3 → ACell F))
  | [], _, _ => pure []
  | s :: rest, lastOffset, start => do
    let o ← permuteBody m rc c s lastOffset start
    let os ← batchBody m rc c rest (lastOffset + 8) start
    return o :: os

end Septidon

/-- `slice::chunks(n)` for `n > 0`. -/
def chunksOf {α : Type} (n : ℕ) (l : List α) : List (List α) :=
  if h : l = [] ∨ n = 0 then []
  else l.take n :: chunksOf n (l.drop n)
termination_by l.length
decreasing_by
  have : l.length ≠ 0 := by simpa using fun h' => h (Or.inl h')
  simp only [List.length_drop]; omega

namespace Septidon

/-- `PoseidonInstructions::permute_batch`, instruction.rs:87-163. On its first call a closure only
assigns a dummy cell in the last row of its chunk. -/
def permuteBatch (m : Base.Mds F 3) (rc : ℕ → Fin 3 → F) (c : Config) (threads : ℕ) (L : Layouter F)
    (initials : List (Fin 3 → ACell F)) :
    Except Panic (List (Fin 3 → ACell F) × Layouter F) := do
  let (outs, L') ← L.assignRegions ((chunksOf (initials.length / threads + 2) initials).map
    fun chunk => ([Op.advice (c.finalCells 0).column (chunk.length * 8 - 1) 0],
      fun start => .ok (batchBody m rc c chunk 0 start)))
  return (outs.flatten, L')

/-- `PoseidonInstructions::permute_batch`, instruction.rs:87-163, with the operations of the threads in the
order of a scheduler. -/
def permuteBatchBy (m : Base.Mds F 3) (rc : ℕ → Fin 3 → F) (σ : Scheduler F) (c : Config) (threads : ℕ)
    (L : Layouter F) (initials : List (Fin 3 → ACell F)) :
    Except Panic (List (Fin 3 → ACell F) × Layouter F) := do
  let (outs, L') ← L.assignRegionsBy σ ((chunksOf (initials.length / threads + 2) initials).map
    fun chunk => ([Op.advice (c.finalCells 0).column (chunk.length * 8 - 1) 0],
      fun start => .ok (batchBody m rc c chunk 0 start)))
  return (outs.flatten, L')

end Septidon
end Circuit
