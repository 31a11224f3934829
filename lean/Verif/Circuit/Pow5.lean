import Verif.Halo2.Core
import Verif.Circuit.Chip
import Verif.Circuit.Septidon

/-!
# Model of the Pow5 chip

Models `/repo/poseidon-circuit/src/poseidon/pow5.rs` lines 33-708. `WIDTH = t + 1`, `RATE = t`: the
code asserts `RATE == WIDTH - 1` (line 81).
-/

set_option linter.unusedVariables false
set_option linter.unusedSectionVars false

open Halo2

namespace Circuit

/-- `(0..n).map(f).collect::<Result<Vec<_>, _>>()` for closures that do not depend on each other. -/
def forFin {F α : Type} (n : ℕ) (f : Fin n → W F α) : W F (Fin n → α) :=
  ⟨fun i => (f i).val, (List.finRange n).flatMap fun i => (f i).ops⟩

namespace Pow5

variable {F : Type} [Field F] {t : ℕ}

/-- What the chip reads from `S: Spec<F, WIDTH, RATE>`: round numbers and `S::constants()`, pow5.rs:84,
86-88. Simplification: the vector of round constants is a function (it has one entry per round). -/
structure Params (F : Type) (t : ℕ) where
  fullRounds : ℕ
  partialRounds : ℕ
  rc : ℕ → Fin (t + 1) → F
  mReg : Base.Mds F (t + 1)
  mInv : Base.Mds F (t + 1)

/-- The columns passed to `Pow5Chip::configure`, pow5.rs:74-80. -/
structure Cols (t : ℕ) where
  state : Fin (t + 1) → ℕ
  partialSbox : ℕ
  rcA : Fin (t + 1) → ℕ
  rcB : Fin (t + 1) → ℕ

/-- `Pow5Config`, pow5.rs:35-51 (`alpha` is always `[5, 0, 0, 0]`). -/
structure Config (F : Type) (t : ℕ) extends Cols t where
  sFull : ℕ
  sPartial : ℕ
  sPartialSingle : ℕ
  sPadAndAdd : ℕ
  halfFull : ℕ
  halfPartial : ℕ
  rc : ℕ → Fin (t + 1) → F
  mReg : Base.Mds F (t + 1)
  mInv : Base.Mds F (t + 1)

/-- `Iterator::reduce(|acc, term| acc + term).expect("WIDTH > 0")`, pow5.rs:125-126, 157-158, 193-194.
The empty case, which panics, is excluded by `configureChecked`. -/
def reduceAdd : List (Expr F) → Expr F
  | [] => .const 0
  | e :: es => es.foldl (· + ·) e

section gates
variable (c : Config F t)

/-- Gate "full round", pow5.rs:113-130. -/
def fullGate : Gate F :=
  ⟨"full round", (List.finRange (t + 1)).map fun next =>
    let expr := reduceAdd ((List.finRange (t + 1)).map fun idx =>
      Expr.scaled (pow5Expr (Expr.advice (c.state idx) 0 + Expr.fixed (c.rcA idx) 0))
        (c.mReg next idx))
    Expr.selector c.sFull * (expr - Expr.advice (c.state next) 1)⟩

/-- The closure `mid`, pow5.rs:142-149. -/
def midExpr (idx : Fin (t + 1)) : Expr F :=
  (List.finRange t).foldl (fun acc (k : Fin t) =>
    acc + Expr.scaled (Expr.advice (c.state k.succ) 0 + Expr.fixed (c.rcA k.succ) 0)
      (c.mReg idx k.succ))
    (Expr.scaled (Expr.advice c.partialSbox 0) (c.mReg idx 0))

/-- The closure `next`, pow5.rs:151-159. -/
def nextExpr (idx : Fin (t + 1)) : Expr F :=
  reduceAdd ((List.finRange (t + 1)).map fun k =>
    Expr.scaled (Expr.advice (c.state k) 1) (c.mInv idx k))

/-- Gate "partial rounds", pow5.rs:132-174. -/
def partialGate : Gate F :=
  ⟨"partial rounds",
    ([pow5Expr (Expr.advice (c.state 0) 0 + Expr.fixed (c.rcA 0) 0) - Expr.advice c.partialSbox 0,
      pow5Expr (midExpr c 0 + Expr.fixed (c.rcB 0) 0) - nextExpr c 0] ++
      (List.finRange t).map (fun k : Fin t =>
        midExpr c k.succ + Expr.fixed (c.rcB k.succ) 0 - nextExpr c k.succ)).map
      fun e => Expr.selector c.sPartial * e⟩

/-- Gate "partial round single", pow5.rs:176-198. -/
def singleGate : Gate F :=
  ⟨"partial round single", (List.finRange (t + 1)).map fun next =>
    let expr := Expr.scaled (pow5Expr (Expr.advice (c.state 0) 0 + Expr.fixed (c.rcA 0) 0))
      (c.mReg next 0)
    let expr := expr + reduceAdd ((List.finRange t).map fun k : Fin t =>
      Expr.scaled (Expr.advice (c.state k.succ) 0 + Expr.fixed (c.rcA k.succ) 0)
        (c.mReg next k.succ))
    Expr.selector c.sPartialSingle * (expr - Expr.advice (c.state next) 1)⟩

/-- Gate "pad-and-add", pow5.rs:200-222. -/
def padGate : Gate F :=
  ⟨"pad-and-add",
    ((List.finRange t).map (fun k : Fin t =>
        Expr.advice (c.state k.castSucc) (-1) + Expr.advice (c.state k.castSucc) 0 -
          Expr.advice (c.state k.castSucc) 1) ++
      [Expr.advice (c.state (Fin.last t)) (-1) - Expr.advice (c.state (Fin.last t)) 1]).map
      fun e => Expr.selector c.sPadAndAdd * e⟩

/-- The gates added by `configure`. -/
def gates : List (Gate F) := [fullGate c, partialGate c, singleGate c, padGate c]
end gates

/-- `meta.enable_equality` over an iterator, pow5.rs:95-100. -/
def enableAll : List Col → StateM (CS F) Unit
  | [] => pure ()
  | c :: cs => do CS.enableEquality c; enableAll cs

/-- `Pow5Chip::configure`, pow5.rs:74-240, past its assertions. -/
def configure (S : Params F t) (cols : Cols t) : StateM (CS F) (Config F t) := do
  enableAll ((List.finRange (t + 1)).map fun i => .advice (cols.state i))
  enableAll ((List.finRange (t + 1)).map fun i => .fixed (cols.rcB i))
  let sFull ← CS.newSelector
  let sPartial ← CS.newSelector
  let sPartialSingle ← CS.newSelector
  let sPadAndAdd ← CS.newSelector
  let c : Config F t := { cols with
    sFull, sPartial, sPartialSingle, sPadAndAdd
    halfFull := S.fullRounds / 2
    halfPartial := S.partialRounds / 2
    rc := S.rc, mReg := S.mReg, mInv := S.mInv }
  CS.createGate (fullGate c).name (fullGate c).polys
  CS.createGate (partialGate c).name (partialGate c).polys
  CS.createGate (singleGate c).name (singleGate c).polys
  CS.createGate (padGate c).name (padGate c).polys
  return c

/-- `Pow5Chip::configure` with its assertions, pow5.rs:81-84, and the `expect`s of the gates, which fail
for `WIDTH = 1`. -/
def configureChecked (S : Params F t) (cols : Cols t) (cs : CS F) :
    Except Panic (Config F t × CS F) :=
  if S.fullRounds % 2 = 0 ∧ 0 < t then .ok (configure S cols cs) else .error .badSpec

/-! ## Assignment -/

/-- `m.iter().map(|m_i| fold(0, acc + m_i[j] * r_j))`, pow5.rs:528-534, 565-572, 605-614, 637-646. -/
def mulMds (m : Base.Mds F (t + 1)) (r : Fin (t + 1) → F) : Fin (t + 1) → F :=
  fun i => (List.finRange (t + 1)).foldl (fun acc j => acc + m i j * r j) 0

/-- `Pow5State::round`, pow5.rs:668-708. -/
def roundRow (c : Config F t) (start round offset gate : ℕ)
    (roundFn : W F (Fin (t + 1) → F)) : W F (Words F (t + 1)) := do
  enableSelector start gate offset
  let _ ← forFin (t + 1) fun i => assignFixed start (c.rcA i) offset (c.rc round i)
  let next ← roundFn
  forFin (t + 1) fun i => assignAdvice start (c.state i) (offset + 1) (next i)

/-- `Pow5State::full_round`, pow5.rs:514-538. -/
def fullRound (c : Config F t) (start : ℕ) (s : Words F (t + 1)) (round offset : ℕ) :
    W F (Words F (t + 1)) :=
  roundRow c start round offset c.sFull
    (pure (mulMds c.mReg fun i => ((s i).value + c.rc round i) ^ 5))

/-- `Pow5State::partial_round_single`, pow5.rs:540-577. -/
def partialRoundSingle (c : Config F t) (start : ℕ) (s : Words F (t + 1)) (round offset : ℕ) :
    W F (Words F (t + 1)) :=
  roundRow c start round offset c.sPartialSingle
    (pure (mulMds c.mReg fun i =>
      if i = 0 then ((s i).value + c.rc round i) ^ 5 else (s i).value + c.rc round i))

/-- `Pow5State::partial_round`, pow5.rs:579-650: two rounds in one row. -/
def partialRound (c : Config F t) (start : ℕ) (s : Words F (t + 1)) (round offset : ℕ) :
    W F (Words F (t + 1)) :=
  roundRow c start round offset c.sPartial do
    let r : Fin (t + 1) → F := fun i =>
      if i = 0 then ((s i).value + c.rc round i) ^ 5 else c.rc round i + (s i).value
    let _ ← assignAdvice start c.partialSbox offset (r 0)
    let pMid := mulMds c.mReg r
    let _ ← forFin (t + 1) fun i => assignFixed start (c.rcB i) offset (c.rc (round + 1) i)
    let rMid : Fin (t + 1) → F := fun i =>
      if i = 0 then (pMid i + c.rc (round + 1) i) ^ 5 else c.rc (round + 1) i + pMid i
    pure (mulMds c.mReg rMid)

/-- `Pow5State::load`, pow5.rs:652-666. -/
def load (c : Config F t) (start : ℕ) (w : Words F (t + 1)) : W F (Words F (t + 1)) :=
  forFin (t + 1) fun i => copyAdvice (w i) start (c.state i) 0

/-- The last partial round if their number is odd, pow5.rs:322-331. -/
def oddRound (S : Params F t) (c : Config F t) (start : ℕ) (s : Words F (t + 1)) :
    W F (Words F (t + 1)) :=
  if c.halfPartial * 2 < S.partialRounds then
    partialRoundSingle c start s (c.halfFull + 2 * c.halfPartial) (c.halfFull + c.halfPartial)
  else pure s

/-- The region of `permute`, pow5.rs:300-351. -/
def permuteBody (S : Params F t) (c : Config F t) (w : Words F (t + 1)) (start : ℕ) :
    W F (Words F (t + 1)) := do
  let s ← load c start w
  let s ← W.loop (fun r s => fullRound c start s r r) c.halfFull s
  let s ← W.loop (fun r s => partialRound c start s (c.halfFull + 2 * r) (c.halfFull + r))
    c.halfPartial s
  let s ← oddRound S c start s
  W.loop (fun r s => fullRound c start s
    (c.halfFull + 2 * c.halfPartial + S.partialRounds % 2 + r)
    (c.halfFull + c.halfPartial + S.partialRounds % 2 + r)) c.halfFull s

/-- `PoseidonInstructions::permute`, pow5.rs:290-353. -/
def permute (S : Params F t) (c : Config F t) (L : Layouter F) (w : Words F (t + 1)) :
    Except Panic (Words F (t + 1) × Layouter F) :=
  L.assignRegion fun start => .ok (permuteBody S c w start)

/-- `PaddedWord`, poseidon.rs:27-32. -/
inductive PaddedWord (F : Type) where
  | message (c : ACell F)
  | padding (v : F)

/-- `initial_state`, pow5.rs:363-394; `cap` is `D::initial_capacity_element()`. -/
def initialStateBody (c : Config F t) (cap : F) (start : ℕ) : W F (Words F (t + 1)) :=
  forFin (t + 1) fun i =>
    assignAdviceFromConstant start (c.state i) 0 (if i = Fin.last t then cap else 0)

def initialState (c : Config F t) (cap : F) (L : Layouter F) :
    Except Panic (Words F (t + 1) × Layouter F) :=
  L.assignRegion fun start => .ok (initialStateBody c cap start)

/-- The closure `load_input_word` for a padded word, pow5.rs:424-444. -/
def loadInput (c : Config F t) (start : ℕ) (k : Fin t) : PaddedWord F → W F (ACell F)
  | .message w => copyAdvice w start (c.state k.castSucc) 1
  | .padding v => do
    let w ← assignFixed start (c.rcB k.castSucc) 1 v
    copyAdvice w start (c.state k.castSucc) 1

/-- The region of `add_input` for padded input, pow5.rs:405-468. -/
def addInputBody (c : Config F t) (w : Words F (t + 1)) (input : Fin t → PaddedWord F)
    (start : ℕ) : W F (Words F (t + 1)) := do
  enableSelector start c.sPadAndAdd 1
  let s ← forFin (t + 1) fun i => copyAdvice (w i) start (c.state i) 0
  let inp ← forFin t fun k => loadInput c start k (input k)
  forFin (t + 1) fun i => assignAdvice start (c.state i) 2
    (if h : i.val < t then (s i).value + (inp ⟨i.val, h⟩).value else (s i).value)

/-- All words of the input, if none is missing. -/
def allSome {α : Type} (f : Fin t → Option α) : Option (Fin t → α) :=
  if h : ∀ k, (f k).isSome then some fun k => (f k).get (h k) else none

/-- `add_input`, pow5.rs:396-470. A missing word panics ("Input is not padded", line 434). -/
def addInput (c : Config F t) (L : Layouter F) (w : Words F (t + 1))
    (input : Fin t → Option (PaddedWord F)) : Except Panic (Words F (t + 1) × Layouter F) :=
  match allSome input with
  | none => .error .notPadded
  | some inp => L.assignRegion fun start => .ok (addInputBody c w inp start)

/-- `get_output`, pow5.rs:472-481. -/
def getOutput (w : Words F (t + 1)) : Fin t → Option (ACell F) := fun k => some (w k.castSucc)

/-- `PermuteChip::configure` for `Pow5Chip<F, 3, 2>`, pow5.rs:263-283. -/
def configureChip (S : Params F 2) : StateM (CS F) (Config F 2) := do
  let s0 ← CS.adviceColumn
  let s1 ← CS.adviceColumn
  let s2 ← CS.adviceColumn
  let ps ← CS.adviceColumn
  let c0 ← CS.fixedColumn
  let c1 ← CS.fixedColumn
  let c2 ← CS.fixedColumn
  let c3 ← CS.fixedColumn
  let c4 ← CS.fixedColumn
  let c5 ← CS.fixedColumn
  configure S ⟨![s0, s1, s2], ps, ![c0, c1, c2], ![c3, c4, c5]⟩

/-- `Pow5Chip<F, 3, 2>` as a permutation chip, pow5.rs:263-353, with the default `permute_batch`,
poseidon.rs:74-83. -/
def chip (S : Params F 2) : Chip F 3 where
  Config := Config F 2
  configure := configureChip S
  permute c L w := permute S c L w
  permuteBatch c _ L ws := mapPermute (permute S c) L ws
  permuteBatchBy _ c _ L ws := mapPermute (permute S c) L ws

end Pow5
end Circuit
