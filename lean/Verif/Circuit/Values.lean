import Verif.Circuit.Gadget

/-!
# Values that may be unknown

Halo2's `Value<F>` is either known or not: key generation and `without_witnesses` synthesise a circuit with unknown
values. The rest of the model computes with known values. Here the assignment code of both permutation chips and of
the gadget is modelled once more as the code has it, with `Value<F>` for the witness: an operation logs a `Value F`. The
hash table itself has known values only (its data are plain field elements).
-/

set_option linter.unusedVariables false
set_option linter.unusedSectionVars false

open Halo2

namespace Halo2

/-- halo2's `circuit::Value<V>`: `Some` if known. -/
abbrev Value (V : Type) := Option V

namespace Value
variable {V V' : Type}

/-- `Value::known` -/
def known (v : V) : Value V := some v
/-- `Value::unknown` -/
def unknown : Value V := none
/-- `Value::map` -/
def map (f : V → V') : Value V → Value V'
  | some v => some (f v)
  | none => none
/-- `Value::zip` -/
def zip : Value V → Value V' → Value (V × V')
  | some a, some b => some (a, b)
  | _, _ => none
/-- `impl Add for Value<V>` -/
def add [Add V] : Value V → Value V → Value V
  | some a, some b => some (a + b)
  | _, _ => none
/-- `impl Mul for Value<V>` -/
def mul [Mul V] : Value V → Value V → Value V
  | some a, some b => some (a * b)
  | _, _ => none

end Value
end Halo2

namespace Circuit.Vals

open Septidon (RelCell SBox Septuple)

variable {F : Type} [Field F]

/-- `util::map_array`, util.rs:5-13. -/
def mapArray {α β : Type} (a : Fin 3 → α) (f : α → β) : Fin 3 → β := ![f (a 0), f (a 1), f (a 2)]

/-- `util::join_values`, util.rs:28-33. -/
def joinValues (v : Fin 3 → Value F) : Value (Fin 3 → F) :=
  Value.map (fun p => ![p.1.1, p.1.2, p.2]) (Value.zip (Value.zip (v 0) (v 1)) (v 2))

/-- `util::split_values`, util.rs:35-41. -/
def splitValues (v : Value (Fin 3 → F)) : Fin 3 → Value F :=
  ![v.map fun w => w 0, v.map fun w => w 1, v.map fun w => w 2]

/-- `split_values(join_values(s).map(|s| matmul::value(mds(), s)))`, full_round.rs:50-51,
septuple_round.rs:114, transition_round.rs:108-109. -/
def matmulValues (m : Base.Mds F 3) (s : Fin 3 → Value F) : Fin 3 → Value F :=
  splitValues (Value.map (Septidon.matmulValue m) (joinValues s))

/-- `util::select::value`, util.rs:113-115 (never called). -/
def selectValue (selector whenTrue whenFalse : F) : F := selector * whenTrue + (1 - selector) * whenFalse

/-- `util::or::expr`, util.rs:124-128 (never called). -/
def orExpr (a b : Expr F) : Expr F := Expr.const 1 - (Expr.const 1 - a) * (Expr.const 1 - b)

/-- `util::or::value`, util.rs:131-135 (never called). -/
def orValue (a b : F) : F := 1 - (1 - a) * (1 - b)

/-! ## Septidon -/

/-- `Cell::assign`, state.rs:46-56. -/
def cellAssign (start : ℕ) (c : RelCell) (origin : ℕ) (v : Value F) : W (Value F) Unit := do
  let _ ← assignAdvice start c.column ((origin : ℤ) + c.offset).toNat v
  return ()

/-- `SBox::assign`, state.rs:74-95. -/
def sboxAssign (start : ℕ) (s : SBox) (offset : ℕ) (rc : F) (input : Value F) : W (Value F) (Value F) := do
  let _ ← assignFixed start s.roundConstant (offset + s.input.regionOffset) (Value.known rc)
  let _ ← assignAdvice start s.input.column (offset + s.input.regionOffset) input
  return Value.map (fun i => Septidon.sboxValue i rc) input

/-- `ControlChip::assign_with_offset`, control.rs:51-63. -/
def controlAssign (start isLast begin_ : ℕ) : W (Value F) Unit := do
  let _ ← assignFixed start isLast (7 + begin_) (Value.known (1 : F))
  return ()

/-- `FullRoundChip::assign`, full_round.rs:38-52. -/
def fullAssign (m : Base.Mds F 3) (start : ℕ) (full : Fin 3 → SBox) (offset : ℕ) (rc : Fin 3 → F)
    (input : Fin 3 → Value F) : W (Value F) (Fin 3 → Value F) := do
  let o0 ← sboxAssign start (full 0) offset (rc 0) (input 0)
  let o1 ← sboxAssign start (full 1) offset (rc 1) (input 1)
  let o2 ← sboxAssign start (full 2) offset (rc 2) (input 2)
  return matmulValues m ![o0, o1, o2]

/-- `assign_partial_round` applied to the S-boxes in turn, septuple_round.rs:109-122. -/
def assignPartialRounds (m : Base.Mds F 3) (start offset : ℕ) :
    List (SBox × F) → (Fin 3 → Value F) → W (Value F) (Fin 3 → Value F)
  | [], st => pure st
  | (s, rc) :: rest, st => do
    let o ← sboxAssign start s offset rc (st 0)
    assignPartialRounds m start offset rest (matmulValues m ![o, st 1, st 2])

/-- `SeptupleRoundChip::assign`, septuple_round.rs:97-125. -/
def septupleAssign (m : Base.Mds F 3) (start : ℕ) (c : Septuple) (offset : ℕ) (rcs : List F)
    (input : Fin 3 → Value F) : W (Value F) (Fin 3 → Value F) := do
  cellAssign start (c.linears 0) offset (input 1)
  cellAssign start (c.linears 1) offset (input 2)
  assignPartialRounds m start offset ((c.first :: c.following).zip rcs) input

/-- `TransitionRoundChip::assign_final_state`, transition_round.rs:113-125 (also the cell assignments of
`assign_first_partial_state`, transition_round.rs:94-98). -/
def transitionAssignCells (start col offset : ℕ) (input : Fin 3 → Value F) : W (Value F) Unit := do
  cellAssign start (Septidon.transitionInput col 0) offset (input 0)
  cellAssign start (Septidon.transitionInput col 1) offset (input 1)
  cellAssign start (Septidon.transitionInput col 2) offset (input 2)
  cellAssign start (Septidon.transitionHelper col) offset (Value.known 0)

/-- `TransitionRoundChip::assign_first_partial_state` and `first_partial_round`, transition_round.rs:87-110. -/
def transitionAssign (m : Base.Mds F 3) (rc4 : F) (start col middle : ℕ) (input : Fin 3 → Value F) :
    W (Value F) (Fin 3 → Value F) := do
  transitionAssignCells start col middle input
  return matmulValues m ![Value.map (fun f => Septidon.sboxValue f rc4) (input 0), input 1, input 2]

/-- `assign_permutation_with_offset`, septidon_chip.rs:125-184. -/
def assignPermutation (m : Base.Mds F 3) (rc : ℕ → Fin 3 → F) (c : Septidon.Config) (start : ℕ)
    (initial : Fin 3 → Value F) (begin_ : ℕ) : W (Value F) (Fin 3 → Value F) := do
  controlAssign start c.isLast begin_
  let state ← W.loop (fun o s => fullAssign m start c.full (o + begin_) (rc o) s) 4 initial
  let state ← transitionAssign m (rc 4 0) start c.transition (3 + begin_) state
  let state ← W.loop (fun o s => septupleAssign m start c.septuple (o + begin_)
    ((List.range 7).map fun j => rc (5 + o * 7 + j) 0) s) 8 state
  let state ← W.loop (fun o s => fullAssign m start c.full (o + 4 + begin_) (rc (o + 4 + 57)) s) 4
    state
  transitionAssignCells start c.transition (7 + begin_) state
  return state

/-- The region of `permute` with `lastOffset = 0`, and one iteration of `permute_batch`,
instruction.rs:47-84, 118-152. -/
def septidonBody (m : Base.Mds F 3) (rc : ℕ → Fin 3 → F) (c : Septidon.Config) (initial : Words (Value F) 3)
    (lastOffset start : ℕ) : W (Value F) (Words (Value F) 3) := do
  let _ ← copyAdvice (initial 0) start (c.initialCells 0).column
    (lastOffset + (c.initialCells 0).offset.toNat)
  let _ ← copyAdvice (initial 1) start (c.initialCells 1).column
    (lastOffset + (c.initialCells 1).offset.toNat)
  let _ ← copyAdvice (initial 2) start (c.initialCells 2).column
    (lastOffset + (c.initialCells 2).offset.toNat)
  let final ← assignPermutation m rc c start (mapArray initial fun w => w.value) lastOffset
  let o0 ← assignAdvice start (c.finalCells 0).column
    (lastOffset + (c.finalCells 0).offset.toNat) (final 0)
  let o1 ← assignAdvice start (c.finalCells 1).column
    (lastOffset + (c.finalCells 1).offset.toNat) (final 1)
  let o2 ← assignAdvice start (c.finalCells 2).column
    (lastOffset + (c.finalCells 2).offset.toNat) (final 2)
  return ![o0, o1, o2]

/-- `PoseidonInstructions::permute`, instruction.rs:42-85. -/
def septidonPermute (m : Base.Mds F 3) (rc : ℕ → Fin 3 → F) (c : Septidon.Config) (L : Layouter (Value F))
    (initial : Words (Value F) 3) : Except Panic (Words (Value F) 3 × Layouter (Value F)) :=
  L.assignRegion fun start => .ok (septidonBody m rc c initial 0 start)

/-- Second call of the closure of `permute_batch`, instruction.rs:118-156. -/
def batchBody (m : Base.Mds F 3) (rc : ℕ → Fin 3 → F) (c : Septidon.Config) :
    List (Words (Value F) 3) → ℕ → ℕ → W (Value F) (List (Words (Value F) 3))
  | [], _, _ => pure []
  | s :: rest, lastOffset, start => do
    let o ← septidonBody m rc c s lastOffset start
    let os ← batchBody m rc c rest (lastOffset + 8) start
    return o :: os

/-- `PoseidonInstructions::permute_batch`, instruction.rs:87-163. -/
def septidonBatch (m : Base.Mds F 3) (rc : ℕ → Fin 3 → F) (c : Septidon.Config) (threads : ℕ)
    (L : Layouter (Value F)) (initials : List (Words (Value F) 3)) :
    Except Panic (List (Words (Value F) 3) × Layouter (Value F)) := do
  let (outs, L') ← L.assignRegions ((chunksOf (initials.length / threads + 2) initials).map
    fun chunk => ([Op.advice (c.finalCells 0).column (chunk.length * 8 - 1) (Value.known 0)],
      fun start => .ok (batchBody m rc c chunk 0 start)))
  return (outs.flatten, L')

/-! ## Pow5 -/

section
variable {t : ℕ}
open Pow5 (Config Params)

/-- `fold(Value::known(F::ZERO), |acc, (j, r_j)| acc + Value::known(m_i[j]) * r_j)`, pow5.rs:528-534, 565-572,
605-614, 637-646. -/
def mulMds (m : Base.Mds F (t + 1)) (r : Fin (t + 1) → Value F) : Fin (t + 1) → Value F :=
  fun i => (List.finRange (t + 1)).foldl
    (fun acc j => Value.add acc (Value.mul (Value.known (m i j)) (r j))) (Value.known 0)

/-- `Pow5State::round`, pow5.rs:668-708. -/
def roundRow (c : Config F t) (start round offset gate : ℕ)
    (roundFn : W (Value F) (Fin (t + 1) → Value F)) : W (Value F) (Words (Value F) (t + 1)) := do
  enableSelector start gate offset
  let _ ← forFin (t + 1) fun i => assignFixed start (c.rcA i) offset (Value.known (c.rc round i))
  let next ← roundFn
  forFin (t + 1) fun i => assignAdvice start (c.state i) (offset + 1) (next i)

/-- `Pow5State::full_round`, pow5.rs:514-538. -/
def fullRound (c : Config F t) (start : ℕ) (s : Words (Value F) (t + 1)) (round offset : ℕ) :
    W (Value F) (Words (Value F) (t + 1)) :=
  roundRow c start round offset c.sFull
    (pure (mulMds c.mReg fun i =>
      Value.map (fun q => q ^ 5) (Value.add (s i).value (Value.known (c.rc round i)))))

/-- `Pow5State::partial_round_single`, pow5.rs:540-577. -/
def partialRoundSingle (c : Config F t) (start : ℕ) (s : Words (Value F) (t + 1)) (round offset : ℕ) :
    W (Value F) (Words (Value F) (t + 1)) :=
  roundRow c start round offset c.sPartialSingle
    (pure (mulMds c.mReg fun i =>
      Value.map (fun v => if i = 0 then v ^ 5 else v) (Value.map (fun v => v + c.rc round i) (s i).value)))

/-- `Pow5State::partial_round`, pow5.rs:579-650. -/
def partialRound (c : Config F t) (start : ℕ) (s : Words (Value F) (t + 1)) (round offset : ℕ) :
    W (Value F) (Words (Value F) (t + 1)) :=
  roundRow c start round offset c.sPartial do
    let r : Fin (t + 1) → Value F := fun i =>
      if i = 0 then Value.map (fun v => v ^ 5) (Value.add (s i).value (Value.known (c.rc round i)))
      else Value.add (Value.known (c.rc round i)) (s i).value
    let _ ← assignAdvice start c.partialSbox offset (r 0)
    let pMid := mulMds c.mReg r
    let _ ← forFin (t + 1) fun i => assignFixed start (c.rcB i) offset (Value.known (c.rc (round + 1) i))
    let rMid : Fin (t + 1) → Value F := fun i =>
      if i = 0 then Value.map (fun v => v ^ 5) (Value.add (pMid i) (Value.known (c.rc (round + 1) i)))
      else Value.add (Value.known (c.rc (round + 1) i)) (pMid i)
    pure (mulMds c.mReg rMid)

/-- `Pow5State::load`, pow5.rs:652-666. -/
def load (c : Config F t) (start : ℕ) (w : Words (Value F) (t + 1)) : W (Value F) (Words (Value F) (t + 1)) :=
  forFin (t + 1) fun i => copyAdvice (w i) start (c.state i) 0

/-- The last partial round if their number is odd, pow5.rs:322-331. -/
def oddRound (S : Params F t) (c : Config F t) (start : ℕ) (s : Words (Value F) (t + 1)) :
    W (Value F) (Words (Value F) (t + 1)) :=
  if c.halfPartial * 2 < S.partialRounds then
    partialRoundSingle c start s (c.halfFull + 2 * c.halfPartial) (c.halfFull + c.halfPartial)
  else pure s

/-- The region of `permute`, pow5.rs:300-351. -/
def pow5Body (S : Params F t) (c : Config F t) (w : Words (Value F) (t + 1)) (start : ℕ) :
    W (Value F) (Words (Value F) (t + 1)) := do
  let s ← load c start w
  let s ← W.loop (fun r s => fullRound c start s r r) c.halfFull s
  let s ← W.loop (fun r s => partialRound c start s (c.halfFull + 2 * r) (c.halfFull + r))
    c.halfPartial s
  let s ← oddRound S c start s
  W.loop (fun r s => fullRound c start s
    (c.halfFull + 2 * c.halfPartial + S.partialRounds % 2 + r)
    (c.halfFull + c.halfPartial + S.partialRounds % 2 + r)) c.halfFull s

/-- `PoseidonInstructions::permute`, pow5.rs:290-353. -/
def pow5Permute (S : Params F t) (c : Config F t) (L : Layouter (Value F)) (w : Words (Value F) (t + 1)) :
    Except Panic (Words (Value F) (t + 1) × Layouter (Value F)) :=
  L.assignRegion fun start => .ok (pow5Body S c w start)

/-- `PaddedWord`, poseidon.rs:27-32. A padding word is a plain field element. -/
inductive PaddedWord (F : Type) where
  | message (c : ACell (Value F))
  | padding (v : F)

/-- `initial_state`, pow5.rs:363-394. -/
def initialState (c : Config F t) (cap : F) (L : Layouter (Value F)) :
    Except Panic (Words (Value F) (t + 1) × Layouter (Value F)) :=
  L.assignRegion fun start => .ok (forFin (t + 1) fun i =>
    assignAdviceFromConstant start (c.state i) 0 (Value.known (if i = Fin.last t then cap else 0)))

/-- The closure `load_input_word` for a padded word, pow5.rs:424-444. -/
def loadInput (c : Config F t) (start : ℕ) (k : Fin t) : PaddedWord F → W (Value F) (ACell (Value F))
  | .message w => copyAdvice w start (c.state k.castSucc) 1
  | .padding v => do
    let w ← assignFixed start (c.rcB k.castSucc) 1 (Value.known v)
    copyAdvice w start (c.state k.castSucc) 1

/-- The region of `add_input` for padded input, pow5.rs:405-468. -/
def addInputBody (c : Config F t) (w : Words (Value F) (t + 1)) (input : Fin t → PaddedWord F)
    (start : ℕ) : W (Value F) (Words (Value F) (t + 1)) := do
  enableSelector start c.sPadAndAdd 1
  let s ← forFin (t + 1) fun i => copyAdvice (w i) start (c.state i) 0
  let inp ← forFin t fun k => loadInput c start k (input k)
  forFin (t + 1) fun i => assignAdvice start (c.state i) 2
    (if h : i.val < t then Value.add (s i).value (inp ⟨i.val, h⟩).value else (s i).value)

/-- `add_input`, pow5.rs:396-470. -/
def addInput (c : Config F t) (L : Layouter (Value F)) (w : Words (Value F) (t + 1))
    (input : Fin t → Option (PaddedWord F)) : Except Panic (Words (Value F) (t + 1) × Layouter (Value F)) :=
  match Pow5.allSome input with
  | none => .error .notPadded
  | some inp => L.assignRegion fun start => .ok (addInputBody c w inp start)

/-- `get_output`, pow5.rs:472-481. -/
def getOutput (w : Words (Value F) (t + 1)) : Fin t → Option (ACell (Value F)) := fun k => some (w k.castSucc)

/-! ## The gadget -/

/-- `Absorbing<PaddedWord<F>, RATE>` -/
abbrev AMode (F : Type) (t : ℕ) := Fin t → Option (PaddedWord F)
/-- `Squeezing<PoseidonChip::Word, RATE>` -/
abbrev SMode (F : Type) (t : ℕ) := Fin t → Option (ACell (Value F))

/-- `Sponge`, poseidon.rs:166-179. -/
structure Sponge (F : Type) (M : Type) (t : ℕ) where
  mode : M
  state : Words (Value F) (t + 1)

/-- poseidon.rs:157-159 -/
def stepInput (c : Config F t) (L : Layouter (Value F)) (state : Words (Value F) (t + 1)) :
    Option (AMode F t) → Except Panic (Words (Value F) (t + 1) × Layouter (Value F))
  | none => .ok (state, L)
  | some inp => addInput c L state inp

/-- `poseidon_sponge`, poseidon.rs:144-162. -/
def poseidonSponge (S : Params F t) (c : Config F t) (L : Layouter (Value F))
    (state : Words (Value F) (t + 1)) (input : Option (AMode F t)) :
    Except Panic (Words (Value F) (t + 1) × SMode F t × Layouter (Value F)) := do
  let (state, L) ← stepInput c L state input
  let (state, L) ← pow5Permute S c L state
  return (state, getOutput state, L)

/-- `Sponge::new`, poseidon.rs:191-204. -/
def Sponge.new (c : Config F t) (cap : F) (L : Layouter (Value F)) :
    Except Panic (Sponge F (AMode F t) t × Layouter (Value F)) := do
  let (state, L) ← initialState c cap L
  return (⟨fun _ => none, state⟩, L)

/-- `Absorbing::init_with(value)`, primitives.rs:200-210. -/
def initWith (v : PaddedWord F) : Except Panic (AMode F t) :=
  if t = 0 then .error .tryInto else .ok fun k => if k.val = 0 then some v else none

/-- `Sponge::absorb`, poseidon.rs:207-229. -/
def Sponge.absorb (S : Params F t) (c : Config F t) (L : Layouter (Value F))
    (s : Sponge F (AMode F t) t) (v : PaddedWord F) :
    Except Panic (Sponge F (AMode F t) t × Layouter (Value F)) :=
  match (List.finRange t).find? (fun k => (s.mode k).isNone) with
  | some k => .ok ({ s with mode := Function.update s.mode k (some v) }, L)
  | none => do
    let (state, _, L) ← poseidonSponge S c L s.state (some s.mode)
    let mode ← initWith v
    return (⟨mode, state⟩, L)

/-- A loop of `absorb` calls, poseidon.rs:326-334. -/
def Sponge.absorbAll (S : Params F t) (c : Config F t) :
    Layouter (Value F) → Sponge F (AMode F t) t → List (PaddedWord F) →
      Except Panic (Sponge F (AMode F t) t × Layouter (Value F))
  | L, s, [] => .ok (s, L)
  | L, s, v :: vs => do
    let (s, L) ← s.absorb S c L v
    Sponge.absorbAll S c L s vs

/-- `Sponge::finish_absorbing`, poseidon.rs:233-251. -/
def Sponge.finishAbsorbing (S : Params F t) (c : Config F t) (L : Layouter (Value F))
    (s : Sponge F (AMode F t) t) : Except Panic (Sponge F (SMode F t) t × Layouter (Value F)) := do
  let (state, mode, L) ← poseidonSponge S c L s.state (some s.mode)
  return (⟨mode, state⟩, L)

/-- The `for` loop of `squeeze`, poseidon.rs:266-270. -/
def takeFirst (m : SMode F t) : Option (ACell (Value F) × SMode F t) :=
  match (List.finRange t).find? (fun k => (m k).isSome) with
  | none => none
  | some k => (m k).map fun e => (e, Function.update m k none)

/-- `Sponge::squeeze`, poseidon.rs:264-280. -/
def Sponge.squeeze (S : Params F t) (c : Config F t) (L : Layouter (Value F))
    (s : Sponge F (SMode F t) t) :
    Except Panic (ACell (Value F) × Sponge F (SMode F t) t × Layouter (Value F)) :=
  match takeFirst s.mode with
  | some (e, m) => .ok (e, { s with mode := m }, L)
  | none => do
    let (state, mode, L) ← poseidonSponge S c L s.state none
    match takeFirst mode with
    | some (e, m) => .ok (e, ⟨m, state⟩, L)
    | none => .error .diverge

/-- `Hash<.., ConstantLength<n>, ..>::hash`, poseidon.rs:321-338. -/
def hash {n : ℕ} (S : Params F t) (c : Config F t) (L : Layouter (Value F))
    (s : Sponge F (AMode F t) t) (message : Fin n → ACell (Value F)) :
    Except Panic (ACell (Value F) × Layouter (Value F)) := do
  let pad ← (Base.DomainKind.constantLength n).padding t n
  let (s, L) ← s.absorbAll S c L
    ((List.ofFn message).map PaddedWord.message ++ pad.map PaddedWord.padding)
  let (s, L) ← s.finishAbsorbing S c L
  let (out, _, L) ← s.squeeze S c L
  return (out, L)

/-- `Hash::init(chip, layouter)?.hash(layouter, message)`, poseidon.rs:306-338. -/
def hashCells {n : ℕ} (S : Params F t) (c : Config F t) (L : Layouter (Value F))
    (message : Fin n → ACell (Value F)) : Except Panic (ACell (Value F) × Layouter (Value F)) := do
  let (s, L) ← Sponge.new c (Base.DomainKind.constantLength n).initialCapacity L
  hash S c L s message

end
end Circuit.Vals
