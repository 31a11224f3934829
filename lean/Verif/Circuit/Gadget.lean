import Verif.Circuit.Pow5
import Verif.Base.Sponge

/-!
# Model of the in-circuit sponge and hash gadget

Models `/repo/poseidon-circuit/src/poseidon.rs` lines 144-339, over `Pow5Chip`, the only implementation
of `PoseidonSpongeInstructions` (`pow5.rs` lines 355-482). `T = t + 1`, `RATE = t`.

The gadget is generic over `D: Domain`, from which it only uses `D::initial_capacity_element()` (through
`initial_state`) and, in `hash`, `D::padding`. It never reads `D::layout`.
-/

set_option linter.unusedVariables false
set_option linter.unusedSectionVars false

open Halo2

namespace Circuit.Gadget

variable {F : Type} [Field F] {t : ℕ}

/-- `Sponge<F, PoseidonChip, S, M, D, T, RATE>`, poseidon.rs:166-179; the mode `M` is
`Absorbing<PaddedWord<F>, RATE>` or `Squeezing<Word, RATE>`. The chip is passed separately. -/
structure Sponge (F : Type) (M : Type) (t : ℕ) where
  mode : M
  state : Words F (t + 1)

/-- `Absorbing<PaddedWord<F>, RATE>` -/
abbrev AMode (F : Type) (t : ℕ) := Fin t → Option (Pow5.PaddedWord F)
/-- `Squeezing<PoseidonChip::Word, RATE>` -/
abbrev SMode (F : Type) (t : ℕ) := Fin t → Option (ACell F)

/-- `*state = chip.add_input(..)` if there is an input, poseidon.rs:157-159. -/
def stepInput (c : Pow5.Config F t) (L : Layouter F) (state : Words F (t + 1)) :
    Option (AMode F t) → Except Panic (Words F (t + 1) × Layouter F)
  | none => .ok (state, L)
  | some inp => Pow5.addInput c L state inp

/-- `poseidon_sponge`, poseidon.rs:144-162. -/
def poseidonSponge (S : Pow5.Params F t) (c : Pow5.Config F t) (L : Layouter F)
    (state : Words F (t + 1)) (input : Option (AMode F t)) :
    Except Panic (Words F (t + 1) × SMode F t × Layouter F) := do
  let (state, L) ← stepInput c L state input
  let (state, L) ← Pow5.permute S c L state
  return (state, Pow5.getOutput state, L)

/-- `Sponge::new`, poseidon.rs:191-204; `cap` is `D::initial_capacity_element()`. -/
def Sponge.new (c : Pow5.Config F t) (cap : F) (L : Layouter F) :
    Except Panic (Sponge F (AMode F t) t × Layouter F) := do
  let (state, L) ← Pow5.initialState c cap L
  return (⟨fun _ => none, state⟩, L)

/-- `Absorbing::init_with(value)`, primitives.rs:200-210, see `Base.Absorbing.initWith`. -/
def initWith (v : Pow5.PaddedWord F) : Except Panic (AMode F t) :=
  if t = 0 then .error .tryInto else .ok fun k => if k.val = 0 then some v else none

/-- `Sponge::absorb`, poseidon.rs:207-229. -/
def Sponge.absorb (S : Pow5.Params F t) (c : Pow5.Config F t) (L : Layouter F)
    (s : Sponge F (AMode F t) t) (v : Pow5.PaddedWord F) :
    Except Panic (Sponge F (AMode F t) t × Layouter F) :=
  match (List.finRange t).find? (fun k => (s.mode k).isNone) with
  | some k => .ok ({ s with mode := Function.update s.mode k (some v) }, L)
  | none => do
    let (state, _, L) ← poseidonSponge S c L s.state (some s.mode)
    let mode ← initWith v
    return (⟨mode, state⟩, L)

/-- A loop of `absorb` calls, poseidon.rs:326-334. -/
def Sponge.absorbAll (S : Pow5.Params F t) (c : Pow5.Config F t) :
    Layouter F → Sponge F (AMode F t) t → List (Pow5.PaddedWord F) →
      Except Panic (Sponge F (AMode F t) t × Layouter F)
  | L, s, [] => .ok (s, L)
  | L, s, v :: vs => do
    let (s, L) ← s.absorb S c L v
    Sponge.absorbAll S c L s vs

/-- `Sponge::finish_absorbing`, poseidon.rs:233-251. -/
def Sponge.finishAbsorbing (S : Pow5.Params F t) (c : Pow5.Config F t) (L : Layouter F)
    (s : Sponge F (AMode F t) t) : Except Panic (Sponge F (SMode F t) t × Layouter F) := do
  let (state, mode, L) ← poseidonSponge S c L s.state (some s.mode)
  return (⟨mode, state⟩, L)

/-- The `for` loop of `squeeze`, poseidon.rs:266-270: take the first `Some` entry. -/
def takeFirst (m : SMode F t) : Option (ACell F × SMode F t) :=
  match (List.finRange t).find? (fun k => (m k).isSome) with
  | none => none
  | some k => (m k).map fun e => (e, Function.update m k none)

/-- `Sponge::squeeze`, poseidon.rs:264-280. As for the native sponge, the `loop` runs at most twice;
with `RATE = 0` it never exits (`diverge`). -/
def Sponge.squeeze (S : Pow5.Params F t) (c : Pow5.Config F t) (L : Layouter F)
    (s : Sponge F (SMode F t) t) : Except Panic (ACell F × Sponge F (SMode F t) t × Layouter F) :=
  match takeFirst s.mode with
  | some (e, m) => .ok (e, { s with mode := m }, L)
  | none => do
    let (state, mode, L) ← poseidonSponge S c L s.state none
    match takeFirst mode with
    | some (e, m) => .ok (e, ⟨m, state⟩, L)
    | none => .error .diverge

/-- `n` successive calls of `squeeze` (a caller's loop, not a function of the crate). -/
def squeezeMany (S : Pow5.Params F t) (c : Pow5.Config F t) :
    ℕ → Layouter F → Sponge F (SMode F t) t →
      Except Panic (List (ACell F) × Sponge F (SMode F t) t × Layouter F)
  | 0, L, s => .ok ([], s, L)
  | n + 1, L, s => do
    let (x, s, L) ← s.squeeze S c L
    let (xs, s, L) ← squeezeMany S c n L s
    return (x :: xs, s, L)

/-- `Hash::init`, poseidon.rs:306-308, for a domain `D`. -/
def Hash.init (c : Pow5.Config F t) (D : Base.DomainKind) (L : Layouter F) :
    Except Panic (Sponge F (AMode F t) t × Layouter F) :=
  Sponge.new c D.initialCapacity L

/-- `Hash<.., ConstantLength<n>, ..>::hash`, poseidon.rs:321-338. -/
def Hash.hash {n : ℕ} (S : Pow5.Params F t) (c : Pow5.Config F t) (L : Layouter F)
    (s : Sponge F (AMode F t) t) (message : Fin n → ACell F) :
    Except Panic (ACell F × Layouter F) := do
  let pad ← (Base.DomainKind.constantLength n).padding t n
  let (s, L) ← s.absorbAll S c L
    ((List.ofFn message).map Pow5.PaddedWord.message ++ pad.map Pow5.PaddedWord.padding)
  let (s, L) ← s.finishAbsorbing S c L
  let (out, _, L) ← s.squeeze S c L
  return (out, L)

/-- `Hash::init(chip, layouter)?.hash(layouter, message)`: how a circuit uses the gadget, e.g.
pow5.rs:914-918 (in the tests). -/
def hashCells {n : ℕ} (S : Pow5.Params F t) (c : Pow5.Config F t) (L : Layouter F)
    (message : Fin n → ACell F) : Except Panic (ACell F × Layouter F) := do
  let (s, L) ← Hash.init c (.constantLength n) L
  Hash.hash S c L s message

end Circuit.Gadget
