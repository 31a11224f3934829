import Verif.Spec

/-!
# Model of the native Poseidon permutation

Models `poseidon-base/src/primitives.rs` lines 33-149 and
`poseidon-base/src/primitives/p128pow5t3{,_compact}.rs`.
-/

/-- The panics a modelled function can raise. Models Rust panics (failed `assert!`, `expect`,
index out of range); the payload only names the site. -/
inductive Panic where
  /-- slice index out of range -/
  | index
  /-- `expect("poseidon_sponge is called with a padded input")`, primitives.rs:167 -/
  | notPadded
  /-- `assert!(layout_offset <= T - RATE)`, primitives.rs:163 -/
  | layout
  /-- `assert_eq!(input_len, L)`, primitives.rs:361 -/
  | length
  /-- integer overflow (panics in debug builds, wraps in release builds) -/
  | overflow
  /-- `try_into().unwrap()` of a vector of the wrong length, primitives.rs:206-207 -/
  | tryInto
  /-- a loop that never exits -/
  | diverge
  /-- `assert!(!sum.is_zero_vartime())`, mds.rs:57 -/
  | zeroSum
  /-- `.invert().unwrap()` of zero -/
  | invertZero
  /-- `from_str_vartime(..).unwrap()` of a string that is not a number, bn256/fp.rs:20, 28 -/
  | badNumber
  /-- `assert_ne!(0, new_inps.len())`, hash.rs:297 -/
  | emptyStream
  /-- `assert_eq!(new_inps.len(), ctrl_series.len())`, hash.rs:308 -/
  | streamTooLong
  /-- `assert_eq!(self.inputs.len(), self.controls.len())`, hash.rs:311 -/
  | controlsMisaligned
  /-- `assert!(self.calcs >= ...)`, hash.rs:424 -/
  | calcsTooSmall
  /-- `assert_eq!(*ck, state[0], ..)`, hash.rs:465 and 625 -/
  | checkMismatch
  /-- `Error::Synthesis` of halo2's `TableLayouter::assign_cell` for a column filled before, hash.rs:734-740 -/
  | tableUsed
  /-- `assert_eq!(got, expect)`, septidon/tests.rs:62 -/
  | testMismatch
  /-- `assert!`s and `expect("WIDTH > 0")` of `Pow5Chip::configure`, pow5.rs:81-84, 126, 158, 194 -/
  | badSpec
  /-- `Error::NotEnoughColumnsForConstants` -/
  | noConstantColumn
  deriving DecidableEq, Repr

namespace Base

/-- `State<F, T> = [F; T]`, primitives.rs:34. -/
abbrev State (F : Type) (T : ℕ) := Fin T → F

/-- `Mds<F, T> = [[F; T]; T]`, primitives.rs:40 (row-major: `mds i j` is `mds[i][j]`). -/
abbrev Mds (F : Type) (T : ℕ) := Fin T → Fin T → F

/-- The part of `trait Spec`, primitives.rs:43-88, that `permute` uses: the round numbers and the
S-box. The constants are passed separately, as in the code. -/
structure RSpec (F : Type) where
  fullRounds : ℕ
  partialRounds : ℕ
  sbox : F → F

section
variable {F : Type} [Field F] {T : ℕ} [NeZero T]

/-- The closure `apply_mds`, primitives.rs:112-122: `new_state[i] += mds[i][j] * state[j]` for `j` in
`0..T`, starting from zero. -/
def applyMds (mds : Mds F T) (state : State F T) : State F T :=
  fun i => (List.finRange T).foldl (fun acc j => acc + mds i j * state j) 0

/-- The closure `full_round`, primitives.rs:124-129. -/
def fullRound (S : RSpec F) (mds : Mds F T) (state rcs : State F T) : State F T :=
  applyMds mds (fun i => S.sbox (state i + rcs i))

/-- The closure `part_round`, primitives.rs:131-138: add all constants, then
`state[0] = sbox(state[0])`, then the matrix. -/
def partRound (S : RSpec F) (mds : Mds F T) (state rcs : State F T) : State F T :=
  let state := fun i => state i + rcs i
  let state := Function.update state 0 (S.sbox (state 0))
  applyMds mds state

/-- `permute`, primitives.rs:99-149: the chain of `r_f` full, `r_p` partial and `r_f` full round
closures (`r_f = full_rounds() / 2`) is zipped with the round constants and folded over the state.
`zip` stops at the shorter of the two. -/
def permute (S : RSpec F) (mds : Mds F T) (roundConstants : List (State F T))
    (state : State F T) : State F T :=
  let rf := S.fullRounds / 2
  let rp := S.partialRounds
  let rounds : List (State F T → State F T → State F T) :=
    List.replicate rf (fullRound S mds) ++ List.replicate rp (partRound S mds) ++
      List.replicate rf (fullRound S mds)
  (rounds.zip roundConstants).foldl (fun state r => r.1 state r.2) state

/-- The S-box `val.pow_vartime([5])` of `P128Pow5T3`, p128pow5t3.rs:37-39. `pow_vartime` is
modelled by the field's power operation. -/
def sboxPow (val : F) : F := val ^ 5

/-- The S-box of `P128Pow5T3Compact`, p128pow5t3_compact.rs:27-32. -/
def sboxCompact (val : F) : F :=
  let a := val * val
  let b := a * a
  b * val

/-- `impl Spec for P128Pow5T3`, p128pow5t3.rs:28-48; `rp` is `Fp::partial_rounds()`. -/
def p128Pow5T3 (rp : ℕ) : RSpec F := ⟨8, rp, sboxPow⟩

/-- `impl Spec for P128Pow5T3Compact`, p128pow5t3_compact.rs:16-36. -/
def p128Pow5T3Compact (rp : ℕ) : RSpec F := ⟨8, rp, sboxCompact⟩

/-- `mat_mul`, p128pow5t3_compact.rs:63-72. -/
def matMul (mat : Mds F T) (input : State F T) : State F T :=
  fun i => (List.finRange T).foldl (fun acc j => acc + mat i j * input j) 0

/-- The tail returned by `vec_remove_tail`, p128pow5t3_compact.rs:80-87. -/
def tailOf (a : State F T) : State F T := fun i => if i = 0 then 0 else a i

/-- What `vec_remove_tail` leaves in its argument, p128pow5t3_compact.rs:80-87. -/
def headOf (a : State F T) : State F T := fun i => if i = 0 then a i else 0

/-- One iteration of the loop in `P128Pow5T3Compact::constants`, p128pow5t3_compact.rs:45-56.
`rc[i]` and `rc[i+1]` are indexed, hence the panics. -/
def compactStep (mds : Mds F T) (rc : List (State F T)) (i : ℕ) : Except Panic (List (State F T)) :=
  match rc[i]? with
  | none => .error .index
  | some a =>
    let rc := rc.set i (headOf a)
    let carry := matMul mds (tailOf a)
    match rc[i + 1]? with
    | none => .error .index
    | some b => .ok (rc.set (i + 1) (fun k => b k + carry k))

/-- The loop `for i in first_partial..after_partials`, p128pow5t3_compact.rs:41-57, over the raw
round constants. (`n` iterations starting at `i`.) -/
def compactLoop (mds : Mds F T) : ℕ → ℕ → List (State F T) → Except Panic (List (State F T))
  | _, 0, rc => .ok rc
  | i, n + 1, rc => do
    let rc ← compactStep mds rc i
    compactLoop mds (i + 1) n rc

/-- `P128Pow5T3Compact::constants().0`, p128pow5t3_compact.rs:38-60, as a function of the raw
constants, the matrix and the round numbers. The other two components are the raw ones. -/
def compactConstants (fullRounds partialRounds : ℕ) (mds : Mds F T) (raw : List (State F T)) :
    Except Panic (List (State F T)) :=
  compactLoop mds (fullRounds / 2) partialRounds raw

end
end Base
