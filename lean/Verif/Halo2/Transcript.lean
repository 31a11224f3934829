import Verif.Halo2.ArgumentKzg
import Mathlib.Data.Fintype.Basic

/-!
# Transcripts

The proofs of `/repo/poseidon-circuit/tests/hash_proving.rs`, lines 113-177, are not interactive: challenges are hashes of
what has been written so far (`Blake2bWrite`, `Blake2bRead` and `Challenge255`, lines 13-15, 120 and 158). What is
written are commitments and claimed values, not polynomials. No halo2 source lives in `/repo`; this file is a trusted model of the
transcript of the halo2 version named in `/repo/Cargo.toml`, lines 14 and 29.

Simplifications: the hash is a random oracle, sampled when it is asked; challenges squeezed one after the other with nothing
written in between are one answer; the digest of the key and the instances are the same in all questions and left out.
-/

namespace Halo2
open Polynomial

/-! ### Questions and answers -/

namespace Oracle
variable {I S A : Type} {B : I → Type}

/-- Moves with the answers they got, the last one first. A move may ask several questions, numbered by `I`. -/
abbrev Log (S : Type) {I : Type} (B : I → Type) := List (S × ((i : I) → B i))

open Classical in
/-- The answers to a move: `κ i s` is what is hashed for question `i`, if `s` asks it. What has been asked before gets the
answer it got, anything else the next random one. -/
noncomputable def reply (κ : I → S → Option A) (h : Log S B) (s : S) (new : (i : I) → B i) : (i : I) → B i := fun i =>
  match h.find? fun e => decide (κ i s ≠ none ∧ κ i e.1 = κ i s) with
  | some e => e.2 i
  | none => new i

/-- The first `j` moves of a player that sees all answers before its next move. -/
noncomputable def run (κ : I → S → Option A) (P : Log S B → S) (t : ℕ → (i : I) → B i) : ℕ → Log S B
  | 0 => []
  | j + 1 => (P (run κ P t j), reply κ (run κ P t j) (P (run κ P t j)) (t j)) :: run κ P t j

end Oracle

/-! ### The transcript of a proof -/

/-- The challenges: `θ`; `β` and `γ`; `y`; `x`; `y` and `v` of the opening; `u` of the opening. -/
inductive Stage where
  | theta | betaGamma | y | x | yv | u
deriving DecidableEq

instance : Fintype Stage := ⟨{.theta, .betaGamma, .y, .x, .yv, .u}, fun i => by cases i <;> decide⟩

/-- Their order. -/
def Stage.rank : Stage → ℕ
  | .theta => 0 | .betaGamma => 1 | .y => 2 | .x => 3 | .yv => 4 | .u => 5

/-- One challenge or two. -/
@[reducible] def Draw (F : Type) : Stage → Type
  | .theta => F | .betaGamma => F × F | .y => F | .x => F | .yv => F × F | .u => F

/-- The challenges of one proof. -/
abbrev Draws (F : Type) := (i : Stage) → Draw F i

/-- The challenges as arguments of `KzgProver`. -/
def Draws.tuple {F : Type} (c : Draws F) : (F × F × F × F × F) × F × F × F :=
  ((c .theta, (c .betaGamma).1, (c .betaGamma).2, c .y, c .x), (c .yv).1, (c .yv).2, c .u)

/-- Polynomials behind the commitments that are hashed. -/
inductive Part where
  | advice (c : ℕ) | input (i : ℕ) | table (i : ℕ) | zPerm (i : ℕ) | zLookup (i : ℕ) | quotient (i : ℕ) | first

/-- The first challenge after a commitment. -/
def Part.stage : Part → Stage
  | .advice _ => .theta | .input _ => .betaGamma | .table _ => .betaGamma | .zPerm _ => .y | .zLookup _ => .y
  | .quotient _ => .x | .first => .u

/-- All that a proof consists of, but for the challenges, with the polynomials behind the commitments. -/
structure KzgScript (F : Type) [Field F] where
  messages : Messages F
  quotient : ℕ → F[X]
  values : Values F
  first : F[X]
  second : F[X]

namespace KzgScript
variable {F : Type} [Field F]

/-- The polynomials that are hashed. -/
def part (s : KzgScript F) : Part → F[X]
  | .advice c => s.messages.advice c
  | .input i => (s.messages.permuted i).1
  | .table i => (s.messages.permuted i).2
  | .zPerm i => s.messages.zPerm i
  | .zLookup i => s.messages.zLookup i
  | .quotient i => s.quotient i
  | .first => s.first

/-- All polynomials can be committed to. -/
structure Short (s : KzgScript F) (n : ℕ) : Prop where
  part : ∀ p, (s.part p).degree < n
  second : s.second.degree < n

/-- Those before a challenge can. -/
def ShortUpTo (s : KzgScript F) (n : ℕ) (i : Stage) : Prop := ∀ p, p.stage.rank ≤ i.rank → (s.part p).degree < n

section
variable {G G2 GT : Type} [AddCommGroup G] [Module F G] [AddCommGroup G2] [Module F G2] [AddCommGroup GT] [Module F GT]

/-- What has been written before a challenge: commitments, and the claimed values after `x`. -/
noncomputable def written (τ : F) (g : G) (n : ℕ) (i : Stage) (s : KzgScript F) : (Part → Option G) × Option (Values F) :=
  (fun p => if p.stage.rank ≤ i.rank then some (commit τ g n (s.part p)) else none,
   if Stage.yv.rank ≤ i.rank then some s.values else none)

open Classical in
/-- The question for a challenge. A move is a script and the last challenge that is asked for: the beginning of the script
up to there has to consist of polynomials that can be committed to, the rest does not matter. -/
noncomputable def question (τ : F) (g : G) (n : ℕ) (i : Stage) (s : KzgScript F × Stage) :
    Option ((Part → Option G) × Option (Values F)) :=
  if i.rank ≤ s.2.rank ∧ s.1.ShortUpTo n i then some (s.1.written τ g n i) else none

/-- `verify_proof`, for challenges `θ, β, γ, y, x` of the argument and `y, v, u` of the opening. -/
def Accepts (s : KzgScript F) (K : Key F) (E : Pairing F G G2 GT) (τ : F) (c : (F × F × F × F × F) × F × F × F) : Prop :=
  c.1.2.2.2.2 ^ K.n ≠ 1 ∧
    Shplonk.Accepts E τ (K.claims s.values c.1.1 c.1.2.1 c.1.2.2.1 c.1.2.2.2.1 c.1.2.2.2.2)
      (K.commitments τ E.g s.messages s.quotient c.1.2.2.2.2) (commit τ E.g K.n s.first) (commit τ E.g K.n s.second)
      c.2.1 c.2.2.1 c.2.2.2

end
end KzgScript

/-- The script of an interactive prover for given challenges. -/
def KzgProver.script {F : Type} [Field F] (P : KzgProver F) (c : (F × F × F × F × F) × F × F × F) : KzgScript F :=
  ⟨P.messages c.1.1 c.1.2.1 c.1.2.2.1, P.quotient c.1.1 c.1.2.1 c.1.2.2.1 c.1.2.2.2.1, P.values c.1,
    P.first c.1 c.2.1 c.2.2.1, P.second c.1 c.2.1 c.2.2.1 c.2.2.2⟩

/-- The prover that asks the oracle for one challenge after the other (`create_proof`). -/
def KzgProver.ask {F : Type} [Field F] (P : KzgProver F) (h : Oracle.Log (KzgScript F × Stage) (Draw F)) :
    KzgScript F × Stage :=
  (match h with
    | [] => P.script 0
    | e :: _ => P.script (Draws.tuple e.2),
   match h.length with
    | 0 => .theta
    | 1 => .betaGamma
    | 2 => .y
    | 3 => .x
    | 4 => .yv
    | _ => .u)

end Halo2
