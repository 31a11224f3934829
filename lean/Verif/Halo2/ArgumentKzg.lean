import Verif.Halo2.Argument
import Verif.Halo2.Opening
import Verif.Halo2.Mock

/-!
# The argument with commitments

`Verif.Halo2.Argument` lets the verifier read values of polynomials. In `verify_proof`, called in
`/repo/poseidon-circuit/tests/hash_proving.rs`, lines 165-172, it gets commitments and claimed values instead, and checks
the values in one opening of all of them (`Verif.Halo2.Opening`). No halo2 source lives in `/repo`; this is a trusted model
of the halo2 version named in `/repo/Cargo.toml`, lines 14 and 29.

Simplifications: those of the two files; the order of the openings is by kind of polynomial, and the random polynomial of
the vanishing argument is left out.
-/

set_option linter.unusedSectionVars false

namespace Halo2
open Polynomial

/-- The polynomials that are opened. The pieces of the quotient are opened as one. -/
inductive Label where
  | col (c : Col)
  | selector (s : ℕ)
  | sigma (j : ℕ)
  | input (i : ℕ)
  | table (i : ℕ)
  | zPerm (i : ℕ)
  | zLookup (i : ℕ)
  | quotient
deriving DecidableEq

/-- The values the prover claims, of each polynomial and at each rotation. -/
abbrev Values (F : Type) := Label → ℤ → F

namespace Key

section
variable {F : Type}

/-- All expressions: polynomials of the gates, inputs and tables of the lookups. -/
def exprs (K : Key F) : List (Expr F) :=
  (K.cs.gates.flatMap fun p => p.polys) ++ K.lookups.flatMap fun w => w.pairs.flatMap fun p => [p.1, p.2]

/-- `Rotation(-(blinding_factors + 1))`, from row 0 to the last row that is not for blinding. -/
def lastRot (K : Key F) : ℤ := -((K.n : ℤ) - K.usable)

/-- The openings: columns where expressions query them and, if equality is enabled, at rotation 0; the products of the
permutation argument at 0 and 1, and all but the last at the last row too; products, permuted inputs and tables of the
lookups; selectors; permutation polynomials; the quotient. -/
def queries (K : Key F) : List (Label × ℤ) :=
  ((K.exprs.flatMap Expr.queries ++ K.cols.map fun c => ((c, 0) : Col × ℤ)).dedup.map fun q => (Label.col q.1, q.2)) ++
    ((List.range K.chunks).flatMap fun i =>
      [(.zPerm i, 0), (.zPerm i, 1)] ++ if i + 1 < K.chunks then [(Label.zPerm i, K.lastRot)] else []) ++
    ((List.range K.lookups.length).flatMap fun i =>
      [(Label.zLookup i, 0), (.input i, 0), (.table i, 0), (.input i, -1), (.zLookup i, 1)]) ++
    ((K.exprs.flatMap Expr.sels).dedup.map fun s => (Label.selector s, 0)) ++
    ((List.range K.cols.length).map fun j => (Label.sigma j, 0)) ++ [(.quotient, 0)]

end

variable {F : Type} [Field F]

/-- What the verifier computes the terms from, given claimed values: it evaluates the polynomials of the first row, the last
row and the rows beyond by itself. -/
noncomputable def claimed (K : Key F) (ev : Values F) (x : F) : Opened F where
  x := x
  advice i k := ev (.col (.advice i)) k
  fixed i k := ev (.col (.fixed i)) k
  selector i := ev (.selector i) 0
  sigma j := ev (.sigma j) 0
  l0 := K.l0Poly.eval x
  lLast := K.lLastPoly.eval x
  lBlind := K.lBlindPoly.eval x
  pInput i := ev (.input i) 0
  pTable i := ev (.table i) 0
  pInputPrev i := ev (.input i) (-1)
  zPerm i := ev (.zPerm i) 0
  zPermNext i := ev (.zPerm i) 1
  zPermLast i := ev (.zPerm i) K.lastRot
  zLookup i := ev (.zLookup i) 0
  zLookupNext i := ev (.zLookup i) 1

/-- `expected_h_eval`. -/
noncomputable def expectedQuotient (K : Key F) (ev : Values F) (θ β γ y x : F) : F :=
  (terms K θ β γ (K.claimed ev x)).foldl (fun a t => a * y + t) 0 / (x ^ K.n - 1)

/-- All queries of `verify_proof`: rotation `k` is the point `ω^k x`; the value of the quotient is the expected one, all
others are those of the prover. -/
noncomputable def claims (K : Key F) (ev : Values F) (θ β γ y x : F) : List (Query Label F) :=
  K.queries.map fun q =>
    ⟨q.1, K.ω ^ q.2 * x, if q.1 = .quotient then K.expectedQuotient ev θ β γ y x else ev q.1 q.2⟩

/-- The polynomials behind the commitments: those of the key and those of the prover. -/
noncomputable def polynomials (K : Key F) (m : Messages F) (h : ℕ → F[X]) (x : F) : Label → F[X]
  | .col (.advice c) => m.advice c
  | .col (.fixed c) => K.fixedPoly c
  | .selector s => K.selectorPoly s
  | .sigma j => K.sigmaPoly j
  | .input i => (m.permuted i).1
  | .table i => (m.permuted i).2
  | .zPerm i => m.zPerm i
  | .zLookup i => m.zLookup i
  | .quotient => ∑ i ∈ Finset.range (K.degree - 1), C ((x ^ K.n) ^ i) * h i

section
variable {G G2 GT : Type} [AddCommGroup G] [Module F G] [AddCommGroup G2] [Module F G2] [AddCommGroup GT] [Module F GT]

/-- The commitments: those of the verifying key and those in the proof. The commitment to the quotient is computed from
those to its pieces (`h_commitment`). -/
noncomputable def commitments (K : Key F) (τ : F) (g : G) (m : Messages F) (h : ℕ → F[X]) (x : F) : Label → G
  | .quotient => ∑ i ∈ Finset.range (K.degree - 1), ((x ^ K.n) ^ i) • commit τ g K.n (h i)
  | l => commit τ g K.n (K.polynomials m h x l)

end
end Key

/-- A prover that also makes openings: the values it claims, as a function of `θ, β, γ, y, x`, and the polynomials behind
its two last commitments, as functions of the challenges so far. -/
structure KzgProver (F : Type) [Field F] extends Prover F where
  values : F × F × F × F × F → Values F
  first : F × F × F × F × F → F → F → F[X]
  second : F × F × F × F × F → F → F → F → F[X]

namespace KzgProver
variable {F : Type} [Field F]

/-- All polynomials can be committed to. -/
structure Short (P : KzgProver F) (n : ℕ) : Prop where
  prover : P.toProver.Short n
  first : ∀ c y v, (P.first c y v).degree < n
  second : ∀ c y v u, (P.second c y v u).degree < n

/-- The verifier accepts, for the challenges `θ, β, γ, y, x` of the argument and `y, v, u` of the opening, if `τ` is the
secret of the parameters. -/
def Accepts (P : KzgProver F) (K : Key F) {G G2 GT : Type} [AddCommGroup G] [Module F G] [AddCommGroup G2] [Module F G2]
    [AddCommGroup GT] [Module F GT] (E : Pairing F G G2 GT) (τ : F) (c : (F × F × F × F × F) × F × F × F) : Prop :=
  c.1.2.2.2.2 ^ K.n ≠ 1 ∧
    Shplonk.Accepts E τ (K.claims (P.values c.1) c.1.1 c.1.2.1 c.1.2.2.1 c.1.2.2.2.1 c.1.2.2.2.2)
      (K.commitments τ E.g (P.messages c.1.1 c.1.2.1 c.1.2.2.1) (P.quotient c.1.1 c.1.2.1 c.1.2.2.1 c.1.2.2.2.1)
        c.1.2.2.2.2)
      (commit τ E.g K.n (P.first c.1 c.2.1 c.2.2.1)) (commit τ E.g K.n (P.second c.1 c.2.1 c.2.2.1 c.2.2.2))
      c.2.1 c.2.2.1 c.2.2.2

end KzgProver

end Halo2
