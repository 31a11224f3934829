import Verif.Halo2.Assembly
import Verif.Halo2.Blinding
import Mathlib.Algebra.Polynomial.AlgebraMap
import Mathlib.Algebra.Polynomial.Eval.Algebra
import Mathlib.LinearAlgebra.Lagrange
import Mathlib.RingTheory.RootsOfUnity.PrimitiveRoots

/-!
# The argument behind a proof

`/repo/poseidon-circuit/tests/hash_proving.rs`, lines 113-177, makes a key, a proof with `create_proof` and checks it with
`verify_proof`. No halo2 source lives in `/repo`; this file is a trusted model of `plonk::{create_proof, verify_proof}` of
the halo2 version named in `/repo/Cargo.toml`, lines 14 and 29, as an interactive game with ideal commitments: the
prover sends polynomials of degree less than the number of rows, the verifier sends random challenges and reads values
of the polynomials at points of its choice. Modelled: the vanishing argument, the permutation argument
(`plonk::permutation::verifier`) and the lookup argument (`plonk::lookup::verifier`), term by term.

Simplifications: commitments and their openings are ideal, challenges are random and not hashes of the transcript; there
is one circuit, one phase and no instance column, as in the test; the lookups of the crate, which have one input
expression and one fixed column as table, come before those of the rest of the circuit, which can be of any kind; the
random polynomial of the vanishing argument, which hides the others, is left out.
-/

set_option linter.unusedSectionVars false

namespace Halo2
open Polynomial

/-! ### Keys -/

/-- `permutation::Argument::add_column` for every `enable_equality`: a column is added once. -/
def permCols (eqs : List Col) : List Col := eqs.foldl (fun l c => if c ∈ l then l else l ++ [c]) []

/-- `ConstraintSystem::degree`: at least 3 for the permutation argument, `max(4, 2 + input + table)` for a lookup, and
the degree of every gate. -/
def CS.degree {F : Type} (cs : CS F) : ℕ :=
  max 3 (max ((cs.lookups.map fun l => max 4 (2 + l.input.degree + 1)).foldr max 0)
    ((cs.gates.flatMap fun p => p.polys.map Expr.degree).foldr max 0))

/-- A lookup in full (`lookup::Argument`, made by `lookup` and `lookup_any`): pairs of an input and a table expression. On
every row the inputs must be equal to the tables on some row. -/
structure Wide (F : Type) where
  pairs : List (Expr F × Expr F)

/-- A lookup of one expression in one fixed column. -/
def Lookup.wide {F : Type} (l : Lookup F) : Wide F := ⟨[(l.input, .fixed l.table 0)]⟩

/-- `lookup::Argument::required_degree`. -/
def Wide.degree {F : Type} (w : Wide F) : ℕ :=
  max 4 (2 + (w.pairs.map fun p => p.1.degree).foldr max 1 + (w.pairs.map fun p => p.2.degree).foldr max 1)

/-- `ConstraintSystem::degree` with further lookups. -/
def CS.degreeWith {F : Type} (cs : CS F) (ws : List (Wide F)) : ℕ := max cs.degree ((ws.map Wide.degree).foldr max 0)

/-- Rotations at which lookups query advice column `c`. -/
def wideRots {F : Type} (ws : List (Wide F)) (c : ℕ) : Finset ℤ :=
  ((ws.flatMap fun w => w.pairs.flatMap fun p => p.1.queries ++ p.2.queries).filterMap
    fun q => if q.1 = .advice c then some q.2 else none).toFinset

/-- `ConstraintSystem::blinding_factors` with further lookups. -/
def CS.blindingWith {F : Type} (cs : CS F) (ws : List (Wide F)) : ℕ :=
  max 3 ((Finset.range cs.numAdvice).sup fun c => (cs.rots c ∪ wideRots ws c).card) + 1 + 1

/-- `VerifyingKey`/`ProvingKey`: the constraint system, with further lookups, the domain of `n` rows generated by `ω`, the number of rows that
can be assigned, the coset generator `δ` (`DELTA`), the fixed columns, the selectors (each a column of its own) and the
permutation of the cells of equality-enabled columns. -/
structure Key (F : Type) where
  cs : CS F
  wide : List (Wide F)
  n : ℕ
  usable : ℕ
  ω : F
  δ : F
  fixed : ℕ → ℕ → F
  selector : ℕ → ℕ → Bool
  sigma : Fin (permCols cs.equality).length × Fin n → Fin (permCols cs.equality).length × Fin n

namespace Key
variable {F : Type}

/-- Columns of the permutation argument. -/
def cols (K : Key F) : List Col := permCols K.cs.equality

/-- All lookups. -/
def lookups (K : Key F) : List (Wide F) := K.cs.lookups.map Lookup.wide ++ K.wide

/-- `cs.degree()`. -/
def degree (K : Key F) : ℕ := K.cs.degreeWith K.wide

/-- `chunk_len = cs.degree() - 2`. -/
def chunkLen (K : Key F) : ℕ := K.degree - 2

/-- Number of chunks of columns, `columns.chunks(chunk_len)`. -/
def chunks (K : Key F) : ℕ := (K.cols.length + K.chunkLen - 1) / K.chunkLen

/-- The columns of chunk `i`. -/
def chunk (K : Key F) (i : ℕ) : Finset (Fin K.cols.length) := Finset.univ.filter fun j => (j : ℕ) / K.chunkLen = i

end Key

variable {F : Type} [Field F]

/-- The polynomial of degree less than `n` with given values on the domain (`lagrange_to_coeff`). -/
noncomputable def interp (n : ℕ) (ω : F) (f : ℕ → F) : F[X] :=
  Lagrange.interpolate (Finset.range n) (fun r => ω ^ r) f

/-- `compress_expressions` of the lookup argument: one expression for many, with powers of the challenge `θ`. -/
def compress (θ : F) (es : List (Expr F)) : Expr F := es.foldl (fun acc e => .add (.scaled acc θ) e) (.const 0)

/-- Compressed input and table of a lookup. -/
def Wide.compress (θ : F) (w : Wide F) : Expr F × Expr F :=
  (Halo2.compress θ (w.pairs.map Prod.fst), Halo2.compress θ (w.pairs.map Prod.snd))

/-- On every row that can be assigned the inputs are equal to the tables on some such row. -/
def Wide.Holds (g : Grid F) (w : Wide F) : Prop :=
  ∀ r < g.usable, ∃ r' < g.usable, ∀ p ∈ w.pairs, p.1.eval g r = p.2.eval g r'

/-! ### Messages and terms -/

/-- What the prover commits to, up to the quotient. `permuted i` is the permuted input and table of lookup `i`,
`zPerm i` the product of chunk `i` of the permutation argument, `zLookup i` the product of lookup `i`. -/
structure Messages (F : Type) [Field F] where
  advice : ℕ → F[X]
  permuted : ℕ → F[X] × F[X]
  zPerm : ℕ → F[X]
  zLookup : ℕ → F[X]

/-- What the verifier computes the terms from: the values at its point `x` (and at `ω^k x`) of all polynomials. They are
elements of an algebra `R` over the field: the field itself for the verifier, polynomials for the prover. -/
structure Opened (R : Type) where
  x : R
  advice : ℕ → ℤ → R
  fixed : ℕ → ℤ → R
  selector : ℕ → R
  /-- permutation polynomial of column `j` -/
  sigma : ℕ → R
  l0 : R
  lLast : R
  lBlind : R
  /-- permuted input and table, and the permuted input at `ω⁻¹ x` -/
  pInput : ℕ → R
  pTable : ℕ → R
  pInputPrev : ℕ → R
  /-- products, at `x` and `ω x`, and those of the permutation at `ω^last x` -/
  zPerm : ℕ → R
  zPermNext : ℕ → R
  zPermLast : ℕ → R
  zLookup : ℕ → R
  zLookupNext : ℕ → R

section
variable {R : Type} [CommRing R] [Algebra F R]

/-- `Expression::evaluate`. -/
def Expr.evalAt (o : Opened R) : Expr F → R
  | .const c => algebraMap F R c
  | .selector i => o.selector i
  | .fixed i k => o.fixed i k
  | .advice i k => o.advice i k
  | .neg e => - e.evalAt o
  | .add a b => a.evalAt o + b.evalAt o
  | .mul a b => a.evalAt o * b.evalAt o
  | .scaled a c => a.evalAt o * algebraMap F R c

/-- The value of an equality-enabled column. -/
def Opened.col (o : Opened R) : Col → R
  | .advice i => o.advice i 0
  | .fixed i => o.fixed i 0

/-- Rows that can be assigned: `1 - (l_last + l_blind)`. -/
def Opened.active (o : Opened R) : R := 1 - (o.lLast + o.lBlind)

/-- Values of all polynomials of all gates. -/
def gateTerms (K : Key F) (o : Opened R) : List R :=
  K.cs.gates.flatMap fun p => p.polys.map (Expr.evalAt o)

/-- `permutation::verifier::Evaluated::expressions`: the first product starts at one, the last one ends at zero or one,
each starts where the previous one ends, and each grows by the quotient of the factors of its columns. -/
def permTerms (K : Key F) (β γ : F) (o : Opened R) : List R :=
  if K.chunks = 0 then [] else
    [o.l0 * (1 - o.zPerm 0), o.lLast * (o.zPerm (K.chunks - 1) ^ 2 - o.zPerm (K.chunks - 1))] ++
    (List.range (K.chunks - 1)).map (fun i => o.l0 * (o.zPerm (i + 1) - o.zPermLast i)) ++
    (List.range K.chunks).map fun i =>
      (o.zPermNext i * ∏ j ∈ K.chunk i, (o.col (K.cols.get j) + algebraMap F R β * o.sigma j + algebraMap F R γ) -
        o.zPerm i * ∏ j ∈ K.chunk i, (o.col (K.cols.get j) + algebraMap F R (K.δ ^ (j : ℕ) * β) * o.x + algebraMap F R γ)) *
      o.active

/-- `lookup::verifier::Evaluated::expressions` for lookup number `i` with compressed input and table `p`: the product starts at one, ends at zero or one and
grows by the quotient of the factors; the permuted input is equal to the permuted table on row 0, and on every other row
to the permuted table or to the previous row of itself. -/
def lookupTerms (β γ : F) (i : ℕ) (p : Expr F × Expr F) (o : Opened R) : List R :=
  [o.l0 * (1 - o.zLookup i), o.lLast * (o.zLookup i ^ 2 - o.zLookup i),
    (o.zLookupNext i * (o.pInput i + algebraMap F R β) * (o.pTable i + algebraMap F R γ) -
      o.zLookup i * (p.1.evalAt o + algebraMap F R β) * (p.2.evalAt o + algebraMap F R γ)) * o.active,
    o.l0 * (o.pInput i - o.pTable i),
    (o.pInput i - o.pTable i) * (o.pInput i - o.pInputPrev i) * o.active]

/-- All terms, in the order of `verify_proof`. -/
def terms (K : Key F) (θ β γ : F) (o : Opened R) : List R :=
  gateTerms K o ++ permTerms K β γ o ++
    (K.lookups.map (Wide.compress θ)).zipIdx.flatMap fun li => lookupTerms β γ li.2 li.1 o

end

/-- Value at `ω^k x`. -/
noncomputable def rotEval (ω : F) (p : F[X]) (k : ℤ) (x : F) : F := p.eval (ω ^ k * x)

namespace Key

/-- Fixed column, selector and permutation polynomials, and those of the first row, the first unusable row and the rows
beyond. -/
noncomputable def fixedPoly (K : Key F) (c : ℕ) : F[X] := interp K.n K.ω (K.fixed c)
noncomputable def selectorPoly (K : Key F) (s : ℕ) : F[X] := interp K.n K.ω fun r => if K.selector s r then 1 else 0
/-- `permutation::ProvingKey`: column `j` holds the name `δ^j' ω^r'` of the image of its cells. -/
noncomputable def sigmaPoly (K : Key F) (j : ℕ) : F[X] := interp K.n K.ω fun r =>
  if h : j < (permCols K.cs.equality).length ∧ r < K.n then
    K.δ ^ ((K.sigma (⟨j, h.1⟩, ⟨r, h.2⟩)).1 : ℕ) * K.ω ^ ((K.sigma (⟨j, h.1⟩, ⟨r, h.2⟩)).2 : ℕ)
  else 0
noncomputable def l0Poly (K : Key F) : F[X] := interp K.n K.ω fun r => if r = 0 then 1 else 0
noncomputable def lLastPoly (K : Key F) : F[X] := interp K.n K.ω fun r => if r = K.usable then 1 else 0
noncomputable def lBlindPoly (K : Key F) : F[X] := interp K.n K.ω fun r => if K.usable < r then 1 else 0

/-- What the verifier reads at `x`. The products of the permutation argument are also opened at `ω^last x`, where
`last = -(blinding_factors + 1)`. -/
noncomputable def opened (K : Key F) (m : Messages F) (x : F) : Opened F where
  x := x
  advice i k := rotEval K.ω (m.advice i) k x
  fixed i k := rotEval K.ω (K.fixedPoly i) k x
  selector i := (K.selectorPoly i).eval x
  sigma j := (K.sigmaPoly j).eval x
  l0 := K.l0Poly.eval x
  lLast := K.lLastPoly.eval x
  lBlind := K.lBlindPoly.eval x
  pInput i := (m.permuted i).1.eval x
  pTable i := (m.permuted i).2.eval x
  pInputPrev i := rotEval K.ω (m.permuted i).1 (-1) x
  zPerm i := (m.zPerm i).eval x
  zPermNext i := rotEval K.ω (m.zPerm i) 1 x
  zPermLast i := rotEval K.ω (m.zPerm i) (-((K.n : ℤ) - K.usable)) x
  zLookup i := (m.zLookup i).eval x
  zLookupNext i := rotEval K.ω (m.zLookup i) 1 x

/-- `vanishing::verifier`: the terms, combined with powers of `y`, are the quotient times `x^n - 1`; the quotient is
sent in pieces of degree less than `n`. (The verifier divides by `x^n - 1` and panics if it is zero.) -/
def Check (K : Key F) (m : Messages F) (h : ℕ → F[X]) (θ β γ y x : F) : Prop :=
  x ^ K.n ≠ 1 ∧
    (terms K θ β γ (K.opened m x)).foldl (fun a t => a * y + t) 0 =
      (∑ i ∈ Finset.range (K.degree - 1), (x ^ K.n) ^ i * (h i).eval x) * (x ^ K.n - 1)

/-- The assignment in the advice columns the prover committed to. -/
noncomputable def grid (K : Key F) (advice : ℕ → F[X]) : Grid F where
  n := K.n
  usable := K.usable
  advice c r := (advice c).eval (K.ω ^ r)
  fixed := K.fixed
  selector := K.selector

end Key

/-! ### The game -/

/-- A prover: what it sends, as a function of the challenges so far. (Its coins are fixed: a bound for all provers of
this kind is one for randomised provers.) -/
structure Prover (F : Type) [Field F] where
  advice : ℕ → F[X]
  permuted : (θ : F) → ℕ → F[X] × F[X]
  products : (θ β γ : F) → (ℕ → F[X]) × (ℕ → F[X])
  quotient : (θ β γ y : F) → ℕ → F[X]

namespace Prover

/-- All polynomials have degree less than `n`: longer ones cannot be committed to. -/
structure Short (P : Prover F) (n : ℕ) : Prop where
  advice : ∀ c, (P.advice c).degree < n
  input : ∀ θ i, ((P.permuted θ i).1).degree < n
  table : ∀ θ i, ((P.permuted θ i).2).degree < n
  zPerm : ∀ θ β γ i, ((P.products θ β γ).1 i).degree < n
  zLookup : ∀ θ β γ i, ((P.products θ β γ).2 i).degree < n
  quotient : ∀ θ β γ y i, (P.quotient θ β γ y i).degree < n

/-- The messages for given challenges. -/
def messages (P : Prover F) (θ β γ : F) : Messages F :=
  ⟨P.advice, P.permuted θ, (P.products θ β γ).1, (P.products θ β γ).2⟩

/-- The challenges `θ, β, γ, y, x` convince the verifier. -/
def Convinces (P : Prover F) (K : Key F) (c : F × F × F × F × F) : Prop :=
  K.Check (P.messages c.1 c.2.1 c.2.2.1) (P.quotient c.1 c.2.1 c.2.2.1 c.2.2.2.1) c.1 c.2.1 c.2.2.1 c.2.2.2.1
    c.2.2.2.2

end Prover

/-! ### Key generation -/

/-- Content of a fixed cell in the key: the last write wins, unwritten cells are zero, and table columns are filled up on
the rows that can be assigned (`fill_from_row`). -/
def keyFixed (ops : List (Op F)) (usable c r : ℕ) : F :=
  ops.foldl (fun acc o => match o with
    | .fixed c' r' v => if c' = c ∧ r' = r then v else acc
    | .fill c' r' v => if c' = c ∧ r' ≤ r ∧ r < usable then v else acc
    | _ => acc) 0

open Classical in
/-- `keygen_vk` after a synthesis with log `ops`, on `n` rows, of a circuit with the lookups `ws` besides those of `cs`: it
fails if there are too few rows (`minimum_rows`), if the synthesis assigns a row that is kept for blinding, or on a bad
copy constraint. -/
noncomputable def keygenWith (cs : CS F) (ws : List (Wide F)) (ops : List (Op F)) (n : ℕ) (ω δ : F) :
    Except CopyError (Key F) :=
  let usable := n - (cs.blindingWith ws + 1)
  if n < cs.blindingWith ws + 1 + 1 + 1 ∨ ¬ Fits ops usable then .error .notEnoughRowsAvailable
  else do
    let s ← assemble (permCols cs.equality) n usable ops (Assembly.new _)
    return ⟨cs, ws, n, usable, ω, δ, keyFixed ops usable, finalSelector ops, s.mapping⟩

/-- `keygen_vk` of a circuit without further lookups. -/
noncomputable abbrev keygen (cs : CS F) (ops : List (Op F)) (n : ℕ) (ω δ : F) : Except CopyError (Key F) :=
  keygenWith cs [] ops n ω δ

end Halo2
