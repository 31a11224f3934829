import Mathlib.Algebra.Polynomial.AlgebraMap
import Mathlib.Algebra.Polynomial.Eval.Algebra
import Mathlib.LinearAlgebra.BilinearMap
import Mathlib.LinearAlgebra.Lagrange

/-!
# Commitments and their openings

The proofs of `/repo/poseidon-circuit/tests/hash_proving.rs`, lines 113-177, use `KZGCommitmentScheme<Bn256>` with
`ProverSHPLONK` and `VerifierSHPLONK` (lines 9-12, 147 and 165; the same in `/repo/poseidon-circuit/src/hash.rs`, lines
934-938 and 1191-1237). No halo2 source lives in `/repo`; this file is a trusted model of
`poly::kzg::{commitment, multiopen::shplonk}` of the halo2 version named in `/repo/Cargo.toml`, lines 14 and 29.

Simplifications: the curves and the pairing are modules over the scalar field with a bilinear map; points of a curve are
not encoded; sets of points are finite sets, in no order; one multi-scalar multiplication is computed at once.
-/

set_option linter.unusedSectionVars false

namespace Halo2
open Polynomial

variable {F : Type} [Field F]

/-- `Engine`: two groups with generators `g` and `g2` and a bilinear pairing, not degenerate on the generators (which have
the order of the scalar field). -/
structure Pairing (F G G2 GT : Type) [Field F] [AddCommGroup G] [Module F G] [AddCommGroup G2] [Module F G2]
    [AddCommGroup GT] [Module F GT] where
  e : G →ₗ[F] G2 →ₗ[F] GT
  g : G
  g2 : G2
  nondegenerate : ∀ a : F, a • e g g2 = 0 → a = 0

/-- What the verifier is asked to believe: the polynomial `label` has the value `eval` at `point` (`VerifierQuery`).
Commitments are told apart by reference, hence a label. -/
structure Query (L F : Type) where
  label : L
  point : F
  eval : F

section
variable {G : Type} [AddCommGroup G] [Module F G]

/-- `ParamsKZG::setup`: the powers of the secret `τ`, in the group. -/
def powersOf (τ : F) (g : G) (i : ℕ) : G := τ ^ i • g

/-- `commit`: the coefficients of the polynomial times the powers of the secret. There are `n` of them, hence longer
polynomials cannot be committed to. -/
noncomputable def commit (τ : F) (g : G) (n : ℕ) (p : F[X]) : G := ∑ i ∈ Finset.range n, p.coeff i • powersOf τ g i

end

namespace Shplonk
open Classical

variable {L : Type}

/-- Entries in the order of their first occurrence. -/
noncomputable def firsts {A : Type} (l : List A) : List A := l.reverse.dedup.reverse

/-- The points at which a polynomial is opened (`commitment_rotation_set_map`). -/
noncomputable def points (qs : List (Query L F)) (l : L) : Finset F :=
  ((qs.filter fun q => q.label = l).map Query.point).toFinset

/-- The polynomials that are opened. -/
noncomputable def labels (qs : List (Query L F)) : List L := firsts (qs.map Query.label)

/-- The different sets of points (`rotation_set_commitment_map`). -/
noncomputable def rotationSets (qs : List (Query L F)) : List (Finset F) := firsts ((labels qs).map (points qs))

/-- The polynomials that are opened at all points of `S` and nowhere else. -/
noncomputable def members (qs : List (Query L F)) (S : Finset F) : List L := (labels qs).filter fun l => points qs l = S

/-- `super_point_set`. -/
noncomputable def superSet (qs : List (Query L F)) : Finset F := (qs.map Query.point).toFinset

/-- `get_eval`: the value in the first query of the polynomial at the point. -/
noncomputable def evalOf (qs : List (Query L F)) (l : L) (x : F) : F :=
  match qs.find? fun q => q.label = l ∧ q.point = x with
  | some q => q.eval
  | none => 0

/-- `evaluate_vanishing_polynomial`. -/
def vanish (S : Finset F) (u : F) : F := ∏ s ∈ S, (u - s)

/-- `lagrange_interpolate`: the polynomial of low degree with the values of the queries of `l` on `S`. -/
noncomputable def low (qs : List (Query L F)) (S : Finset F) (l : L) : F[X] := Lagrange.interpolate S id (evalOf qs l)

/-- The first set of points. -/
noncomputable def firstSet (qs : List (Query L F)) : Finset F := (rotationSets qs).headD ∅

/-- `z_diff_i`: the factor of set `j`, normalized by that of the first one. -/
noncomputable def factor (qs : List (Query L F)) (u : F) (j : ℕ) (S : Finset F) : F :=
  if j = 0 then 1 else vanish (superSet qs \ S) u * (vanish (superSet qs \ firstSet qs) u)⁻¹

section
variable {G G2 GT : Type} [AddCommGroup G] [Module F G] [AddCommGroup G2] [Module F G2] [AddCommGroup GT] [Module F GT]

/-- `outer_msm` of `VerifierSHPLONK::verify_proof`, for the commitments `Cm`, the commitments `h1` and `h2` sent by the
prover and the challenges `y`, `v` and `u`. -/
noncomputable def outer (qs : List (Query L F)) (g : G) (Cm : L → G) (h1 h2 : G) (y v u : F) : G :=
  (∑ j : Fin (rotationSets qs).length, (v ^ (j : ℕ) * factor qs u j ((rotationSets qs).get j)) •
      ∑ i : Fin (members qs ((rotationSets qs).get j)).length,
        y ^ (i : ℕ) • Cm ((members qs ((rotationSets qs).get j)).get i)) -
    (∑ j : Fin (rotationSets qs).length, v ^ (j : ℕ) * factor qs u j ((rotationSets qs).get j) *
      ∑ i : Fin (members qs ((rotationSets qs).get j)).length,
        y ^ (i : ℕ) * (low qs ((rotationSets qs).get j) ((members qs ((rotationSets qs).get j)).get i)).eval u) • g -
    vanish (firstSet qs) u • h1 + u • h2

/-- `VerifierSHPLONK::verify_proof` and the pairing check of `SingleStrategy` with the point `τ • g2` of the parameters. The
verifier divides by the factor of the first set and panics if it is zero. -/
def Accepts (E : Pairing F G G2 GT) (τ : F) (qs : List (Query L F)) (Cm : L → G) (h1 h2 : G) (y v u : F) : Prop :=
  vanish (superSet qs \ firstSet qs) u ≠ 0 ∧ E.e h2 (τ • E.g2) = E.e (outer qs E.g Cm h1 h2 y v u) E.g2

end

/-! ### The prover -/

/-- The polynomials of a set of points, combined with powers of `y` (`Q_i`). -/
noncomputable def combined (qs : List (Query L F)) (p : L → F[X]) (y : F) (S : Finset F) : F[X] :=
  ∑ i : Fin (members qs S).length, C (y ^ (i : ℕ)) * p ((members qs S).get i)

/-- The polynomials of low degree of a set of points, combined (`R_i`). -/
noncomputable def combinedLow (qs : List (Query L F)) (y : F) (S : Finset F) : F[X] :=
  ∑ i : Fin (members qs S).length, C (y ^ (i : ℕ)) * low qs S ((members qs S).get i)

/-- `h(X)` of `ProverSHPLONK::create_proof`: the sum of the quotients, with powers of `v`. -/
noncomputable def quotient (qs : List (Query L F)) (p : L → F[X]) (y v : F) : F[X] :=
  ∑ j : Fin (rotationSets qs).length, C (v ^ (j : ℕ)) *
    ((combined qs p y ((rotationSets qs).get j) - combinedLow qs y ((rotationSets qs).get j)) /ₘ
      ∏ s ∈ (rotationSets qs).get j, (X - C s))

/-- `L(X)`, for the polynomial `h` that the first commitment is to. -/
noncomputable def linear (qs : List (Query L F)) (p : L → F[X]) (h : F[X]) (y v u : F) : F[X] :=
  (∑ j : Fin (rotationSets qs).length, C (v ^ (j : ℕ) * factor qs u j ((rotationSets qs).get j)) *
      (combined qs p y ((rotationSets qs).get j) - C ((combinedLow qs y ((rotationSets qs).get j)).eval u))) -
    C (vanish (firstSet qs) u) * h

end Shplonk

end Halo2
