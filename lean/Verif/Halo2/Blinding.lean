import Verif.Halo2.Mock
import Mathlib.Data.Finset.Card
import Mathlib.Data.Finset.Union
import Mathlib.Data.Finset.Lattice.Fold

/-!
# Rows that halo2 keeps for itself

halo2 fills the last rows of every advice column with random values that hide the witness, and how many depends
on how often a column is queried. No halo2 source lives in `/repo`; this file is a trusted model of
`plonk::ConstraintSystem::{query_advice_index, enable_equality, blinding_factors, minimum_rows}` and of the row
counts that `dev::MockProver::run` derives from them, in the halo2 version named in
`/repo/poseidon-circuit/Cargo.toml`. The tests choose the number of rows as `2^k` (`/repo/poseidon-circuit/src/hash.rs`,
lines 1095-1150; `poseidon/pow5.rs`, lines 832, 949, 967, 987; `poseidon/septidon/tests.rs`, line 10;
`/repo/poseidon-circuit/tests/hash_proving.rs`, lines 64 and 116).

Simplification: the queries made by a gate or lookup are those occurring in its polynomials. The gates of the crate
make only one further kind of query, in the "query" gates of Septidon (`poseidon/septidon/util.rs`), and those
repeat queries that occur in the polynomials of other gates.
-/

namespace Halo2
variable {F : Type}

/-- Polynomials of the gates and inputs of the lookups. (The table side of the lookups is a fixed column.) -/
def CS.exprs (cs : CS F) : List (Expr F) :=
  (cs.gates.flatMap fun p => p.polys) ++ cs.lookups.map fun l => l.input

/-- The distinct rotations at which advice column `c` is queried: by a polynomial, or at rotation 0 by
`enable_equality`. -/
def CS.rots (cs : CS F) (c : ℕ) : Finset ℤ :=
  ((cs.exprs.flatMap Expr.queries).filterMap fun q => if q.1 = .advice c then some q.2 else none).toFinset ∪
    if Col.advice c ∈ cs.equality then {0} else ∅

/-- `num_advice_queries[c]`. -/
def CS.numAdviceQueries (cs : CS F) (c : ℕ) : ℕ := (cs.rots c).card

/-- `ConstraintSystem::blinding_factors`: the most-queried advice column, at least 3 for the permutation argument,
one more for the multi-point opening and one more to be safe. -/
def CS.blindingFactors (cs : CS F) : ℕ :=
  max 3 ((Finset.range cs.numAdvice).sup cs.numAdviceQueries) + 1 + 1

/-- `ConstraintSystem::minimum_rows`. -/
def CS.minimumRows (cs : CS F) : ℕ := cs.blindingFactors + 1 + 1 + 1

/-- Rows of a circuit of size `2^k` that the synthesis may assign: `usable_rows = 0..n - (blinding_factors + 1)`. -/
def CS.usableRows (cs : CS F) (k : ℕ) : ℕ := 2 ^ k - (cs.blindingFactors + 1)

/-- The expression is a polynomial of a gate or an input of a lookup. -/
theorem CS.mem_exprs {cs : CS F} {e : Expr F} :
    e ∈ cs.exprs ↔ (∃ p ∈ cs.gates, e ∈ p.polys) ∨ ∃ l ∈ cs.lookups, e = l.input := by
  simp only [exprs, List.mem_append, List.mem_flatMap, List.mem_map, eq_comm]

theorem CS.mem_rots {cs : CS F} {c : ℕ} {k : ℤ} :
    k ∈ cs.rots c ↔ (∃ e ∈ cs.exprs, (Col.advice c, k) ∈ e.queries) ∨ (Col.advice c ∈ cs.equality ∧ k = 0) := by
  simp only [rots, Finset.mem_union, List.mem_toFinset, List.mem_filterMap, List.mem_flatMap]
  refine or_congr ⟨?_, ?_⟩ ?_
  · rintro ⟨⟨a, b⟩, ⟨e, he, hq⟩, h⟩
    split_ifs at h with h'
    simp only [Option.some.injEq] at h
    simp only at h'
    subst h h'
    exact ⟨e, he, hq⟩
  · rintro ⟨e, he, hq⟩
    exact ⟨_, ⟨e, he, hq⟩, by simp⟩
  · split_ifs with h <;> simp [h]

theorem Expr.query_within {A B S : ℕ → Prop} : ∀ {e : Expr F}, e.Within A B S → ∀ {c : ℕ} {k : ℤ},
    (Col.advice c, k) ∈ e.queries → A c
  | .const _, _, c, k, h => by simp [queries] at h
  | .selector _, _, c, k, h => by simp [queries] at h
  | .fixed i k', _, c, k, h => by simp [queries] at h
  | .advice i k', hw, c, k, h => by
    simp only [queries, List.mem_singleton, Prod.mk.injEq, Col.advice.injEq] at h
    rw [h.1]; exact hw
  | .neg e, hw, c, k, h => query_within (e := e) hw h
  | .add a b, hw, c, k, h => by
    rcases List.mem_append.mp h with h | h
    · exact query_within hw.1 h
    · exact query_within hw.2 h
  | .mul a b, hw, c, k, h => by
    rcases List.mem_append.mp h with h | h
    · exact query_within hw.1 h
    · exact query_within hw.2 h
  | .scaled e _, hw, c, k, h => query_within (e := e) hw h

/-- If no column is queried at more than three rotations, five rows are blinded. -/
theorem CS.blindingFactors_le {cs : CS F} (h : ∀ c < cs.numAdvice, cs.numAdviceQueries c ≤ 3) :
    cs.blindingFactors = 5 := by
  have : (Finset.range cs.numAdvice).sup cs.numAdviceQueries ≤ 3 :=
    Finset.sup_le fun c hc => h c (Finset.mem_range.mp hc)
  rw [blindingFactors, max_eq_left this]

end Halo2
