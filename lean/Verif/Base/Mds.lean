import Verif.Base.Permute
import Mathlib.Data.List.Sort
import Mathlib.LinearAlgebra.Matrix.NonsingularInverse

/-!
# Model of the MDS generator

Models `poseidon-base/src/primitives/mds.rs`. The generator is a state of type `G` from which
`draw` takes one field element (`next_field_element_without_rejection`); `le` is the order used by
`sort_unstable`.
-/

namespace Base.MdsGen

variable {F G : Type} [Field F] [DecidableEq F]

/-- `(0..n).map(|_| draw()).collect()`, mds.rs:12-14. -/
def drawN (draw : G → Except Panic (F × G)) : ℕ → G → Except Panic (List F × G)
  | 0, g => .ok ([], g)
  | n + 1, g => do
    let (v, g) ← draw g
    let (vs, g) ← drawN draw n g
    return (v :: vs, g)

/-- `Vec::dedup` (mds.rs:19): removes consecutive repeated elements. -/
def dedup : List F → List F
  | [] => []
  | [x] => [x]
  | x :: y :: l => if x = y then dedup (y :: l) else x :: dedup (y :: l)

/-- The test `vals.len() == unique.len()`, mds.rs:17-20. `sort_unstable` returns the sorted
permutation of the values, which is unique for a total order; insertion sort computes it here. -/
def accepts (le : F → F → Bool) (vals : List F) : Bool :=
  vals.length == (dedup (vals.insertionSort fun a b => le a b = true)).length

/-- The inner loop, mds.rs:11-24, with `fuel` iterations: draws batches of `2 * T` values until one is
accepted. `split_off(T)` gives the first `T` values as `xs` and the rest as `ys`. -/
def sample (draw : G → Except Panic (F × G)) (le : F → F → Bool) (T : ℕ) :
    ℕ → G → Except Panic (List F × List F × G)
  | 0, _ => .error .diverge
  | fuel + 1, g => do
    let (vals, g) ← drawN draw (2 * T) g
    if accepts le vals then return (vals.take T, vals.drop T, g)
    else sample draw le T fuel g

/-- The matrix `mds`, mds.rs:51-60: panics if a sum vanishes, else `1 / (xs[i] + ys[j])`. Indexing
`xs[i]`, `ys[j]` is total here because both lists have `T` entries. -/
def cauchy (T : ℕ) (xs ys : List F) : Except Panic (Fin T → Fin T → F) :=
  if ∀ i j : Fin T, xs.getD i 0 + ys.getD j 0 ≠ 0 then
    .ok fun i j => (xs.getD i 0 + ys.getD j 0)⁻¹
  else .error .zeroSum

/-- The outer loop, mds.rs:9-62: `select` accepted samples are skipped. -/
def select (draw : G → Except Panic (F × G)) (le : F → F → Bool) (T fuel : ℕ) :
    ℕ → G → Except Panic (List F × List F × G × (Fin T → Fin T → F))
  | 0, g => do
    let (xs, ys, g) ← sample draw le T fuel g
    let mds ← cauchy T xs ys
    return (xs, ys, g, mds)
  | sel + 1, g => do
    let (_, _, g) ← sample draw le T fuel g
    select draw le T fuel sel g

/-- The closure `l`, mds.rs:78-89. `denominator.invert().unwrap()` panics on zero. -/
def lagrange (xs : List F) (j : ℕ) (x : F) : Except Panic F :=
  xs.zipIdx.foldlM (fun acc (xm, m) =>
    if m = j then .ok acc
    else
      let denominator := xs.getD j 0 - xm
      if denominator = 0 then .error .invertZero
      else .ok (acc * (x - xm) * denominator⁻¹)) 1

/-- All entries of a matrix computed by a panicking function, row by row (the nested `for` loops). -/
def tabulate (T : ℕ) (f : Fin T → Fin T → Except Panic F) : Except Panic (Fin T → Fin T → F) := do
  let rows ← (List.finRange T).mapM fun i => (List.finRange T).mapM fun j => f i j
  return fun i j => (rows.getD i []).getD j 0

/-- `mds_inv`, mds.rs:77, 90-95. -/
def inverse (T : ℕ) (xs ys : List F) : Except Panic (Fin T → Fin T → F) :=
  let negYs := ys.map (fun y => -y)
  tabulate T fun i j => do
    let a ← lagrange xs j (negYs.getD i 0)
    let b ← lagrange negYs i (xs.getD j 0)
    return (xs.getD j 0 - negYs.getD i 0) * a * b

/-- `generate_mds`, mds.rs:5-98. Returns also the final generator state. -/
def generateMds (draw : G → Except Panic (F × G)) (le : F → F → Bool) (T fuel sel : ℕ) (g : G) :
    Except Panic ((Fin T → Fin T → F) × (Fin T → Fin T → F) × G) := do
  let (xs, ys, g, mds) ← select draw le T fuel sel g
  let inv ← inverse T xs ys
  return (mds, inv, g)

end Base.MdsGen
