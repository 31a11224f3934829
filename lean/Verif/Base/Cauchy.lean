import Mathlib.LinearAlgebra.Lagrange
import Mathlib.LinearAlgebra.Matrix.NonsingularInverse

/-!
Inverse of a Cauchy matrix (Schechter 1959, Theorem 1), by Lagrange interpolation.
-/

namespace Base.MdsGen

open Polynomial Finset

variable {F : Type} [Field F]

/-- The Lagrange basis value as a product. -/
def lag {n : ℕ} (a : Fin n → F) (j : Fin n) (x : F) : F :=
  ∏ m ∈ univ.erase j, ((x - a m) * (a j - a m)⁻¹)

theorem eval_basis {n : ℕ} (a : Fin n → F) (j : Fin n) (x : F) :
    (Lagrange.basis univ a j).eval x = lag a j x := by
  rw [Lagrange.basis, eval_prod, lag]
  refine prod_congr rfl fun m _ => ?_
  rw [Lagrange.basisDivisor]
  simp [mul_comm]

theorem interp {n : ℕ} (b : Fin n → F) (hb : Function.Injective b) (f : F[X]) (hf : f.degree < n)
    (x : F) : ∑ j, f.eval (b j) * lag b j x = f.eval x := by
  have h := Lagrange.eq_interpolate (s := univ) (v := b) hb.injOn (f := f) (by simpa using hf)
  conv_rhs => rw [h]
  rw [Lagrange.interpolate_apply, eval_finsetSum]
  refine sum_congr rfl fun j _ => ?_
  rw [eval_mul, eval_C, eval_basis]

theorem cauchy_mul_inv {n : ℕ} (a b : Fin n → F) (ha : Function.Injective a)
    (hb : Function.Injective b) (hab : ∀ i j, a i ≠ b j) :
    (Matrix.of fun i j => (a i - b j)⁻¹) *
      (Matrix.of fun i j => (a j - b i) * lag a j (b i) * lag b i (a j)) = (1 : Matrix (Fin n) (Fin n) F) := by
  ext i k
  rw [Matrix.mul_apply]
  simp only [Matrix.of_apply]
  have hsub : ∀ i j, a i - b j ≠ 0 := fun i j => sub_ne_zero.mpr (hab i j)
  by_cases hik : i = k
  · subst hik
    rw [Matrix.one_apply_eq]
    have := interp b hb (Lagrange.basis univ a i) (by
      rw [Lagrange.degree_basis ha.injOn (mem_univ i)]
      rw [card_univ, Fintype.card_fin]
      have : 0 < n := i.pos
      exact_mod_cast Nat.sub_lt this one_pos) (a i)
    rw [Lagrange.eval_basis_self ha.injOn (mem_univ i)] at this
    rw [← this]
    refine sum_congr rfl fun j _ => ?_
    rw [eval_basis]
    field_simp [hsub i j]
  · rw [Matrix.one_apply_ne hik]
    set R : F[X] := ∏ m ∈ (univ.erase k).erase i, Lagrange.basisDivisor (a k) (a m) with hR
    have hbas : Lagrange.basis univ a k = Lagrange.basisDivisor (a k) (a i) * R := by
      rw [Lagrange.basis, hR]
      exact (mul_prod_erase (univ.erase k) (fun m => Lagrange.basisDivisor (a k) (a m))
        (by simp [hik])).symm
    have hki : a k ≠ a i := fun h => hik (ha h).symm
    have hdeg : ((X - C (a k)) * R).degree < (n : WithBot ℕ) := by
      have h1 : (Lagrange.basis univ a k).degree = ((X - C (a k)) * R).degree := by
        rw [hbas, degree_mul, degree_mul, Lagrange.degree_basisDivisor_of_ne hki, degree_X_sub_C]
      rw [← h1, Lagrange.degree_basis ha.injOn (mem_univ k), card_univ, Fintype.card_fin]
      have : 0 < n := i.pos
      exact_mod_cast Nat.sub_lt this one_pos
    have := interp b hb _ hdeg (a k)
    simp only [eval_mul, eval_sub, eval_X, eval_C, sub_self, zero_mul] at this
    rw [← mul_zero (a k - a i)⁻¹, ← this, mul_sum]
    refine sum_congr rfl fun j _ => ?_
    rw [← eval_basis a, hbas, eval_mul, Lagrange.basisDivisor]
    simp only [eval_mul, eval_sub, eval_X, eval_C]
    have h2 : a k - a i ≠ 0 := sub_ne_zero.mpr hki
    have h3 := hsub i j
    field_simp
    ring

/-- Every square Cauchy matrix with distinct nodes is invertible. -/
theorem cauchy_isUnit {n : ℕ} (a b : Fin n → F) (ha : Function.Injective a)
    (hb : Function.Injective b) (hab : ∀ i j, a i ≠ b j) :
    (Matrix.of fun i j : Fin n => (a i - b j)⁻¹).det ≠ 0 := by
  have h := congrArg Matrix.det (cauchy_mul_inv a b ha hb hab)
  rw [Matrix.det_mul, Matrix.det_one] at h
  exact left_ne_zero_of_mul_eq_one h

end Base.MdsGen
