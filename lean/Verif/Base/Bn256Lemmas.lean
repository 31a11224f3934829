import Verif.Base.Bn256
import Verif.Base.PermuteLemmas
import Mathlib.LinearAlgebra.Matrix.NonsingularInverse
import Mathlib.LinearAlgebra.Matrix.Determinant.Basic
import Mathlib.FieldTheory.Finite.Basic
import Mathlib.Tactic.FieldSimp
import Mathlib.Tactic.LinearCombination

set_option linter.unusedSectionVars false

namespace Base

open Matrix

section
variable {F : Type} [Field F] {T : ℕ} [NeZero T]

theorem fullRound_bijective (sbox : F → F) (hs : Function.Bijective sbox)
    (M : Matrix (Fin T) (Fin T) F) (hM : IsUnit M.det) (c : Fin T → F) :
    Function.Bijective (Spec.fullRound sbox M c) := by
  have h1 : Function.Bijective M.mulVec :=
    ⟨Matrix.mulVec_injective_iff_isUnit.mpr ((Matrix.isUnit_iff_isUnit_det M).mpr hM),
      Matrix.mulVec_surjective_iff_isUnit.mpr ((Matrix.isUnit_iff_isUnit_det M).mpr hM)⟩
  have h2 : Function.Bijective (fun (x : Fin T → F) i => sbox (x i + c i)) := by
    constructor
    · intro x y h
      funext i
      have := hs.1 (congrFun h i)
      simpa using this
    · intro y
      choose g hg using hs.2
      exact ⟨fun i => g (y i) - c i, by funext i; simp [hg]⟩
  exact h1.comp h2

theorem partialRound_bijective (sbox : F → F) (hs : Function.Bijective sbox)
    (M : Matrix (Fin T) (Fin T) F) (hM : IsUnit M.det) (c : Fin T → F) :
    Function.Bijective (Spec.partialRound sbox M c) := by
  have h1 : Function.Bijective M.mulVec :=
    ⟨Matrix.mulVec_injective_iff_isUnit.mpr ((Matrix.isUnit_iff_isUnit_det M).mpr hM),
      Matrix.mulVec_surjective_iff_isUnit.mpr ((Matrix.isUnit_iff_isUnit_det M).mpr hM)⟩
  have h2 : Function.Bijective (fun (x : Fin T → F) i => if i = 0 then sbox (x i + c i) else x i + c i) := by
    constructor
    · intro x y h
      funext i
      have hi := congrFun h i
      simp only at hi
      split at hi
      · have := hs.1 hi
        simpa using this
      · simpa using hi
    · intro y
      choose g hg using hs.2
      refine ⟨fun i => if i = 0 then g (y i) - c i else y i - c i, ?_⟩
      funext i
      by_cases h : i = 0 <;> simp [hg, h]
  exact h1.comp h2

theorem poseidon_bijective (sbox : F → F) (hs : Function.Bijective sbox)
    (M : Matrix (Fin T) (Fin T) F) (hM : IsUnit M.det) (h rp : ℕ) (c : ℕ → Fin T → F) :
    Function.Bijective (Spec.poseidon sbox M h rp c) := by
  have key : ∀ l : List ℕ, Function.Bijective
      (fun x => l.foldl (fun x r => Spec.round sbox M h rp c r x) x) := by
    intro l
    induction l with
    | nil => exact Function.bijective_id
    | cons r l ih =>
      have hr : Function.Bijective (Spec.round sbox M h rp c r) := by
        unfold Spec.round
        split
        · exact fullRound_bijective sbox hs M hM _
        · exact partialRound_bijective sbox hs M hM _
      exact ih.comp hr
  exact key _

/-- `x ↦ x^n` is a bijection of `ZMod p` when `n * d = 1 + k (p-1)`. -/
theorem pow_bijective (p : ℕ) [Fact p.Prime] (n d k : ℕ) (h : n * d = 1 + k * (p - 1)) :
    Function.Bijective (fun x : ZMod p => x ^ n) := by
  have hinv : ∀ x : ZMod p, (x ^ n) ^ d = x := by
    intro x
    rw [← pow_mul, h]
    by_cases hx : x = 0
    · subst hx; rw [pow_add, pow_one, zero_mul]
    · rw [pow_add, pow_one, Nat.mul_comm, pow_mul, ZMod.pow_card_sub_one_eq_one hx, one_pow, mul_one]
  have hinj : Function.Injective (fun x : ZMod p => x ^ n) := by
    intro x y hxy
    rw [← hinv x, ← hinv y]
    exact congrArg (· ^ d) hxy
  exact Finite.injective_iff_bijective.mp hinj

/-- Value of the formula for `MDS_INV`. -/
theorem mdsInv_eq [DecidableEq F] (m : Mds F 3) :
    mdsInv m = if (Matrix.of m).det = 0 then .error .invertZero
      else .ok (fun i j => ((Matrix.of m)⁻¹) i j) := by
  have hdet : m 0 0 * m 1 1 * m 2 2 - m 0 0 * m 2 1 * m 1 2 +
      (m 1 0 * m 2 1 * m 0 2 - m 1 0 * m 0 1 * m 2 2) +
      (m 2 0 * m 0 1 * m 1 2 - m 2 0 * m 1 1 * m 0 2) = (Matrix.of m).det := by
    rw [Matrix.det_fin_three]
    simp only [Matrix.of_apply]
    ring
  have hadj : (Matrix.of m)⁻¹ = Ring.inverse (Matrix.of m).det • (Matrix.of m).adjugate :=
    Matrix.inv_def _
  simp only [mdsInv]
  have e0 : (Fin.ofNat 3 0 : Fin 3) = 0 := rfl
  have e1 : (Fin.ofNat 3 1 : Fin 3) = 1 := rfl
  have e2 : (Fin.ofNat 3 2 : Fin 3) = 2 := rfl
  simp only [Nat.reduceAdd, Nat.reduceMod, Nat.reduceSub, e0, e1, e2, hdet]
  split
  · rfl
  · rename_i hne
    congr 1
    funext i j
    rw [hadj, Matrix.adjugate_fin_three]
    fin_cases i <;> fin_cases j <;> simp <;> ring

end

namespace Bn256

theorem roundConstants_length : roundConstants.length = 65 := by simp [roundConstants]

/-- The determinant of the BN254 matrix over the integers, from the literals. -/
def detInt : ℤ :=
  let m (i j : ℕ) : ℤ := ((mdsStrings.getD i []).getD j 0 : ℕ)
  m 0 0 * m 1 1 * m 2 2 - m 0 0 * m 1 2 * m 2 1 - m 0 1 * m 1 0 * m 2 2 +
    m 0 1 * m 1 2 * m 2 0 + m 0 2 * m 1 0 * m 2 1 - m 0 2 * m 1 1 * m 2 0

theorem det_eq : (Matrix.of mds).det = ((detInt : ℤ) : Fr) := by
  rw [Matrix.det_fin_three]
  simp only [Matrix.of_apply, mds, detInt]
  push_cast
  rfl

theorem det_ne_zero : (Matrix.of mds).det ≠ 0 := by
  rw [det_eq, Ne, ZMod.intCast_zmod_eq_zero_iff_dvd]
  decide +kernel

theorem sbox_bijective : Function.Bijective (fun x : Fr => x ^ 5) :=
  pow_bijective r 5 ((1 + 4 * (r - 1)) / 5) 4 (by decide +kernel)

/-- The permutation every build computes, in terms of the raw constants. -/
noncomputable def specPerm : State Fr 3 → State Fr 3 :=
  Spec.poseidon (fun x => x ^ 5) (Matrix.of mds) 4 57 (fun i => roundConstants.getD i 0)

theorem cached_ok : ∃ rc, cachedRoundConstants = .ok rc ∧ rc.length = 65 ∧
    (∀ short s, permute (hashSpec short) mds rc s = specPerm s) ∧
    (∀ j c, 4 ≤ j → j < 61 → rc[j]? = some c → ∀ k, k ≠ 0 → c k = 0) := by
  obtain ⟨rc, h1, h2, h3, h4, -, -⟩ :=
    compactConstants_spec (p128Pow5T3 57 : RSpec Fr) mds roundConstants (by simp [p128Pow5T3])
      (by simp [p128Pow5T3, roundConstants_length])
  have hraw : ∀ s, permute (p128Pow5T3 57) mds rc s = specPerm s := by
    intro s
    rw [h3 s, permute_eq_spec _ _ _ _ (by simp [p128Pow5T3, roundConstants_length])]
    rfl
  refine ⟨rc, h1, by rw [h2, roundConstants_length], ?_, by simpa [p128Pow5T3] using h4⟩
  intro short s
  cases short
  · exact hraw s
  · rw [← hraw s]
    exact permute_congr_sbox 8 57 _ _ sboxCompact_eq mds rc s

end Bn256
end Base
