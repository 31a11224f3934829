import Verif.Base.Bn256Lemmas

/-!
# Evaluation of the BN254 permutation on naturals

A fast evaluator for the specification permutation of `Fr`, proved equal to it, and known-answer
checks (tests of the transcription of the tables, not property proofs): the expected values are those in
the repository's unit tests.
-/

namespace Base.Bn256

/-- `M * (x, y, z)` with the literal matrix, modulo `r`. -/
def natMds (x y z : ℕ) : ℕ × ℕ × ℕ :=
  let m (i j : ℕ) : ℕ := (mdsStrings.getD i []).getD j 0
  ((m 0 0 * x + m 0 1 * y + m 0 2 * z) % r, (m 1 0 * x + m 1 1 * y + m 1 2 * z) % r,
    (m 2 0 * x + m 2 1 * y + m 2 2 * z) % r)

def natPow5 (x : ℕ) : ℕ := let a := x * x % r; a * a % r * x % r

/-- Run the rounds `i, i+1, ...` for which constants are left. -/
def natRounds : ℕ → List ℕ → ℕ × ℕ × ℕ → ℕ × ℕ × ℕ
  | i, a :: b :: c :: cs, (x, y, z) =>
    natRounds (i + 1) cs
      (if i < 4 ∨ 61 ≤ i then natMds (natPow5 (x + a)) (natPow5 (y + b)) (natPow5 (z + c))
       else natMds (natPow5 (x + a)) (y + b) (z + c))
  | _, _, s => s

/-- The permutation on representatives. -/
def natPerm (x y z : ℕ) : ℕ × ℕ × ℕ := natRounds 0 roundConstantStrings (x, y, z)

def toState (s : ℕ × ℕ × ℕ) : State Fr 3 := ![(s.1 : Fr), (s.2.1 : Fr), (s.2.2 : Fr)]

theorem natPow5_cast (x : ℕ) : ((natPow5 x : ℕ) : Fr) = (x : Fr) ^ 5 := by
  simp only [natPow5, ZMod.natCast_mod, Nat.cast_mul]
  ring

theorem natMds_cast (x y z : ℕ) :
    toState (natMds x y z) = Matrix.mulVec (Matrix.of mds) ![(x : Fr), (y : Fr), (z : Fr)] := by
  funext i
  fin_cases i <;>
  · simp only [toState, natMds, Matrix.mulVec, dotProduct, Fin.sum_univ_three, Matrix.of_apply, mds]
    simp only [ZMod.natCast_mod]
    push_cast
    rfl

theorem natRounds_cast (M : ℕ → State Fr 3) :
    ∀ (n i : ℕ) (cs : List ℕ) (s : ℕ × ℕ × ℕ), cs.length = 3 * n →
      (∀ k j : ℕ, (hj : j < 3) → k < n → ((cs.getD (3 * k + j) 0 : ℕ) : Fr) = M (i + k) ⟨j, hj⟩) →
      toState (natRounds i cs s) =
        (List.range' i n).foldl
          (fun x r => Spec.round (fun x => x ^ 5) (Matrix.of mds) 4 57 M r x) (toState s) := by
  intro n
  induction n with
  | zero =>
    intro i cs s hlen _
    have : cs = [] := List.length_eq_zero_iff.mp (by simpa using hlen)
    subst this; simp [natRounds]
  | succ n ih =>
    intro i cs s hlen hM
    match cs, s with
    | [], _ => simp at hlen
    | [_], _ => simp at hlen; omega
    | [_, _], _ => simp at hlen; omega
    | a :: b :: c :: cs, (x, y, z) =>
      rw [natRounds, List.range'_succ, List.foldl_cons, ih (i + 1) cs _ (by simp at hlen; omega)]
      · congr 1
        have h0 : (a : Fr) = M i 0 := by simpa using hM 0 0 (by omega) (by omega)
        have h1 : (b : Fr) = M i 1 := by simpa using hM 0 1 (by omega) (by omega)
        have h2 : (c : Fr) = M i 2 := by simpa using hM 0 2 (by omega) (by omega)
        unfold Spec.round
        rw [show (4 + 57 : ℕ) = 61 from rfl]
        split
        · rw [natMds_cast]
          unfold Spec.fullRound
          congr 1
          funext k
          fin_cases k <;> simp [toState, natPow5_cast, h0, h1, h2]
        · rw [natMds_cast]
          unfold Spec.partialRound
          congr 1
          funext k
          fin_cases k <;> simp [toState, natPow5_cast, h0, h1, h2]
      · intro k j hj hk
        have := hM (k + 1) j hj (by omega)
        rw [show 3 * (k + 1) + j = (3 * k + j) + 1 + 1 + 1 by omega] at this
        simp only [List.getD_cons_succ] at this
        rw [this]
        congr 1
        omega

theorem natPerm_cast (x y z : ℕ) :
    specPerm ![(x : Fr), (y : Fr), (z : Fr)] = toState (natPerm x y z) := by
  unfold natPerm
  rw [natRounds_cast (fun i => roundConstants.getD i 0) 65 0 roundConstantStrings (x, y, z) rfl]
  · simp only [specPerm, Spec.poseidon, List.range_eq_range']
    rfl
  · intro k j hj hk
    simp only [zero_add, roundConstants, List.getD_eq_getElem?_getD, List.getElem?_map,
      List.getElem?_range hk, Option.map_some, Option.getD_some, Nat.mul_comm]

/-- Known answer: the permutation of `[0, 1, 2]` (unit tests of `septidon` and the iden3 vectors). -/
theorem kat_perm_012 : natPerm 0 1 2 =
    (0x115cc0f5e7d690413df64c6b9662e9cf2a3617f2743245519e19607a4417189a,
     0x0fca49b798923ab0239de1c9e7a4a9a2210312b6a2f616d18b5a87f9b628ae29,
     0x0e7ae82e40091e63cbd4f16a6d16310b3729d4b6e138fcf54110e2867045a30c) := by
  decide +kernel

end Base.Bn256
