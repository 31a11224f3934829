import Verif.Base.Sqrt
import Verif.Base.Pasta
import Mathlib.Data.Nat.Digits.Defs

/-!
# Square roots: C51
-/

namespace Props
open Base Base.Sqrt

private theorem limbs_eq (w : List ℕ) : limbs w = Nat.ofDigits (2 ^ 64) w := by
  induction w with
  | nil => rfl
  | cons x w ih => rw [Nat.ofDigits_cons, ← ih]; rfl

/-- **C51.** In a field of `2^S * t + 1` elements, `t` odd, with a root of unity of order exactly `2^S` and the
words of `(t - 1) / 2` given as exponent, `sqrt_tonelli_shanks` returns a square root of every square, and nothing
for an element that is not a square. -/
theorem C51_sqrt {F : Type} [Field F] [Fintype F] [DecidableEq F] (S t : ℕ) (root : F) (tm1d2 : List ℕ)
    (hcard : Fintype.card F = 2 ^ S * t + 1) (ht : t % 2 = 1) (hroot : IsPrimitiveRoot root (2 ^ S))
    (hexp : Nat.ofDigits (2 ^ 64) tm1d2 = (t - 1) / 2) (f : F) :
    (IsSquare f → ∃ x, sqrtTonelliShanks S root f tm1d2 = some x ∧ x * x = f) ∧
    (¬ IsSquare f → sqrtTonelliShanks S root f tm1d2 = none) := by
  rw [← limbs_eq] at hexp
  constructor
  · rintro ⟨g, hg⟩
    have key : (outer S ⟨S, f ^ limbs tm1d2 * f, f ^ limbs tm1d2 * f * f ^ limbs tm1d2, root⟩).x *
        (outer S ⟨S, f ^ limbs tm1d2 * f, f ^ limbs tm1d2 * f * f ^ limbs tm1d2, root⟩).x = f := by
      by_cases hf : f = 0
      · rw [zero_outer S _ (by simp [hf]), hf, mul_zero]
      · have hg0 : g ≠ 0 := fun h => hf (by rw [hg, h, mul_zero])
        have hgp : g ^ (2 ^ S * t) = 1 := by
          have := FiniteField.pow_card_sub_one_eq_one g hg0
          rwa [hcard, Nat.add_sub_cancel] at this
        have hb : f ^ limbs tm1d2 * f * f ^ limbs tm1d2 = f ^ t := by
          have e : t = limbs tm1d2 + 1 + limbs tm1d2 := by omega
          conv_rhs => rw [e, pow_add, pow_succ]
        have hx : (f ^ limbs tm1d2 * f) ^ 2 = f ^ t * f := by rw [← hb]; ring
        rw [hb, ← sq]
        by_cases hS : S = 0
        · subst hS
          have hft : f ^ t = 1 := by
            rw [hg, mul_pow]
            rw [pow_zero, one_mul] at hgp
            rw [hgp, one_mul]
          rw [outer, hx, hft, one_mul]
        · refine (run_outer f S _ ⟨hx, by simp; omega, le_rfl, ?_, ?_⟩).1
          · simp only
            have hsq : (root ^ 2 ^ (S - 1)) ^ 2 = 1 := by
              rw [← pow_mul, ← pow_succ, show S - 1 + 1 = S by omega, hroot.pow_eq_one]
            have hne : root ^ 2 ^ (S - 1) ≠ 1 :=
              hroot.pow_ne_one_of_pos_of_lt (by positivity) (Nat.pow_lt_pow_right (by norm_num) (by omega))
            have hprod : (root ^ 2 ^ (S - 1) - 1) * (root ^ 2 ^ (S - 1) + 1) = 0 := by
              linear_combination hsq
            rcases mul_eq_zero.mp hprod with h | h
            · exact absurd (sub_eq_zero.mp h) hne
            · exact eq_neg_of_add_eq_zero_left h
          · simp only
            rw [hg, ← sq, ← pow_mul, ← pow_mul, ← hgp]
            congr 1
            obtain ⟨s, rfl⟩ := Nat.exists_eq_succ_of_ne_zero hS
            simp only [Nat.succ_eq_add_one, Nat.add_sub_cancel, pow_succ]
            ring
    exact ⟨_, by simp only [sqrtTonelliShanks, key, if_true], key⟩
  · intro h
    simp only [sqrtTonelliShanks]
    rw [if_neg]
    intro he
    exact h ⟨_, he.symm⟩

/-- The Pallas base field meets the hypotheses: `S = 32`, the odd part of `p - 1`, `5^t` as root of unity. -/
example (f : Pasta.Fp) : ∃ root : Pasta.Fp, ∃ tm1d2,
    (IsSquare f → ∃ x, sqrtTonelliShanks 32 root f tm1d2 = some x ∧ x * x = f) ∧
    (¬ IsSquare f → sqrtTonelliShanks 32 root f tm1d2 = none) := by
  obtain ⟨t, ht⟩ : ∃ t, t = (Pasta.p - 1) / 2 ^ 32 := ⟨_, rfl⟩
  have hp : Pasta.p = 2 ^ 32 * t + 1 := by rw [ht]; decide +kernel
  refine ⟨(5 : Pasta.Fp) ^ t, [(t - 1) / 2 % 2 ^ 64, (t - 1) / 2 / 2 ^ 64 % 2 ^ 64, (t - 1) / 2 / 2 ^ 128 % 2 ^ 64,
    (t - 1) / 2 / 2 ^ 192], C51_sqrt 32 t _ _ ?_ ?_ ?_ ?_ f⟩
  · rw [ZMod.card, ← hp]
  · rw [ht]; decide +kernel
  · have h5 (e v : ℕ) (he : e < 2 ^ 300) (h : Pratt.powMod 5 e Pasta.p = v) : (5 : Pasta.Fp) ^ e = (v : ℕ) := by
      have h' := Pratt.powMod_eq 5 e Pasta.p he
      rw [h] at h'
      rw [h']; rfl
    have h1 : ((5 : Pasta.Fp) ^ t) ^ 2 ^ (31 + 1) = 1 := by
      rw [← pow_mul, h5 _ 1 (by rw [ht]; decide +kernel) (by rw [ht]; decide +kernel), Nat.cast_one]
    have h2 : ¬ ((5 : Pasta.Fp) ^ t) ^ 2 ^ 31 = 1 := by
      rw [← pow_mul, h5 _ (Pasta.p - 1) (by rw [ht]; decide +kernel) (by rw [ht]; decide +kernel)]
      intro h
      have := (ZMod.natCast_eq_natCast_iff' (Pasta.p - 1) 1 Pasta.p).mp (by rw [h, Nat.cast_one])
      revert this
      decide +kernel
    have : Fact (Nat.Prime 2) := ⟨Nat.prime_two⟩
    have := IsPrimitiveRoot.orderOf ((5 : Pasta.Fp) ^ t)
    rwa [orderOf_eq_prime_pow h2 h1] at this
  · rw [← limbs_eq]; simp only [limbs, List.foldr]; omega

end Props
