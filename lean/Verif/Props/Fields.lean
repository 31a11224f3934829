import Verif.Base.Fields
import Mathlib.Tactic.LinearCombination
import Mathlib.Tactic.Zify

/-!
# Multi-word integer helpers: C48
-/

namespace Props
open Base.Fields

/-- Value of a little-endian array of 64-bit words. -/
def wordsValue {n : ℕ} (w : Fin n → ℕ) : ℕ := ∑ i, w i * 2 ^ (64 * i.val)

private theorem split_spec {x : ℕ} (h : x < 2 ^ 128) :
    (split x).1 < 2 ^ 64 ∧ (split x).2 < 2 ^ 64 ∧ (split x).1 + 2 ^ 64 * (split x).2 = x := by
  have : x / 2 ^ 64 < 2 ^ 64 := by omega
  simp only [split, Nat.mod_eq_of_lt this]
  omega

private theorem mul_lt {b c : ℕ} (hb : b < 2 ^ 64) (hc : c < 2 ^ 64) :
    b * c ≤ (2 ^ 64 - 1) * (2 ^ 64 - 1) := Nat.mul_le_mul (by omega) (by omega)

/-- **C48** (addition). For all 64-bit words `a`, `b` and carry, `adc` does not overflow and returns
the exact 128-bit sum in two 64-bit words. -/
theorem C48_adc (a b carry : ℕ) (ha : a < 2 ^ 64) (hb : b < 2 ^ 64) (hc : carry < 2 ^ 64) :
    ∃ r c, adc a b carry = .ok (r, c) ∧ r < 2 ^ 64 ∧ c < 2 ^ 64 ∧ r + 2 ^ 64 * c = a + b + carry := by
  obtain ⟨h1, h2, h3⟩ := split_spec (x := a + b + carry) (by omega)
  refine ⟨_, _, ?_, h1, h2, h3⟩
  simp only [adc, add128, bind, Except.bind, pure, Except.pure, if_pos (show a + b < 2 ^ 128 by omega),
    if_pos (show a + b + carry < 2 ^ 128 by omega)]

/-- **C48** (subtraction). For all 64-bit words and a borrow word (whose top bit is the borrow), `sbb`
returns the difference modulo `2^64` and a borrow word, all ones or all zeros, whose top bit says
whether the difference was negative. -/
theorem C48_sbb (a b borrow : ℕ) (ha : a < 2 ^ 64) (hb : b < 2 ^ 64) (hc : borrow < 2 ^ 64) :
    ∃ r c, sbb a b borrow = .ok (r, c) ∧ r < 2 ^ 64 ∧ (c = 0 ∨ c = 2 ^ 64 - 1) ∧
      r + (b + borrow / 2 ^ 63) = a + 2 ^ 64 * (c / 2 ^ 63) := by
  have hs : borrow >>> 63 = borrow / 2 ^ 63 := Nat.shiftRight_eq_div_pow _ _
  have hq : borrow / 2 ^ 63 < 2 := by omega
  have hlt : b + borrow / 2 ^ 63 < 2 ^ 128 := by omega
  obtain ⟨q, hqq⟩ : ∃ q, q = borrow / 2 ^ 63 := ⟨_, rfl⟩
  rw [← hqq] at hs hq hlt ⊢
  have e : sbb a b borrow = .ok (split ((a + 2 ^ 128 - (b + q)) % 2 ^ 128)) := by
    simp only [sbb, add128, bind, Except.bind, pure, Except.pure, hs, if_pos hlt]
  obtain ⟨h1, h2, h3⟩ := split_spec (x := (a + 2 ^ 128 - (b + q)) % 2 ^ 128) (Nat.mod_lt _ (by norm_num))
  obtain ⟨r, c, hrc⟩ : ∃ r c, split ((a + 2 ^ 128 - (b + q)) % 2 ^ 128) = (r, c) := ⟨_, _, rfl⟩
  rw [hrc] at e h1 h2 h3
  simp only at h1 h2 h3
  refine ⟨r, c, e, h1, ?_, ?_⟩ <;> omega

private theorem mac_ok (a b c carry : ℕ) (ha : a < 2 ^ 64) (hb : b < 2 ^ 64) (hc : c < 2 ^ 64)
    (hk : carry < 2 ^ 64) :
    ∃ r k, mac a b c carry = .ok (r, k) ∧ r < 2 ^ 64 ∧ k < 2 ^ 64 ∧
      r + 2 ^ 64 * k = a + b * c + carry := by
  have hm := mul_lt hb hc
  obtain ⟨h1, h2, h3⟩ := split_spec (x := a + b * c + carry) (by omega)
  refine ⟨_, _, ?_, h1, h2, h3⟩
  simp only [mac, add128, mul128, bind, Except.bind, pure, Except.pure,
    if_pos (show b * c < 2 ^ 128 by omega), if_pos (show a + b * c < 2 ^ 128 by omega),
    if_pos (show a + b * c + carry < 2 ^ 128 by omega)]

private theorem macx_ok (a b c : ℕ) (ha : a < 2 ^ 64) (hb : b < 2 ^ 64) (hc : c < 2 ^ 64) :
    ∃ r k, macx a b c = .ok (r, k) ∧ r < 2 ^ 64 ∧ k < 2 ^ 64 ∧ r + 2 ^ 64 * k = a + b * c := by
  have hm := mul_lt hb hc
  obtain ⟨h1, h2, h3⟩ := split_spec (x := a + b * c) (by omega)
  refine ⟨_, _, ?_, h1, h2, h3⟩
  simp only [macx, add128, mul128, bind, Except.bind, pure, Except.pure,
    if_pos (show b * c < 2 ^ 128 by omega), if_pos (show a + b * c < 2 ^ 128 by omega)]

/-- **C48** (multiply-accumulate). `mac` and `macx` never overflow on 64-bit words and are exact. -/
theorem C48_mac (a b c carry : ℕ) (ha : a < 2 ^ 64) (hb : b < 2 ^ 64) (hc : c < 2 ^ 64)
    (hk : carry < 2 ^ 64) :
    (∃ r k, mac a b c carry = .ok (r, k) ∧ r < 2 ^ 64 ∧ k < 2 ^ 64 ∧
      r + 2 ^ 64 * k = a + b * c + carry) ∧
    ∃ r k, macx a b c = .ok (r, k) ∧ r < 2 ^ 64 ∧ k < 2 ^ 64 ∧ r + 2 ^ 64 * k = a + b * c :=
  ⟨mac_ok a b c carry ha hb hc hk, macx_ok a b c ha hb hc⟩

/-- **C48** (product). For all 256-bit numbers given by four 64-bit words, `mul_512` never overflows and
returns eight 64-bit words whose value is the product. -/
theorem C48_mul_512 (a b : Fin 4 → ℕ) (ha : ∀ i, a i < 2 ^ 64) (hb : ∀ i, b i < 2 ^ 64) :
    ∃ r, mul512 a b = .ok r ∧ (∀ i, r i < 2 ^ 64) ∧ wordsValue r = wordsValue a * wordsValue b := by
  obtain ⟨r0, c1, e1, l1, m1, q1⟩ := macx_ok 0 (a 0) (b 0) (by norm_num) (ha _) (hb _)
  obtain ⟨r1, c2, e2, l2, m2, q2⟩ := macx_ok c1 (a 0) (b 1) m1 (ha _) (hb _)
  obtain ⟨r2, c3, e3, l3, m3, q3⟩ := macx_ok c2 (a 0) (b 2) m2 (ha _) (hb _)
  obtain ⟨r3, c4, e4, l4, m4, q4⟩ := macx_ok c3 (a 0) (b 3) m3 (ha _) (hb _)
  obtain ⟨s1, d1, e5, l5, m5, q5⟩ := macx_ok r1 (a 1) (b 0) l2 (ha _) (hb _)
  obtain ⟨s2, d2, e6, l6, m6, q6⟩ := mac_ok r2 (a 1) (b 1) d1 l3 (ha _) (hb _) m5
  obtain ⟨s3, d3, e7, l7, m7, q7⟩ := mac_ok r3 (a 1) (b 2) d2 l4 (ha _) (hb _) m6
  obtain ⟨s4, d4, e8, l8, m8, q8⟩ := mac_ok c4 (a 1) (b 3) d3 m4 (ha _) (hb _) m7
  obtain ⟨t2, f1, e9, l9, m9, q9⟩ := macx_ok s2 (a 2) (b 0) l6 (ha _) (hb _)
  obtain ⟨t3, f2, e10, l10, m10, q10⟩ := mac_ok s3 (a 2) (b 1) f1 l7 (ha _) (hb _) m9
  obtain ⟨t4, f3, e11, l11, m11, q11⟩ := mac_ok s4 (a 2) (b 2) f2 l8 (ha _) (hb _) m10
  obtain ⟨t5, f4, e12, l12, m12, q12⟩ := mac_ok d4 (a 2) (b 3) f3 m8 (ha _) (hb _) m11
  obtain ⟨u3, g1, e13, l13, m13, q13⟩ := macx_ok t3 (a 3) (b 0) l10 (ha _) (hb _)
  obtain ⟨u4, g2, e14, l14, m14, q14⟩ := mac_ok t4 (a 3) (b 1) g1 l11 (ha _) (hb _) m13
  obtain ⟨u5, g3, e15, l15, m15, q15⟩ := mac_ok t5 (a 3) (b 2) g2 l12 (ha _) (hb _) m14
  obtain ⟨u6, g4, e16, l16, m16, q16⟩ := mac_ok f4 (a 3) (b 3) g3 m12 (ha _) (hb _) m15
  refine ⟨![r0, s1, t2, u3, u4, u5, u6, g4], ?_, ?_, ?_⟩
  · simp only [mul512, bind, Except.bind, e1, e2, e3, e4, e5, e6, e7, e8, e9, e10, e11, e12, e13, e14,
      e15, e16, pure, Except.pure]
  · intro i
    match i with
    | 0 => exact l1
    | 1 => exact l5
    | 2 => exact l9
    | 3 => exact l13
    | 4 => exact l14
    | 5 => exact l15
    | 6 => exact l16
    | 7 => exact m16
  · have hp : ∀ n : ℕ, (2 : ℕ) ^ (64 * n) = (2 ^ 64) ^ n := fun n => pow_mul 2 64 n
    simp only [wordsValue, hp]
    clear e1 e2 e3 e4 e5 e6 e7 e8 e9 e10 e11 e12 e13 e14 e15 e16 hp ha hb
    clear l1 l2 l3 l4 l5 l6 l7 l8 l9 l10 l11 l12 l13 l14 l15 l16
    clear m1 m2 m3 m4 m5 m6 m7 m8 m9 m10 m11 m12 m13 m14 m15 m16
    generalize (2 : ℕ) ^ 64 = X at *
    simp only [Fin.sum_univ_eight, Fin.sum_univ_four, Matrix.cons_val, Fin.coe_ofNat_eq_mod,
      Nat.reduceMod]
    zify at q1 q2 q3 q4 q5 q6 q7 q8 q9 q10 q11 q12 q13 q14 q15 q16 ⊢
    linear_combination X ^ 0 * q1 + X ^ 1 * q2 + X ^ 2 * q3 + X ^ 3 * q4 + X ^ 1 * q5 + X ^ 2 * q6 + X ^ 3 * q7 + X ^ 4 * q8 + X ^ 2 * q9 + X ^ 3 * q10 + X ^ 4 * q11 + X ^ 5 * q12 + X ^ 3 * q13 + X ^ 4 * q14 + X ^ 5 * q15 + X ^ 6 * q16

/-- Non-vacuity of C48: the largest words. -/
example : ∃ r, mul512 (fun _ => 2 ^ 64 - 1) (fun _ => 2 ^ 64 - 1) = .ok r ∧
    wordsValue r = (2 ^ 256 - 1) ^ 2 := by
  obtain ⟨r, h, -, hv⟩ := C48_mul_512 (fun _ => 2 ^ 64 - 1) (fun _ => 2 ^ 64 - 1) (by norm_num)
    (by norm_num)
  refine ⟨r, h, hv.trans ?_⟩
  simp [wordsValue, Fin.sum_univ_succ]

end Props
