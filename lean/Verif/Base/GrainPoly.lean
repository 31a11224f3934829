import Verif.Base.GrainLemmas
import Verif.Base.Pratt
import Mathlib.Tactic.NormNum.Prime
import Mathlib.Data.Nat.Prime.Basic

/-!
# The feedback polynomial of the Grain LFSR is primitive

Polynomials over GF(2) of degree below 80 are numbers below `2^80`, the coefficient of `x^j` being bit `j`. They
act on bit sequences as shift operators. On the sequences of the LFSR the product of polynomials may be taken modulo
the feedback polynomial `x^80 + x^62 + x^51 + x^38 + x^23 + x^13 + 1`.
-/

namespace Base.Grain

/-- The feedback polynomial. -/
def feedback : ℕ := 2 ^ 80 + 2 ^ 62 + 2 ^ 51 + 2 ^ 38 + 2 ^ 23 + 2 ^ 13 + 1

/-- The lowest `l` coefficients of `a` acting on a sequence. -/
def ev : ℕ → ℕ → (ℕ → Bool) → ℕ → Bool
  | 0, _, _, _ => false
  | l + 1, a, s, k => (a.testBit 0 && s k) ^^ ev l (a / 2) s (k + 1)

theorem ev_zero (l : ℕ) (s : ℕ → Bool) (k : ℕ) : ev l 0 s k = false := by
  induction l generalizing k with
  | zero => rfl
  | succ l ih => simp [ev, ih]

theorem ev_one (l : ℕ) (s : ℕ → Bool) (k : ℕ) : ev (l + 1) 1 s k = s k := by
  simp [ev, ev_zero]

theorem ev_xor (l a b : ℕ) (s : ℕ → Bool) (k : ℕ) : ev l (a ^^^ b) s k = (ev l a s k ^^ ev l b s k) := by
  induction l generalizing a b k with
  | zero => rfl
  | succ l ih =>
    have : (a ^^^ b) / 2 = a / 2 ^^^ b / 2 := by
      have := Nat.shiftRight_xor_distrib (a := a) (b := b) (i := 1)
      simpa [Nat.shiftRight_one] using this
    rw [ev, ev, ev, this, ih, Nat.testBit_xor]
    generalize ev l (a / 2) s (k + 1) = x
    generalize ev l (b / 2) s (k + 1) = y
    cases a.testBit 0 <;> cases b.testBit 0 <;> cases s k <;> cases x <;> cases y <;> rfl

theorem ev_seq_xor (l a : ℕ) (s t : ℕ → Bool) (k : ℕ) :
    ev l a (fun i => s i ^^ t i) k = (ev l a s k ^^ ev l a t k) := by
  induction l generalizing a k with
  | zero => rfl
  | succ l ih =>
    rw [ev, ev, ev, ih]
    generalize ev l (a / 2) s (k + 1) = x
    generalize ev l (a / 2) t (k + 1) = y
    cases a.testBit 0 <;> cases s k <;> cases t k <;> cases x <;> cases y <;> rfl

theorem ev_congr (l a : ℕ) (s t : ℕ → Bool) (k k' : ℕ) (h : ∀ i, i < l → s (k + i) = t (k' + i)) :
    ev l a s k = ev l a t k' := by
  induction l generalizing a k k' with
  | zero => rfl
  | succ l ih =>
    rw [ev, ev, ih (a / 2) (k + 1) (k' + 1), show s k = t k' from h 0 (by omega)]
    intro i hi
    rw [show k + 1 + i = k + (i + 1) by omega, show k' + 1 + i = k' + (i + 1) by omega]
    exact h (i + 1) (by omega)

theorem ev_false (l a : ℕ) (s : ℕ → Bool) (k : ℕ) (h : ∀ i, i < l → s (k + i) = false) :
    ev l a s k = false := by
  induction l generalizing a k with
  | zero => rfl
  | succ l ih =>
    rw [ev, ih (a / 2) (k + 1), show s k = false from h 0 (by omega)]
    · simp
    intro i hi
    rw [show k + 1 + i = k + (i + 1) by omega]
    exact h (i + 1) (by omega)

/-- Coefficients from `l` on do not exist. -/
theorem ev_extend (l a : ℕ) (ha : a < 2 ^ l) (s : ℕ → Bool) (k : ℕ) : ev (l + 1) a s k = ev l a s k := by
  induction l generalizing a k with
  | zero =>
    obtain rfl : a = 0 := by simpa using ha
    simp [ev]
  | succ l ih =>
    rw [ev, ih (a / 2) (by rw [Nat.pow_succ] at ha; omega), ev]

theorem ev_double (l a : ℕ) (s : ℕ → Bool) (k : ℕ) : ev (l + 1) (2 * a) s k = ev l a s (k + 1) := by
  rw [ev]
  simp

theorem ev_feedback (s : ℕ → Bool) (hs : Rec s) (k : ℕ) : ev 81 feedback s k = false := by
  have h := hs k
  have e : ev 81 feedback s k = (s k ^^ s (k + 13) ^^ s (k + 23) ^^ s (k + 38) ^^ s (k + 51) ^^ s (k + 62) ^^
      s (k + 80)) := by
    norm_num [ev, feedback, Nat.testBit_zero, Nat.add_assoc]
  rw [e, h]
  cases s k <;> cases s (k + 13) <;> cases s (k + 23) <;> cases s (k + 38) <;> cases s (k + 51) <;>
    cases s (k + 62) <;> rfl

/-- `f x`, evaluating `x` first (in the kernel). -/
def seqNat (x : ℕ) (f : ℕ → ℕ) : ℕ :=
  match x with
  | 0 => f 0
  | n + 1 => f (n + 1)

theorem seqNat_eq (x : ℕ) (f : ℕ → ℕ) : seqNat x f = f x := by cases x <;> rfl

/-- Multiplication by `x`. -/
def mulX (a : ℕ) : ℕ := if 2 * a < 2 ^ 80 then 2 * a else (2 * a) ^^^ feedback

theorem mulX_lt (a : ℕ) (ha : a < 2 ^ 80) : mulX a < 2 ^ 80 := by
  unfold mulX
  split
  · assumption
  · rename_i h
    apply Nat.lt_pow_two_of_testBit
    intro i hi
    rw [Nat.testBit_xor]
    rcases Nat.eq_or_lt_of_le hi with rfl | hi
    · have h1 : (2 * a).testBit 80 = true := by
        rw [Nat.testBit_eq_decide_div_mod_eq]
        simp only [decide_eq_true_eq]
        have : 2 * a / 2 ^ 80 = 1 := by
          rw [Nat.div_eq_iff (by positivity)]; omega
        rw [this]
      have h2 : feedback.testBit 80 = true := by decide
      rw [h1, h2]; rfl
    · have h1 : (2 * a).testBit i = false := Nat.testBit_lt_two_pow
        (lt_of_lt_of_le (by omega : 2 * a < 2 ^ 81) (Nat.pow_le_pow_right (by omega) hi))
      have h2 : feedback.testBit i = false := Nat.testBit_lt_two_pow
        (lt_of_lt_of_le (by decide : feedback < 2 ^ 81) (Nat.pow_le_pow_right (by omega) hi))
      rw [h1, h2]; rfl

theorem ev_mulX (a : ℕ) (ha : a < 2 ^ 80) (s : ℕ → Bool) (hs : Rec s) (k : ℕ) :
    ev 80 (mulX a) s k = ev 80 a s (k + 1) := by
  rw [← ev_extend 80 (mulX a) (mulX_lt a ha)]
  unfold mulX
  split
  · rw [ev_double]
  · rw [ev_xor, ev_double, ev_feedback s hs, Bool.xor_false]

/-- The product modulo the feedback polynomial: the `l` lowest coefficients of `a` by Horner's rule. -/
def mulMod (b : ℕ) : ℕ → ℕ → ℕ
  | 0, _ => 0
  | l + 1, a => seqNat (a / 2) fun a' => seqNat (mulMod b l a') fun r =>
    mulX r ^^^ (if a.testBit 0 then b else 0)

theorem mulMod_lt (b : ℕ) (hb : b < 2 ^ 80) (l a : ℕ) : mulMod b l a < 2 ^ 80 := by
  induction l generalizing a with
  | zero => simp [mulMod]
  | succ l ih =>
    rw [mulMod, seqNat_eq, seqNat_eq]
    apply Nat.xor_lt_two_pow (mulX_lt _ (ih _))
    split
    · exact hb
    · positivity

theorem ev_mulMod (b : ℕ) (hb : b < 2 ^ 80) (s : ℕ → Bool) (hs : Rec s) (l a k : ℕ) :
    ev 80 (mulMod b l a) s k = ev l a (ev 80 b s) k := by
  induction l generalizing a k with
  | zero => rw [mulMod, ev_zero, ev]
  | succ l ih =>
    rw [mulMod, seqNat_eq, seqNat_eq, ev_xor, ev_mulX _ (mulMod_lt b hb _ _) s hs, ih, ev, Bool.xor_comm]
    congr 1
    cases a.testBit 0
    · simp [ev_zero]
    · simp only [if_true, Bool.true_and]
      rfl

/-- `x^n` modulo the feedback polynomial, for `n` of at most `fuel` bits. -/
def powX : ℕ → ℕ → ℕ
  | 0, _ => 1
  | fuel + 1, n =>
    seqNat (n / 2) fun n' => seqNat (powX fuel n') fun h => seqNat (mulMod h 80 h) fun r =>
      if n.testBit 0 then mulX r else r

theorem powX_lt (fuel n : ℕ) : powX fuel n < 2 ^ 80 := by
  induction fuel generalizing n with
  | zero => norm_num [powX]
  | succ fuel ih =>
    rw [powX, seqNat_eq, seqNat_eq, seqNat_eq]
    split
    · exact mulX_lt _ (mulMod_lt _ (ih _) _ _)
    · exact mulMod_lt _ (ih _) _ _

theorem ev_powX (fuel n : ℕ) (hn : n < 2 ^ fuel) (s : ℕ → Bool) (hs : Rec s) (k : ℕ) :
    ev 80 (powX fuel n) s k = s (k + n) := by
  induction fuel generalizing n k with
  | zero =>
    obtain rfl : n = 0 := by simpa using hn
    rw [powX, ev_one]; rfl
  | succ fuel ih =>
    have h2 : n / 2 < 2 ^ fuel := by rw [Nat.pow_succ] at hn; omega
    have hsq : ∀ k, ev 80 (mulMod (powX fuel (n / 2)) 80 (powX fuel (n / 2))) s k = s (k + n / 2 + n / 2) := by
      intro k
      rw [ev_mulMod _ (powX_lt _ _) s hs,
        ev_congr 80 _ _ (fun i => s (i + n / 2)) k k (fun i _ => ih (n / 2) h2 _),
        ev_congr 80 _ (fun i => s (i + n / 2)) s k (k + n / 2) (fun i _ => by congr 1; omega), ih (n / 2) h2]
    rw [powX, seqNat_eq, seqNat_eq, seqNat_eq]
    have hp : n.testBit 0 = decide (n % 2 = 1) := Nat.testBit_zero n
    split
    · rename_i h
      rw [ev_mulX _ (mulMod_lt _ (powX_lt _ _) _ _) s hs, hsq]
      rw [hp] at h
      have : n % 2 = 1 := by simpa using h
      congr 1; omega
    · rename_i h
      rw [hsq]
      rw [hp] at h
      have : ¬ n % 2 = 1 := by simpa using h
      congr 1; omega

/-- The period. -/
def fullPeriod : ℕ := 2 ^ 80 - 1

/-- `x^(2^80-1) = 1`. -/
theorem powX_full : powX 80 fullPeriod = 1 := by decide +kernel

/-- For each prime divisor `q` of the period, `x^(period/q) + 1` is invertible. -/
theorem powX_inv :
    mulMod (powX 80 (fullPeriod / 3) ^^^ 1) 80 0x84af4b4000ca59a94615 = 1 ∧
    mulMod (powX 80 (fullPeriod / 5) ^^^ 1) 80 0xb3638d92d8743d158833 = 1 ∧
    mulMod (powX 80 (fullPeriod / 11) ^^^ 1) 80 0x5995672ac6bd2d400489 = 1 ∧
    mulMod (powX 80 (fullPeriod / 17) ^^^ 1) 80 0xf4c544f18b707617c751 = 1 ∧
    mulMod (powX 80 (fullPeriod / 31) ^^^ 1) 80 0x26dbb0423895fe2b6835 = 1 ∧
    mulMod (powX 80 (fullPeriod / 41) ^^^ 1) 80 0x4f9204fdf10733ea913e = 1 ∧
    mulMod (powX 80 (fullPeriod / 257) ^^^ 1) 80 0x8f38010568220764b9d3 = 1 ∧
    mulMod (powX 80 (fullPeriod / 61681) ^^^ 1) 80 0x540bad0ae0209f080d09 = 1 ∧
    mulMod (powX 80 (fullPeriod / 4278255361) ^^^ 1) 80 0x39ed9f7bcf318c3f7130 = 1 := by
  decide +kernel

theorem fullPeriod_factors : fullPeriod = 3 * (5 * 5) * 11 * 17 * 31 * 41 * 257 * 61681 * 4278255361 := by
  decide +kernel

theorem fullPeriod_prime (q : ℕ) (hq : q.Prime) (h : q ∣ fullPeriod) :
    q = 3 ∨ q = 5 ∨ q = 11 ∨ q = 17 ∨ q = 31 ∨ q = 41 ∨ q = 257 ∨ q = 61681 ∨ q = 4278255361 := by
  rw [fullPeriod_factors] at h
  simp only [hq.dvd_mul] at h
  have p1 : Nat.Prime 3 := by norm_num
  have p2 : Nat.Prime 5 := by norm_num
  have p3 : Nat.Prime 11 := by norm_num
  have p4 : Nat.Prime 17 := by norm_num
  have p5 : Nat.Prime 31 := by norm_num
  have p6 : Nat.Prime 41 := by norm_num
  have p7 : Nat.Prime 257 := by norm_num
  have p8 : Nat.Prime 61681 := by norm_num
  have p9 : Nat.Prime 4278255361 :=
    Pratt.prime_of_check _ 23 [(2, 8), (3, 1), (5, 1), (17, 1), (65537, 1)] (by decide +kernel) (by
      intro f hf
      simp only [List.mem_cons, List.not_mem_nil, or_false] at hf
      rcases hf with rfl | rfl | rfl | rfl | rfl <;> norm_num)
  rw [Nat.prime_dvd_prime_iff_eq hq p1, Nat.prime_dvd_prime_iff_eq hq p2, Nat.prime_dvd_prime_iff_eq hq p3,
    Nat.prime_dvd_prime_iff_eq hq p4, Nat.prime_dvd_prime_iff_eq hq p5, Nat.prime_dvd_prime_iff_eq hq p6,
    Nat.prime_dvd_prime_iff_eq hq p7, Nat.prime_dvd_prime_iff_eq hq p8, Nat.prime_dvd_prime_iff_eq hq p9] at h
  rcases h with (((((((h | h | h) | h) | h) | h) | h) | h) | h) | h <;> simp [h]

/-- A sequence of the LFSR on which an invertible polynomial vanishes is zero. -/
theorem zero_of_inv (s : ℕ → Bool) (hs : Rec s) (q u : ℕ)
    (hinv : mulMod (powX 80 (fullPeriod / q) ^^^ 1) 80 u = 1)
    (hper : ∀ k, s (k + fullPeriod / q) = s k) : ∀ k, s k = false := by
  intro k
  have h1 : ev 80 1 s k = s k := ev_one 79 s k
  have hlt : fullPeriod / q < 2 ^ 80 := lt_of_le_of_lt (Nat.div_le_self _ _) (by decide)
  rw [← h1, ← hinv, ev_mulMod _ (Nat.xor_lt_two_pow (powX_lt _ _) (by norm_num)) s hs]
  apply ev_false
  intro i _
  rw [ev_xor, ev_powX 80 _ hlt s hs, ev_one 79, hper, Bool.xor_self]

/-- The period of the LFSR divides `2^80 - 1`. -/
theorem rec_period (s : ℕ → Bool) (hs : Rec s) (k : ℕ) : s (k + fullPeriod) = s k := by
  rw [← ev_powX 80 fullPeriod (by decide) s hs, powX_full, ev_one 79]

theorem not_period_div (s : ℕ → Bool) (hs : Rec s) (q : ℕ) (hq : q.Prime) (hd : q ∣ fullPeriod)
    (hper : ∀ k, s (k + fullPeriod / q) = s k) : ∀ k, s k = false := by
  obtain ⟨i1, i2, i3, i4, i5, i6, i7, i8, i9⟩ := powX_inv
  rcases fullPeriod_prime q hq hd with rfl | rfl | rfl | rfl | rfl | rfl | rfl | rfl | rfl
  exacts [zero_of_inv s hs _ _ i1 hper, zero_of_inv s hs _ _ i2 hper,
    zero_of_inv s hs _ _ i3 hper, zero_of_inv s hs _ _ i4 hper,
    zero_of_inv s hs _ _ i5 hper, zero_of_inv s hs _ _ i6 hper,
    zero_of_inv s hs _ _ i7 hper, zero_of_inv s hs _ _ i8 hper,
    zero_of_inv s hs _ _ i9 hper]

/-- **The least period of a nonzero LFSR sequence is `2^80 - 1`.** -/
theorem period_iff (s : ℕ → Bool) (hs : Rec s) (hne : ∃ k, s k = true) (d : ℕ) :
    (∀ k, s (k + d) = s k) ↔ fullPeriod ∣ d := by
  have mul : ∀ (d : ℕ), (∀ k, s (k + d) = s k) → ∀ m k, s (k + d * m) = s k := by
    intro d hd m
    induction m with
    | zero => intro k; simp
    | succ m ih => intro k; rw [Nat.mul_succ, ← Nat.add_assoc, hd, ih]
  constructor
  · intro hd
    -- the greatest common divisor is a period
    have hg : ∀ m n : ℕ, (∀ k, s (k + m) = s k) → (∀ k, s (k + n) = s k) →
        ∀ k, s (k + Nat.gcd m n) = s k := by
      intro m n
      induction m, n using Nat.gcd.induction with
      | H0 n => intro _ h; simpa using h
      | H1 m n hm ih =>
        intro h1 h2
        rw [Nat.gcd_rec]
        apply ih _ h1
        intro k
        rw [← mul m h1 (n / m), Nat.add_assoc, Nat.mod_add_div, h2]
    have hgcd := hg d fullPeriod hd (rec_period s hs)
    have hdvd : Nat.gcd d fullPeriod ∣ fullPeriod := Nat.gcd_dvd_right _ _
    by_contra hc
    obtain ⟨c, hcN⟩ := hdvd
    have hc1 : c ≠ 1 := by
      rintro rfl
      rw [Nat.mul_one] at hcN
      exact hc (hcN ▸ Nat.gcd_dvd_left _ _)
    obtain ⟨q, hq, e, rfl⟩ := Nat.exists_prime_and_dvd hc1
    have hNq : fullPeriod / q = Nat.gcd d fullPeriod * e := by
      apply Nat.div_eq_of_eq_mul_right hq.pos
      rw [← Nat.mul_assoc, Nat.mul_comm q, Nat.mul_assoc]; exact hcN
    obtain ⟨k, hk⟩ := hne
    have := not_period_div s hs q hq ⟨Nat.gcd d fullPeriod * e, by
        rw [← Nat.mul_assoc, Nat.mul_comm q, Nat.mul_assoc]; exact hcN⟩
      (by rw [hNq]; exact mul _ hgcd e) k
    rw [hk] at this
    cases this
  · rintro ⟨m, rfl⟩
    exact mul _ (rec_period s hs) m

end Base.Grain
