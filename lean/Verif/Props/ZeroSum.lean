import Verif.Props.AlgDegree
import Mathlib.FieldTheory.Finite.Basic

/-!
# Sums of digests: C82

On a line of states the output words are polynomials of degree at most `5^65` (C68), far below the size of the field.
So the sum of any product of few output words over the whole line vanishes, and a line of inputs has many digests.
-/

set_option linter.unusedVariables false

namespace Props
open Base Polynomial

section General
variable {F : Type} [Field F] [Fintype F]

/-- The values of a polynomial of degree less than `q - 1` sum to 0. -/
private theorem sum_eval {p : F[X]} (h : p.natDegree < Fintype.card F - 1) : ∑ x : F, p.eval x = 0 := by
  simp only [eval_eq_sum_range]
  rw [Finset.sum_comm]
  refine Finset.sum_eq_zero fun n hn => ?_
  rw [← Finset.mul_sum, FiniteField.sum_pow_lt_card_sub_one, mul_zero]
  rw [Finset.mem_range] at hn
  omega

/-- **C82.** A product of output words, `k i` times word `i`, and of `a` times the position on the line, sums to 0 over
every line of states, if `a + e^rounds · Σ k i` is less than the number of non-zero elements. -/
theorem C82_moments {T : ℕ} [NeZero T] (e : ℕ) (he : 2 ≤ e) (M : Matrix (Fin T) (Fin T) F) (h rp : ℕ)
    (c : ℕ → Fin T → F) (s w : Fin T → F) (a : ℕ) (k : Fin T → ℕ)
    (hk : a + e ^ (2 * h + rp) * ∑ i, k i < Fintype.card F - 1) :
    ∑ x : F, x ^ a * ∏ i, Spec.poseidon (fun v => v ^ e) M h rp c (fun j => s j + x * w j) i ^ k i = 0 := by
  choose p hp hd _ using C68_lead e he M h rp c s w
  have e1 : ∀ x : F, x ^ a * ∏ i, Spec.poseidon (fun v => v ^ e) M h rp c (fun j => s j + x * w j) i ^ k i =
      (X ^ a * ∏ i, p i ^ k i).eval x := by
    intro x
    simp only [hp, eval_mul, eval_pow, eval_X, eval_prod]
  simp only [e1]
  refine sum_eval (lt_of_le_of_lt ?_ hk)
  refine natDegree_mul_le.trans (Nat.add_le_add (natDegree_X_pow_le a) ?_)
  refine (natDegree_prod_le _ _).trans ?_
  rw [Finset.mul_sum]
  refine Finset.sum_le_sum fun i _ => natDegree_pow_le.trans ?_
  rw [Nat.mul_comm]
  exact Nat.mul_le_mul_right _ (hd i)

omit [Field F] in
/-- A function whose values are each taken at most `n` times has more than `m` values, if `m * n < q`. -/
private theorem range_card {f : F → F} {n m : ℕ} (h : ∀ d, {x | f x = d}.ncard ≤ n) (hq : m * n < Fintype.card F) :
    m < (Set.range f).ncard := by
  classical
  have h1 : Fintype.card F ≤ n * (Finset.univ.image f).card := by
    rw [← Finset.card_univ]
    refine Finset.card_le_mul_card_image _ n fun d _ => ?_
    rw [← Set.ncard_coe_finset]
    refine le_trans (le_of_eq ?_) (h d)
    congr 1
    ext x
    simp
  have h2 : (Set.range f).ncard = (Finset.univ.image f).card := by
    rw [← Set.ncard_coe_finset, Finset.coe_image, Finset.coe_univ, Set.image_univ]
  rw [h2]
  by_contra hc
  have := Nat.mul_le_mul_left n (not_lt.1 hc)
  rw [Nat.mul_comm m] at hq
  omega

end General

/-! ### BN254 -/

open Bn256 in
/-- **C82, BN254**, the permutation: over every line of states. -/
theorem C82_permutation (short : Bool) (s w : Fin 3 → Fr) (a : ℕ) (k : Fin 3 → ℕ) (hk : a + 5 ^ 65 * ∑ i, k i < r - 1) :
    ∃ o : Fr → Fin 3 → Fr, (∀ x, permuteFr short (fun j => s j + x * w j) = .ok (o x)) ∧
      ∑ x, x ^ a * ∏ i, o x i ^ k i = 0 := by
  refine ⟨fun x => permBn fun j => s j + x * w j, fun x => ?_, ?_⟩
  · rw [Circuit.permuteFr_eq]
    rfl
  · refine C82_moments 5 (by norm_num) _ 4 57 _ s w a k ?_
    rwa [ZMod.card]

/-- The moments of a digest as a function of a field element `x`: each power of the digest times a power of `x` sums to 0
over the whole field, as long as the degree is less than `r - 1`. -/
def MomentsVanish (f : Bn256.Fr → Except Panic Bn256.Fr) : Prop :=
  ∃ g : Bn256.Fr → Bn256.Fr, (∀ x, f x = .ok (g x)) ∧ ∀ a k, a + 5 ^ 65 * k < Bn256.r - 1 → ∑ x, x ^ a * g x ^ k = 0

open Bn256 in
private theorem moments_line (s w : Fin 3 → Fr) (f : Fr → Except Panic Fr)
    (hf : ∀ x, f x = .ok (permBn (fun j => s j + x * w j) 0)) : MomentsVanish f := by
  refine ⟨_, hf, fun a k hk => ?_⟩
  have := C82_moments 5 (by norm_num) (Matrix.of mds) 4 57 (fun i => roundConstants.getD i 0) s w a ![k, 0, 0] (by
    rw [ZMod.card, Fin.sum_univ_three]
    simpa using hk)
  refine (Finset.sum_congr rfl fun x _ => ?_).trans this
  rw [Fin.prod_univ_three]
  simp only [Matrix.cons_val, pow_zero, mul_one]

open Bn256 in
/-- **C82**, `hash_with_domain`: over every line of arguments. -/
theorem C82_hash (short : Bool) (a a' b b' dom dom' : Fr) :
    MomentsVanish fun x => hashWithDomainFr short ![a + x * a', b + x * b'] (dom + x * dom') := by
  refine moments_line ![dom, a, b] ![dom', a', b'] _ fun x => ?_
  rw [(C04_C05_bn254 short false).1]
  congr 2
  funext i
  fin_cases i <;> rfl

open Bn256 in
/-- **C82**, `hash_msg`: over every line of last blocks, after any pairs of words. -/
theorem C82_message (short legacy : Bool) (cap : Option ℕ) (pairs : List (Fr × Fr)) (hlen : 2 * pairs.length + 2 < 2 ^ 64)
    (y y' z z' : Fr) :
    (MomentsVanish fun x => hashMsgFr short legacy ((pairs.flatMap fun w => [w.1, w.2]) ++ [y + x * y']) cap) ∧
    MomentsVanish fun x => hashMsgFr short legacy ((pairs.flatMap fun w => [w.1, w.2]) ++ [y + x * y', z + x * z']) cap := by
  constructor
  · obtain ⟨⟨c, u, v⟩, hs⟩ := message_last short legacy cap pairs hlen 1 (by simp) (by simp)
    refine moments_line ![c, u + y, v] ![0, y', 0] _ fun x => ?_
    rw [hs _ rfl]
    show Except.ok (permBn ![c, u + (y + x * y'), v] 0) = _
    congr 2
    funext i
    fin_cases i <;> simp [add_assoc]
  · obtain ⟨⟨c, u, v⟩, hs⟩ := message_last short legacy cap pairs hlen 2 (by simp) (by simp)
    refine moments_line ![c, u + y, v + z] ![0, y', z'] _ fun x => ?_
    rw [hs _ rfl]
    show Except.ok (permBn ![c, u + (y + x * y'), v + (z + x * z')] 0) = _
    congr 2
    funext i
    fin_cases i <;> simp [add_assoc]

open Bn256 in
/-- A function of a field element that is defined everywhere and has more than `2^102` values. -/
private theorem many (f : Fr → Except Panic Fr) (g : Fr → Fr) (hg : ∀ x, f x = .ok (g x))
    (h : ∀ D, {x | f x = .ok D}.ncard ≤ 5 ^ 65) : 2 ^ 102 < {D | ∃ x, f x = .ok D}.ncard := by
  have e : {D | ∃ x, f x = .ok D} = Set.range g := by
    ext D
    simp only [hg, Set.mem_ofPred_eq, Except.ok.injEq, Set.mem_range]
  rw [e]
  refine range_card (n := 5 ^ 65) (fun d => ?_) (by rw [ZMod.card]; norm_num [r])
  simpa only [hg, Except.ok.injEq] using h d

open Bn256 in
/-- **C82**, digests: one free argument of `hash_with_domain` gives more than `2^102` digests, as does one free word of the
last block of a message, whatever the other words are. -/
theorem C82_values (short legacy : Bool) :
    (∀ b dom, 2 ^ 102 < {D | ∃ a, hashWithDomainFr short ![a, b] dom = .ok D}.ncard) ∧
    (∀ a dom, 2 ^ 102 < {D | ∃ b, hashWithDomainFr short ![a, b] dom = .ok D}.ncard) ∧
    (∀ a b, 2 ^ 102 < {D | ∃ dom, hashWithDomainFr short ![a, b] dom = .ok D}.ncard) ∧
    ∀ (cap : Option ℕ) (pairs : List (Fr × Fr)), 2 * pairs.length + 2 < 2 ^ 64 →
      2 ^ 102 < {D | ∃ x, hashMsgFr short legacy ((pairs.flatMap fun w => [w.1, w.2]) ++ [x]) cap = .ok D}.ncard ∧
      ∀ y, 2 ^ 102 < {D | ∃ x, hashMsgFr short legacy ((pairs.flatMap fun w => [w.1, w.2]) ++ [x, y]) cap = .ok D}.ncard ∧
        2 ^ 102 < {D | ∃ x, hashMsgFr short legacy ((pairs.flatMap fun w => [w.1, w.2]) ++ [y, x]) cap = .ok D}.ncard := by
  have h := (C04_C05_bn254 short legacy).1
  have hc := C68_preimages short
  refine ⟨fun b dom => many _ _ (fun a => h a b dom) fun D => (hc D).2.1 b dom,
    fun a dom => many _ _ (fun b => h a b dom) fun D => (hc D).2.2.1 a dom,
    fun a b => many _ _ (fun dom => h a b dom) fun D => (hc D).2.2.2.1 a b, fun cap pairs hlen => ?_⟩
  have hm := C68_message short legacy cap pairs hlen
  obtain ⟨s1, h1⟩ := message_last short legacy cap pairs hlen 1 (by simp) (by simp)
  obtain ⟨s2, h2⟩ := message_last short legacy cap pairs hlen 2 (by simp) (by simp)
  exact ⟨many _ _ (fun x => h1 [x] rfl) fun D => (hm D).1,
    fun y => ⟨many _ _ (fun x => h2 [x, y] rfl) fun D => ((hm D).2 y).1, many _ _ (fun x => h2 [y, x] rfl) fun D => ((hm D).2 y).2⟩⟩

/-! ### Pallas -/

/-- **C82**, Pallas: over every line of states. -/
theorem C82_pasta (short : Bool) (s w : Fin 3 → Pasta.Fp) (a : ℕ) (k : Fin 3 → ℕ)
    (hk : a + 5 ^ 64 * ∑ i, k i < Pasta.p - 1) :
    ∃ o : Pasta.Fp → Fin 3 → Pasta.Fp, (∀ x, Pasta.permuteFp short (fun j => s j + x * w j) = .ok (o x)) ∧
      ∑ x, x ^ a * ∏ i, o x i ^ k i = 0 := by
  refine ⟨_, fun x => (C50_pasta_permutation short).1 _, ?_⟩
  refine C82_moments 5 (by norm_num) _ 4 56 _ s w a k ?_
  rwa [ZMod.card]

/-! ### The hypotheses can be met, and the bounds matter -/

/-- The sum of all digests of `[x, 2]` is 0, and so is that of their powers up to the `2^102`nd. -/
example (k : ℕ) (hk : k ≤ 2 ^ 102) : ∃ g : Bn256.Fr → Bn256.Fr,
    (∀ x, Bn256.hashWithDomainFr true ![x, 2] 0 = .ok (g x)) ∧ ∑ x, g x ^ k = 0 := by
  obtain ⟨g, h1, h2⟩ := C82_hash true 0 1 2 0 0 0
  refine ⟨g, fun x => ?_, ?_⟩
  · rw [← h1]
    simp
  · have := h2 0 k (lt_of_le_of_lt (Nat.add_le_add_left (Nat.mul_le_mul_left _ hk) 0) (by norm_num [Bn256.r]))
    simpa using this

private instance : Fact (Nat.Prime 5) := ⟨by norm_num⟩

/-- The bound of `C82_moments` cannot be raised: with no rounds over the field of 5 elements, `x^4` sums to `-1`. -/
example : ∑ x : ZMod 5, x ^ 4 * ∏ i, Spec.poseidon (fun v => v ^ 2) (1 : Matrix (Fin 1) (Fin 1) (ZMod 5)) 0 0
    (fun _ _ => 0) (fun j => 0 + x * 1) i ^ 0 ≠ 0 := by
  simp only [pow_zero, Finset.prod_const_one, mul_one]
  decide

/-- ... and `x^3` to 0, as `C82_moments` says. -/
example : ∑ x : ZMod 5, x ^ 3 * ∏ i, Spec.poseidon (fun v => v ^ 2) (1 : Matrix (Fin 1) (Fin 1) (ZMod 5)) 0 0
    (fun _ _ => 0) (fun j => 0 + x * 1) i ^ 0 = 0 :=
  C82_moments 2 le_rfl 1 0 0 _ (fun _ => 0) (fun _ => 1) 3 (fun _ => 0) (by rw [ZMod.card]; decide)

end Props
