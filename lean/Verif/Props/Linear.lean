import Verif.Props.LinearLemmas
import Verif.Props.Universal
import Mathlib.Analysis.SpecialFunctions.Complex.CircleAddChar

/-!
# Linear correlations over the choice of the last two rows of round constants: C85

A linear attack looks for a function of the input that is correlated with a linear combination of the output words. Over
the choice of the constants of the last two full rounds alone, all other constants being those of the crate, the squared
correlation of any function of the input with any linear combination of the outputs is small on average. The bound rests
on the matrix being MDS and on the correlations of `x^5`, bounded here by a fourth moment; the bound of Weil, which is not
proved here, is smaller.
-/

set_option linter.unusedVariables false
set_option linter.unusedSectionVars false
set_option linter.unusedDecidableInType false
set_option linter.unusedFintypeInType false

namespace Props
open Base Trails Matrix

/-! ## Specification -/

namespace Linear

/-- Correlation of a function `φ` of the input with a function `out` into the field, through the character `ψ`. -/
noncomputable def corr {F X : Type} [Field F] [Fintype X] (ψ : AddChar F ℂ) (φ : X → ℂ) (out : X → F) : ℂ :=
  (∑ x, φ x * ψ (out x)) / Fintype.card X

end Linear
open Linear

section
variable {F : Type} [Field F] [DecidableEq F] [Fintype F] {T : ℕ} [NeZero T]

/-- **C85, S-box.** The correlation of a multiple of `z` with a multiple of `z^5`, neither zero. -/
theorem C85_sbox {ψ : AddChar F ℂ} (hψ : ψ ≠ 1) (h5 : (5 : F) ≠ 0) {u v : F} (hu : u ≠ 0) :
    ((Fintype.card F : ℝ) - 1) * ‖corr ψ (fun z => ψ (u * z)) (fun z => v * z ^ 5)‖ ^ 4 ≤ 5 := by
  have h := gsum_fourth (AddChar.IsPrimitive.of_ne_one hψ) h5 (u := -u) (v := v) (neg_ne_zero.mpr hu)
  have e : corr ψ (fun z => ψ (u * z)) (fun z => v * z ^ 5) = gsum ψ (-u) v / Fintype.card F := by
    unfold corr gsum
    congr 1
    refine Finset.sum_congr rfl fun z _ => ?_
    rw [← AddChar.map_add_eq_mul]
    congr 1
    ring
  have hq := card_pos (F := F)
  rw [e, norm_div, Complex.norm_natCast, div_pow, ← mul_div_assoc, div_le_iff₀ (by positivity)]
  exact h

/-- The last two rounds with their constants replaced. -/
theorem poseidon_last_two (sbox : F → F) (M : Matrix (Fin T) (Fin T) F) (h rp : ℕ) (hh : 2 ≤ h) (c : ℕ → Fin T → F)
    (k₁ k₂ x : Fin T → F) :
    Spec.poseidon sbox M h rp (Function.update (Function.update c (2 * h + rp - 2) k₁) (2 * h + rp - 1) k₂) x =
      M *ᵥ fun i => sbox ((M *ᵥ fun j => sbox (stateAt sbox M h rp c (2 * h + rp - 2) x j + k₁ j)) i + k₂ i) := by
  funext i
  rw [poseidon_last sbox M h rp (by omega)]
  obtain ⟨n, hn⟩ : ∃ n, 2 * h + rp = n + 2 := ⟨2 * h + rp - 2, by omega⟩
  rw [show 2 * h + rp - 1 = n + 1 by omega, show 2 * h + rp - 2 = n by omega, Trails.stateAt_succ,
    Differential.stateAt_congr sbox M h rp (c' := c) (fun k hk => Function.update_of_ne (by omega) _ _) x]
  unfold Spec.round
  rw [if_pos (Or.inr (by omega)), Function.update_self]
  rfl

/-- **C85, average.** Squared correlation of any function of the input with any linear combination of the outputs, summed
over the rows of constants of the last two full rounds. The inputs are given by an injective map `ι`, so that they can be
all states or those of a hash with a fixed capacity. -/
theorem C85_average {X : Type} [Fintype X] [Nonempty X] {ψ : AddChar F ℂ} (hψ : ψ ≠ 1) {sbox : F → F}
    (hs : Function.Bijective sbox) {p : ℝ} (hp0 : 0 ≤ p)
    (hp : ∀ u v : F, u ≠ 0 → v ≠ 0 → ‖corr ψ (fun z => ψ (u * z)) (fun z => v * sbox z)‖ ^ 2 ≤ p)
    {M : Matrix (Fin T) (Fin T) F} (hM : IsMds M) (h rp : ℕ) (hh : 2 ≤ h) (c : ℕ → Fin T → F) {ι : X → Fin T → F}
    (hι : Function.Injective ι) (φ : X → ℂ) (hφ : ∀ x, ‖φ x‖ ≤ 1) {b : Fin T → F} (hb : b ≠ 0) :
    ∑ k : (Fin T → F) × (Fin T → F), ‖corr ψ φ fun x => b ⬝ᵥ Spec.poseidon sbox M h rp
        (Function.update (Function.update c (2 * h + rp - 2) k.1) (2 * h + rp - 1) k.2) (ι x)‖ ^ 2 ≤
      (Fintype.card F : ℝ) ^ (2 * T) * (p ^ T * ((Fintype.card F : ℝ) ^ T / Fintype.card X)) := by
  have hP := AddChar.IsPrimitive.of_ne_one hψ
  have hdet : IsUnit M.det := isUnit_iff_ne_zero.mpr (by
    simpa using hM T id id Function.injective_id Function.injective_id)
  have hg : Function.Injective fun x => stateAt sbox M h rp c (2 * h + rp - 2) (ι x) := by
    intro x y hxy
    by_contra hne
    exact stateAt_ne hs hdet _ (hι.ne hne) hxy
  have hlp : ∀ u v, u ≠ 0 → v ≠ 0 → lp ψ sbox u v ≤ p := by
    intro u v hu hv
    refine le_trans (le_of_eq ?_) (hp (-u) v (neg_ne_zero.mpr hu) hv)
    unfold lp shat corr
    rw [div_eq_inv_mul]
    congr 3
    refine Finset.sum_congr rfl fun z _ => ?_
    rw [← AddChar.map_add_eq_mul]
    congr 1
    ring
  have key := two_rounds hP hs hp0 hlp hM φ hg hb
  have hX : (0 : ℝ) < Fintype.card X := by exact_mod_cast Fintype.card_pos
  have hq := card_pos (F := F)
  simp only [poseidon_last_two sbox M h rp hh]
  unfold corr
  simp only [norm_div, div_pow, Complex.norm_natCast, ← Finset.sum_div]
  rw [Fintype.sum_prod_type, div_le_iff₀ (by positivity)]
  refine key.trans ?_
  have hsum : ∑ x, ‖φ x‖ ^ 2 ≤ (Fintype.card X : ℝ) := by
    refine (Finset.sum_le_sum fun x _ => pow_le_one₀ (n := 2) (norm_nonneg _) (hφ x)).trans ?_
    simp
  have e : (Fintype.card F : ℝ) ^ (2 * T) * (p ^ T * ((Fintype.card F : ℝ) ^ T / Fintype.card X)) *
      (Fintype.card X : ℝ) ^ 2 = (Fintype.card F : ℝ) ^ (2 * T) * p ^ T * ((Fintype.card F : ℝ) ^ T * Fintype.card X) := by
    field_simp
  rw [e]
  gcongr

/-- The number of terms that reach a bound. -/
theorem markov {K : Type} [Fintype K] (f : K → ℝ) {B : ℝ} (hB : ∑ k, f k ^ 2 ≤ B) {ε : ℝ} (hε : 0 ≤ ε) :
    (Nat.card {k // ε ≤ f k} : ℝ) * ε ^ 2 ≤ B := by
  classical
  rw [Nat.card_eq_fintype_card, Fintype.card_subtype, ← nsmul_eq_mul]
  refine le_trans ?_ hB
  refine le_trans (Finset.card_nsmul_le_sum _ (fun k => f k ^ 2) _ fun k hk => ?_)
    (Finset.sum_le_sum_of_subset_of_nonneg (Finset.subset_univ _) fun k _ _ => sq_nonneg _)
  exact pow_le_pow_left₀ hε (Finset.mem_filter.mp hk).2 2

/-- **C85, count.** Number of choices of the last two rows of constants for which the correlation is at least `ε`. -/
theorem C85_count {X : Type} [Fintype X] [Nonempty X] {ψ : AddChar F ℂ} (hψ : ψ ≠ 1) {sbox : F → F}
    (hs : Function.Bijective sbox) {p : ℝ} (hp0 : 0 ≤ p)
    (hp : ∀ u v : F, u ≠ 0 → v ≠ 0 → ‖corr ψ (fun z => ψ (u * z)) (fun z => v * sbox z)‖ ^ 2 ≤ p)
    {M : Matrix (Fin T) (Fin T) F} (hM : IsMds M) (h rp : ℕ) (hh : 2 ≤ h) (c : ℕ → Fin T → F) {ι : X → Fin T → F}
    (hι : Function.Injective ι) (φ : X → ℂ) (hφ : ∀ x, ‖φ x‖ ≤ 1) {b : Fin T → F} (hb : b ≠ 0) {ε : ℝ} (hε : 0 ≤ ε) :
    (Nat.card {k : (Fin T → F) × (Fin T → F) // ε ≤ ‖corr ψ φ fun x => b ⬝ᵥ Spec.poseidon sbox M h rp
        (Function.update (Function.update c (2 * h + rp - 2) k.1) (2 * h + rp - 1) k.2) (ι x)‖} : ℝ) * ε ^ 2 ≤
      (Fintype.card F : ℝ) ^ (2 * T) * (p ^ T * ((Fintype.card F : ℝ) ^ T / Fintype.card X)) :=
  markov _ (C85_average hψ hs hp0 hp hM h rp hh c hι φ hφ hb) hε

end

/-! ## The instances of the crate -/

/-- The permutation of the code with the last two rows of its constants replaced. -/
theorem permute_set_last_two {F : Type} [Field F] (S : RSpec F) (rp : ℕ) (hf : S.fullRounds = 8)
    (hp : S.partialRounds = rp) (hs : ∀ x, S.sbox x = x ^ 5) (mds : Mds F 3) (rc : List (State F 3))
    (hl : rc.length = 8 + rp) (k₁ k₂ s : State F 3) :
    permute S mds ((rc.set (6 + rp) k₁).set (7 + rp) k₂) s =
      Spec.poseidon (fun x => x ^ 5) (Matrix.of mds) 4 rp
        (Function.update (Function.update (fun i => rc.getD i 0) (2 * 4 + rp - 2) k₁) (2 * 4 + rp - 1) k₂) s := by
  rw [permute_set_last S rp hf hp hs mds _ (by rw [List.length_set, hl])]
  congr 2
  funext i
  by_cases hi : i = 6 + rp
  · subst hi
    rw [show 2 * 4 + rp - 2 = 6 + rp by omega, Function.update_self, List.getD_eq_getElem?_getD,
      List.getElem?_set_self (by omega)]
    rfl
  · rw [Function.update_of_ne (by omega), List.getD_eq_getElem?_getD, List.getElem?_set_ne (by omega),
      List.getD_eq_getElem?_getD]

/-- General form of the instances: a field of at least `2^253` elements. -/
theorem linear_instance {F : Type} [Field F] [DecidableEq F] [Fintype F] {q : ℕ} (hq : Fintype.card F = q)
    (hlo : 2 ^ 253 < q) (h5 : (5 : F) ≠ 0) (hs : Function.Bijective fun x : F => x ^ 5) {M : Matrix (Fin 3) (Fin 3) F}
    (hM : IsMds M) (rp : ℕ) (c : ℕ → Fin 3 → F) {X : Type} [Fintype X] [Nonempty X] {ψ : AddChar F ℂ} (hψ : ψ ≠ 1)
    {ι : X → Fin 3 → F} (hι : Function.Injective ι) (φ : X → ℂ) (hφ : ∀ x, ‖φ x‖ ≤ 1) {b : Fin 3 → F} (hb : b ≠ 0) :
    (∑ k : (Fin 3 → F) × (Fin 3 → F), ‖corr ψ φ fun x => b ⬝ᵥ Spec.poseidon (fun x => x ^ 5) M 4 rp
        (Function.update (Function.update c (2 * 4 + rp - 2) k.1) (2 * 4 + rp - 1) k.2) (ι x)‖ ^ 2) * 2 ^ 375 *
      (Fintype.card X : ℝ) ≤ (q : ℝ) ^ 9 := by
  have hp : ∀ u v : F, u ≠ 0 → v ≠ 0 → ‖corr ψ (fun z => ψ (u * z)) (fun z => v * z ^ 5)‖ ^ 2 ≤ ((2 : ℝ) ^ 125)⁻¹ := by
    intro u v hu hv
    have h := C85_sbox hψ h5 (v := v) hu
    refine abs_le_of_sq_le_sq' ?_ (by positivity) |>.2
    rw [← pow_mul, inv_pow, ← pow_mul]
    have hlo' : ((2 : ℝ) ^ 253) < (q : ℝ) := by exact_mod_cast hlo
    rw [hq] at h
    generalize ‖corr ψ (fun z => ψ (u * z)) (fun z => v * z ^ 5)‖ ^ 4 = y at h
    have h2 : y * 2 ^ 253 ≤ 5 := by
      by_contra hc
      push Not at hc
      have hy : 0 < y := by
        by_contra hy
        push Not at hy
        linarith [mul_nonpos_of_nonpos_of_nonneg hy (by positivity : (0 : ℝ) ≤ 2 ^ 253)]
      have h1 : (2 : ℝ) ^ 253 ≤ (q : ℝ) - 1 := by
        have : 2 ^ 253 + 1 ≤ q := hlo
        have : ((2 ^ 253 + 1 : ℕ) : ℝ) ≤ (q : ℝ) := Nat.cast_le.mpr this
        push_cast at this
        linarith
      linarith [mul_le_mul_of_nonneg_right h1 hy.le]
    rw [show (125 * 2 : ℕ) = 250 from rfl, ← one_div, le_div_iff₀ (by positivity)]
    linarith
  have key := C85_average hψ hs (p := ((2 : ℝ) ^ 125)⁻¹) (by positivity) hp hM 4 rp (by norm_num) c hι φ hφ hb
  have hX : (0 : ℝ) < Fintype.card X := by exact_mod_cast Fintype.card_pos
  rw [hq] at key
  generalize (∑ k : (Fin 3 → F) × (Fin 3 → F), ‖corr ψ φ fun x => b ⬝ᵥ Spec.poseidon (fun x => x ^ 5) M 4 rp
        (Function.update (Function.update c (2 * 4 + rp - 2) k.1) (2 * 4 + rp - 1) k.2) (ι x)‖ ^ 2) = A at key
  calc A * 2 ^ 375 * (Fintype.card X : ℝ) ≤
      ((q : ℝ) ^ (2 * 3) * (((2 : ℝ) ^ 125)⁻¹ ^ 3 * ((q : ℝ) ^ 3 / Fintype.card X))) * 2 ^ 375 * Fintype.card X := by gcongr
    _ = (q : ℝ) ^ 9 := by
      rw [inv_pow, ← pow_mul, show (125 * 3 : ℕ) = 375 from rfl, show (2 * 3 : ℕ) = 6 from rfl]
      field_simp

theorem counted_states {K : Type} [Fintype K] (f : K → ℝ) {q : ℕ} (hq : 2 ^ 253 < q)
    (h : (∑ k, f k ^ 2) * 2 ^ 375 * ((q ^ 3 : ℕ) : ℝ) ≤ (q : ℝ) ^ 9) {ε : ℝ} (hε : 0 ≤ ε) :
    (Nat.card {k // ε ≤ f k} : ℝ) * ε ^ 2 * 2 ^ 375 ≤ (q : ℝ) ^ 6 := by
  have hq0 : (0 : ℝ) < q := by exact_mod_cast lt_trans (by positivity) hq
  push_cast at h
  have h' : (∑ k, f k ^ 2) * 2 ^ 375 ≤ (q : ℝ) ^ 6 :=
    le_of_mul_le_mul_right (h.trans (le_of_eq (by ring))) (by positivity : (0 : ℝ) < (q : ℝ) ^ 3)
  exact (mul_le_mul_of_nonneg_right (markov f le_rfl hε) (by positivity)).trans h'

theorem counted_pairs {K : Type} [Fintype K] (f : K → ℝ) {q : ℕ} (hq : 2 ^ 253 < q) (hq' : q < 2 ^ 254)
    (h : (∑ k, f k ^ 2) * 2 ^ 375 * ((q * q : ℕ) : ℝ) ≤ (q : ℝ) ^ 9) {ε : ℝ} (hε : 0 ≤ ε) :
    (Nat.card {k // ε ≤ f k} : ℝ) * ε ^ 2 * 2 ^ 121 ≤ (q : ℝ) ^ 6 := by
  have hq0 : (0 : ℝ) < q := by exact_mod_cast lt_trans (by positivity) hq
  have hq1 : (q : ℝ) ≤ 2 ^ 254 := by exact_mod_cast hq'.le
  push_cast at h
  have h' : (∑ k, f k ^ 2) * 2 ^ 375 ≤ (q : ℝ) ^ 6 * 2 ^ 254 := by
    refine le_trans ?_ (mul_le_mul_of_nonneg_left hq1 (by positivity))
    exact le_of_mul_le_mul_right (h.trans (le_of_eq (by ring))) (by positivity : (0 : ℝ) < (q : ℝ) * q)
  have h'' : (∑ k, f k ^ 2) * 2 ^ 121 ≤ (q : ℝ) ^ 6 := by
    refine le_of_mul_le_mul_right (le_trans (le_of_eq ?_) h') (by positivity : (0 : ℝ) < 2 ^ 254)
    rw [mul_assoc, ← pow_add]
  exact (mul_le_mul_of_nonneg_right (markov f le_rfl hε) (by positivity)).trans h''

open Bn256 in
/-- **C85, BN254.** The permutation with the cached constants of either build, of which the last two rows are replaced by
`k`. For any function `φ` of the input and any linear combination `b` of the outputs, at most one in `2^375 ε²` of the
`r^6` choices has a correlation of `ε` or more. For `hash_with_domain` with a fixed domain, any function of the two
words and any multiple of the digest, it is at most one in `2^121 ε²`. -/
theorem C85_bn254 (short : Bool) : ∃ rc, cachedRoundConstants = .ok rc ∧ rc.length = 65 ∧
    ∀ ψ : AddChar Fr ℂ, ψ ≠ 1 →
    (∀ (φ : State Fr 3 → ℂ) (b : Fin 3 → Fr) (ε : ℝ), (∀ x, ‖φ x‖ ≤ 1) → b ≠ 0 → 0 ≤ ε →
      (Nat.card {k : State Fr 3 × State Fr 3 // ε ≤ ‖corr ψ φ fun x => b ⬝ᵥ
        permute (hashSpec short) mds ((rc.set 63 k.1).set 64 k.2) x‖} : ℝ) * ε ^ 2 * 2 ^ 375 ≤ (r : ℝ) ^ 6) ∧
    (∀ dom : Fr, ∃ digest : State Fr 3 × State Fr 3 → Fr × Fr → Fr,
      (∀ k x, hashWithDomain (permute (hashSpec short) mds ((rc.set 63 k.1).set 64 k.2)) ![x.1, x.2] dom =
        .ok (digest k x)) ∧
      ∀ (φ : Fr × Fr → ℂ) (t : Fr) (ε : ℝ), (∀ x, ‖φ x‖ ≤ 1) → t ≠ 0 → 0 ≤ ε →
        (Nat.card {k : State Fr 3 × State Fr 3 // ε ≤ ‖corr ψ φ fun x => t * digest k x‖} : ℝ) * ε ^ 2 * 2 ^ 121 ≤
          (r : ℝ) ^ 6) := by
  obtain ⟨rc, h1, h2, -, -⟩ := cached_ok
  have h5 : (5 : Fr) ≠ 0 := by
    have := (ZMod.natCast_eq_zero_iff 5 r).not.mpr (by decide +kernel)
    simpa using this
  have hc : Fintype.card Fr = r := ZMod.card _
  have hr : 2 ^ 253 < r := by norm_num [r]
  have hr' : r < 2 ^ 254 := by norm_num [r]
  obtain ⟨-, -, inv, N, -, hN⟩ := C49_bn254_constants
  have hM : IsMds (Matrix.of mds) := default_isMds (hN N le_rfl)
  have hp : ∀ k₁ k₂ s, permute (hashSpec short) mds ((rc.set 63 k₁).set 64 k₂) s = _ := fun k₁ k₂ s =>
    permute_set_last_two (hashSpec short) 57 (by cases short <;> rfl) (by cases short <;> rfl)
      (by cases short <;> intro x <;> first | rfl | exact sboxCompact_eq x) mds rc h2 k₁ k₂ s
  refine ⟨rc, h1, h2, fun ψ hψ => ⟨fun φ b ε hφ hb hε => ?_, fun dom => ⟨fun k x => permute (hashSpec short) mds
    ((rc.set 63 k.1).set 64 k.2) ![dom, x.1, x.2] 0, fun k x => (C04_hash_with_domain _ _ _ _).1, fun φ t ε hφ ht hε => ?_⟩⟩⟩
  · have key := linear_instance hc hr h5 sbox_bijective hM 57 (fun i => rc.getD i 0) hψ (ι := id) Function.injective_id φ
      hφ hb
    simp only [id_eq, ← hp] at key
    rw [Fintype.card_fun, hc, Fintype.card_fin] at key
    exact counted_states _ hr key hε
  · have hb : (![t, 0, 0] : Fin 3 → Fr) ≠ 0 := fun h => ht (congrFun h 0)
    have hι : Function.Injective fun x : Fr × Fr => (![dom, x.1, x.2] : Fin 3 → Fr) := by
      intro x y hxy
      exact Prod.ext (congrFun hxy 1) (congrFun hxy 2)
    have key := linear_instance hc hr h5 sbox_bijective hM 57 (fun i => rc.getD i 0) hψ hι φ hφ hb
    simp only [← hp] at key
    rw [Fintype.card_prod, hc] at key
    have e : ∀ v : Fin 3 → Fr, ![t, 0, 0] ⬝ᵥ v = t * v 0 := fun v => by
      simp [dotProduct, Fin.sum_univ_three]
    simp only [e] at key
    exact counted_pairs _ hr hr' key hε

/-- **C85, Pallas.** The permutation with the cached constants of either build. -/
theorem C85_pasta (short : Bool) : ∃ rc, Pasta.cachedRoundConstants short = .ok rc ∧ rc.length = 64 ∧
    ∀ ψ : AddChar Pasta.Fp ℂ, ψ ≠ 1 →
    ∀ (φ : State Pasta.Fp 3 → ℂ) (b : Fin 3 → Pasta.Fp) (ε : ℝ), (∀ x, ‖φ x‖ ≤ 1) → b ≠ 0 → 0 ≤ ε →
      (Nat.card {k : State Pasta.Fp 3 × State Pasta.Fp 3 // ε ≤ ‖corr ψ φ fun x => b ⬝ᵥ
        permute (Pasta.hashSpec short) Pasta.mds ((rc.set 62 k.1).set 63 k.2) x‖} : ℝ) * ε ^ 2 * 2 ^ 375 ≤
        (Pasta.p : ℝ) ^ 6 := by
  obtain ⟨rc, h1, h2⟩ : ∃ rc, Pasta.cachedRoundConstants short = .ok rc ∧ rc.length = 64 := by
    cases short with
    | false => exact ⟨_, rfl, Pasta.roundConstants_length⟩
    | true =>
      obtain ⟨rc, h1, h2, -⟩ := compactConstants_spec (p128Pow5T3 56 : RSpec Pasta.Fp) Pasta.mds Pasta.roundConstants
        (by simp [p128Pow5T3]) (by simp [p128Pow5T3, Pasta.roundConstants_length])
      exact ⟨rc, h1, by rw [h2, Pasta.roundConstants_length]⟩
  have h5 : (5 : Pasta.Fp) ≠ 0 := by
    have := (ZMod.natCast_eq_zero_iff 5 Pasta.p).not.mpr (by decide +kernel)
    simpa using this
  have hc : Fintype.card Pasta.Fp = Pasta.p := ZMod.card _
  have hr : 2 ^ 253 < Pasta.p := by norm_num [Pasta.p]
  obtain ⟨-, -, -, -, N, hN⟩ := C50_pasta_constants
  have hM : IsMds (Matrix.of Pasta.mds) := default_isMds (hN N le_rfl)
  have hp : ∀ k₁ k₂ s, permute (Pasta.hashSpec short) Pasta.mds ((rc.set 62 k₁).set 63 k₂) s = _ := fun k₁ k₂ s =>
    permute_set_last_two (Pasta.hashSpec short) 56 (by cases short <;> rfl) (by cases short <;> rfl)
      (by cases short <;> intro x <;> first | rfl | exact sboxCompact_eq x) Pasta.mds rc h2 k₁ k₂ s
  refine ⟨rc, h1, h2, fun ψ hψ φ b ε hφ hb hε => ?_⟩
  have key := linear_instance hc hr h5 Pasta.sbox_bijective hM 56 (fun i => rc.getD i 0) hψ (ι := id)
    Function.injective_id φ hφ hb
  simp only [id_eq, ← hp] at key
  rw [Fintype.card_fun, hc, Fintype.card_fin] at key
  exact counted_states _ hr key hε

/-! ## Non-vacuity -/

/-- A nontrivial character of the scalar field, a function of the input of modulus one that is not constant, and a
linear combination of the outputs. -/
example : ∃ (ψ : AddChar Bn256.Fr ℂ) (φ : State Bn256.Fr 3 → ℂ) (b : Fin 3 → Bn256.Fr),
    ψ ≠ 1 ∧ (∀ x, ‖φ x‖ ≤ 1) ∧ φ ![0, 0, 0] ≠ φ ![0, 1, 0] ∧ b ≠ 0 := by
  have hp : (ZMod.stdAddChar (N := Bn256.r)).IsPrimitive := ZMod.isPrimitive_stdAddChar Bn256.r
  refine ⟨ZMod.stdAddChar, fun x => ZMod.stdAddChar (x 1), ![1, 2, 3], ?_, fun x => (AddChar.norm_apply _ _).le, ?_, ?_⟩
  · intro h
    refine hp one_ne_zero ?_
    rw [h]
    ext x
    simp
  · intro h
    exact zero_ne_one (ZMod.injective_stdAddChar h)
  · exact fun h => one_ne_zero (congrFun h 0)

/-- The bound says something: with `ε = 2^-100` at most one choice in `2^175` reaches it. -/
example (n : ℕ) (h : (n : ℝ) * ((2 : ℝ) ^ 100)⁻¹ ^ 2 * 2 ^ 375 ≤ (Bn256.r : ℝ) ^ 6) :
    (n : ℝ) * 2 ^ 175 ≤ (Bn256.r : ℝ) ^ 6 := by
  refine le_trans (le_of_eq ?_) h
  rw [inv_pow, ← pow_mul, show (375 : ℕ) = 175 + 100 * 2 from rfl, pow_add]
  field_simp

/-- A small instance of the general theorems: `x^5` over `ZMod 7` with the matrix `[[1, 2], [2, 1]]`. The S-box bound of
`C85_sbox` there is `6 c^4 ≤ 5`, below the trivial `c ≤ 1`. -/
example : Function.Bijective (fun x : ZMod 7 => x ^ 5) ∧ (5 : ZMod 7) ≠ 0 ∧ ((7 : ℝ) - 1) * 1 ^ 4 > 5 := by
  refine ⟨by decide, by decide, by norm_num⟩

end Props
