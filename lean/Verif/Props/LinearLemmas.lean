import Verif.Props.Trails
import Verif.Props.Differential
import Mathlib.Analysis.Complex.Basic
import Mathlib.NumberTheory.LegendreSymbol.AddCharacter
import Mathlib.LinearAlgebra.Matrix.DotProduct
import Mathlib.Algebra.BigOperators.Ring.Finset
import Mathlib.Algebra.BigOperators.Field
import Mathlib.Algebra.Order.BigOperators.Ring.Finset

/-!
# Fourier analysis of keyed S-box layers

Lemmas for C85. Nothing here mentions the crate: characters of a finite field, Plancherel's identity, the correlations
of an S-box, and the bound for two consecutive layers of S-boxes with an MDS matrix between them.
-/

set_option linter.unusedVariables false
set_option linter.unusedSectionVars false
set_option linter.unusedDecidableInType false
set_option linter.unusedFintypeInType false

namespace Props
namespace Linear
open Matrix ComplexConjugate

variable {F : Type} [Field F] [DecidableEq F] [Fintype F] {T : ℕ} [NeZero T]

/-! ## Orthogonality and Plancherel -/

theorem char_sum {A : Type} [AddCommMonoid A] (ψ : AddChar A ℂ) {ι : Type} (t : Finset ι) (f : ι → A) :
    ψ (∑ i ∈ t, f i) = ∏ i ∈ t, ψ (f i) := by
  classical
  induction t using Finset.induction_on with
  | empty => simp
  | insert i t hi ih => rw [Finset.sum_insert hi, Finset.prod_insert hi, AddChar.map_add_eq_mul, ih]

/-- A product of functions of the words, summed over all vectors. -/
theorem sum_prod {R ι : Type} [CommSemiring R] [Fintype ι] [DecidableEq ι] (g : ι → F → R) :
    ∑ k : ι → F, ∏ i, g i (k i) = ∏ i, ∑ z, g i z := by
  rw [Finset.prod_univ_sum, Fintype.piFinset_univ]

theorem sum_dot {ψ : AddChar F ℂ} (hψ : ψ.IsPrimitive) (v : Fin T → F) :
    ∑ c : Fin T → F, ψ (c ⬝ᵥ v) = if v = 0 then (Fintype.card F : ℂ) ^ T else 0 := by
  simp only [dotProduct, char_sum]
  rw [sum_prod fun i z => ψ (z * v i)]
  simp only [AddChar.sum_mulShift _ hψ]
  by_cases hv : v = 0
  · simp [hv]
  · rw [if_neg hv]
    obtain ⟨i, hi⟩ := Function.ne_iff.mp hv
    exact Finset.prod_eq_zero (Finset.mem_univ i) (by simpa using hi)

/-- Plancherel's identity for a kernel with orthogonal columns. -/
theorem plancherel_kernel {A B X : Type} [Fintype A] [Fintype X] [DecidableEq B] (K : A → B → ℂ) (n : ℂ)
    (hK : ∀ x y, ∑ a, K a x * conj (K a y) = if x = y then n else 0) (f : X → B) (φ : X → ℂ) :
    (((∑ a, ‖∑ x, φ x * K a (f x)‖ ^ 2 : ℝ)) : ℂ) =
      n * ∑ x, ∑ y, if f x = f y then φ x * conj (φ y) else 0 := by
  push_cast
  simp only [← Complex.mul_conj', map_sum, map_mul, Finset.sum_mul_sum]
  rw [Finset.sum_comm]
  rw [Finset.mul_sum]
  refine Finset.sum_congr rfl fun x _ => ?_
  rw [Finset.sum_comm, Finset.mul_sum]
  refine Finset.sum_congr rfl fun y _ => ?_
  have : ∀ a, φ x * K a (f x) * (conj (φ y) * conj (K a (f y))) =
      φ x * conj (φ y) * (K a (f x) * conj (K a (f y))) := fun a => by ring
  simp only [this]
  rw [← Finset.mul_sum, hK]
  by_cases h : f x = f y
  · rw [if_pos h, if_pos h]; ring
  · rw [if_neg h, if_neg h]; ring

theorem plancherel_inj {A B X : Type} [Fintype A] [Fintype X] [DecidableEq B] (K : A → B → ℂ) (n : ℝ)
    (hK : ∀ x y, ∑ a, K a x * conj (K a y) = if x = y then (n : ℂ) else 0) (f : X → B) (hf : Function.Injective f)
    (φ : X → ℂ) : ∑ a, ‖∑ x, φ x * K a (f x)‖ ^ 2 = n * ∑ x, ‖φ x‖ ^ 2 := by
  classical
  have h := plancherel_kernel K n hK f φ
  simp only [hf.eq_iff, Finset.sum_ite_eq, Finset.mem_univ, if_true, Complex.mul_conj'] at h
  exact_mod_cast h

theorem plancherel_count {A B X : Type} [Fintype A] [Fintype X] [DecidableEq B] (K : A → B → ℂ) (n : ℝ)
    (hK : ∀ x y, ∑ a, K a x * conj (K a y) = if x = y then (n : ℂ) else 0) (f : X → B) :
    ∑ a, ‖∑ x, K a (f x)‖ ^ 2 = n * ∑ x, (Nat.card {y // f x = f y} : ℝ) := by
  classical
  have h := plancherel_kernel K n hK f fun _ => 1
  simp only [one_mul, map_one, Finset.sum_boole] at h
  have e : ∀ x, Nat.card {y // f x = f y} = (Finset.univ.filter fun y => f x = f y).card := fun x => by
    rw [Nat.card_eq_fintype_card, Fintype.card_subtype]
  simp only [e]
  exact_mod_cast h

theorem kernel_dot {ψ : AddChar F ℂ} (hψ : ψ.IsPrimitive) (x y : Fin T → F) :
    ∑ c : Fin T → F, ψ (c ⬝ᵥ x) * conj (ψ (c ⬝ᵥ y)) =
      if x = y then (((Fintype.card F : ℝ) ^ T : ℝ) : ℂ) else 0 := by
  have : ∀ c : Fin T → F, ψ (c ⬝ᵥ x) * conj (ψ (c ⬝ᵥ y)) = ψ (c ⬝ᵥ (x - y)) := fun c => by
    rw [← AddChar.map_neg_eq_conj, ← AddChar.map_add_eq_mul, dotProduct_sub, sub_eq_add_neg]
  simp only [this]
  rw [sum_dot hψ]
  simp only [sub_eq_zero]
  push_cast
  rfl

theorem kernel_neg {ψ : AddChar F ℂ} (hψ : ψ.IsPrimitive) (x y : F) :
    ∑ c : F, ψ (-(c * x)) * conj (ψ (-(c * y))) = if x = y then (((Fintype.card F : ℝ) : ℝ) : ℂ) else 0 := by
  have : ∀ c : F, ψ (-(c * x)) * conj (ψ (-(c * y))) = ψ (c * (y - x)) := fun c => by
    rw [← AddChar.map_neg_eq_conj, ← AddChar.map_add_eq_mul]
    congr 1
    ring
  simp only [this]
  rw [AddChar.sum_mulShift _ hψ]
  by_cases h : x = y
  · simp [h]
  · rw [if_neg h, if_neg (sub_ne_zero.mpr fun e => h e.symm), Nat.cast_zero]

/-! ## Correlations of an S-box -/

/-- Correlation of the input mask `u` and the output mask `v`. -/
noncomputable def shat (ψ : AddChar F ℂ) (s : F → F) (u v : F) : ℂ :=
  (Fintype.card F : ℂ)⁻¹ * ∑ z, ψ (v * s z - u * z)

/-- Squared modulus of the correlation. -/
noncomputable def lp (ψ : AddChar F ℂ) (s : F → F) (u v : F) : ℝ := ‖shat ψ s u v‖ ^ 2

theorem card_ne : (Fintype.card F : ℂ) ≠ 0 := by
  exact_mod_cast Fintype.card_ne_zero

theorem card_pos : (0 : ℝ) < Fintype.card F := by
  exact_mod_cast Fintype.card_pos

theorem lp_nonneg (ψ : AddChar F ℂ) (s : F → F) (u v : F) : 0 ≤ lp ψ s u v := sq_nonneg _

theorem inversion {ψ : AddChar F ℂ} (hψ : ψ.IsPrimitive) (s : F → F) (v y : F) :
    ψ (v * s y) = ∑ u, shat ψ s u v * ψ (u * y) := by
  unfold shat
  simp only [mul_assoc, ← Finset.mul_sum, Finset.sum_mul]
  rw [Finset.sum_comm]
  have : ∀ z u : F, ψ (v * s z - u * z) * ψ (u * y) = ψ (v * s z) * ψ (u * (y - z)) := fun z u => by
    rw [← AddChar.map_add_eq_mul, ← AddChar.map_add_eq_mul]
    congr 1
    ring
  simp only [this, ← Finset.mul_sum, AddChar.sum_mulShift _ hψ, sub_eq_zero]
  rw [Finset.sum_eq_single y (fun z _ hz => by rw [if_neg (Ne.symm hz)]; simp) (by simp), if_pos rfl]
  rw [mul_left_comm, inv_mul_cancel₀ card_ne, mul_one]

theorem sum_lp {ψ : AddChar F ℂ} (hψ : ψ.IsPrimitive) (s : F → F) (v : F) : ∑ u, lp ψ s u v = 1 := by
  have h := plancherel_inj (fun u z => ψ (-(u * z))) (Fintype.card F) (kernel_neg hψ) id Function.injective_id
    (fun z => ψ (v * s z))
  simp only [AddChar.norm_apply, one_pow, Finset.sum_const, Finset.card_univ, nsmul_eq_mul, mul_one, id_eq,
    ← AddChar.map_add_eq_mul, ← sub_eq_add_neg] at h
  unfold lp shat
  simp only [norm_mul, mul_pow, ← Finset.mul_sum, h]
  have := card_pos (F := F)
  rw [norm_inv, Complex.norm_natCast]
  field_simp

theorem lp_zero_right {ψ : AddChar F ℂ} (hψ : ψ.IsPrimitive) (s : F → F) {u : F} (hu : u ≠ 0) :
    lp ψ s u 0 = 0 := by
  unfold lp shat
  have : ∀ z, ψ (0 * s z - u * z) = ψ (z * -u) := fun z => by congr 1; ring
  simp only [this, AddChar.sum_mulShift _ hψ, neg_eq_zero, if_neg hu]
  simp

theorem lp_zero_left {ψ : AddChar F ℂ} (hψ : ψ.IsPrimitive) {s : F → F} (hs : Function.Bijective s) {v : F}
    (hv : v ≠ 0) : lp ψ s 0 v = 0 := by
  unfold lp shat
  have : ∀ z, ψ (v * s z - 0 * z) = ψ (s z * v) := fun z => by congr 1; ring
  simp only [this]
  rw [Function.Bijective.sum_comp hs fun z => ψ (z * v), AddChar.sum_mulShift _ hψ, if_neg hv]
  simp

/-- Product of the squared correlations of the words. -/
noncomputable def lpVec (ψ : AddChar F ℂ) (s : F → F) (c d : Fin T → F) : ℝ := ∏ i, lp ψ s (c i) (d i)

theorem inversion_vec {ψ : AddChar F ℂ} (hψ : ψ.IsPrimitive) (s : F → F) (d y : Fin T → F) :
    ψ (d ⬝ᵥ fun i => s (y i)) = ∑ c : Fin T → F, (∏ i, shat ψ s (c i) (d i)) * ψ (c ⬝ᵥ y) := by
  simp only [dotProduct, char_sum, ← Finset.prod_mul_distrib]
  rw [sum_prod fun i z => shat ψ s z (d i) * ψ (z * y i)]
  exact Finset.prod_congr rfl fun i _ => inversion hψ s _ _

/-- A layer of S-boxes with keys added to its inputs, on average over the keys. -/
theorem keyed {X : Type} [Fintype X] {ψ : AddChar F ℂ} (hψ : ψ.IsPrimitive) (s : F → F) (φ : X → ℂ)
    (f : X → Fin T → F) (d : Fin T → F) :
    ∑ k : Fin T → F, ‖∑ x, φ x * ψ (d ⬝ᵥ fun i => s (f x i + k i))‖ ^ 2 =
      (Fintype.card F : ℝ) ^ T * ∑ c : Fin T → F, lpVec ψ s c d * ‖∑ x, φ x * ψ (c ⬝ᵥ f x)‖ ^ 2 := by
  have e : ∀ k : Fin T → F, ∑ x, φ x * ψ (d ⬝ᵥ fun i => s (f x i + k i)) =
      ∑ c : Fin T → F, ((∏ i, shat ψ s (c i) (d i)) * ∑ x, φ x * ψ (c ⬝ᵥ f x)) * ψ (k ⬝ᵥ c) := by
    intro k
    have : ∀ x, ψ (d ⬝ᵥ fun i => s (f x i + k i)) =
        ∑ c : Fin T → F, (∏ i, shat ψ s (c i) (d i)) * (ψ (c ⬝ᵥ f x) * ψ (k ⬝ᵥ c)) := fun x => by
      rw [inversion_vec hψ s d (fun i => f x i + k i)]
      refine Finset.sum_congr rfl fun c _ => ?_
      rw [show (fun i => f x i + k i) = f x + k from rfl, dotProduct_add, AddChar.map_add_eq_mul, dotProduct_comm c k]
    simp only [this, Finset.mul_sum, Finset.sum_mul]
    rw [Finset.sum_comm]
    exact Finset.sum_congr rfl fun c _ => Finset.sum_congr rfl fun x _ => by ring
  simp only [e]
  refine (plancherel_inj (fun k c : Fin T → F => ψ (k ⬝ᵥ c)) ((Fintype.card F : ℝ) ^ T) (kernel_dot hψ) id
    Function.injective_id _).trans ?_
  congr 1
  refine Finset.sum_congr rfl fun c _ => ?_
  rw [norm_mul, mul_pow, norm_prod, ← Finset.prod_pow]
  rfl

/-! ## Two layers with an MDS matrix between them -/

theorem isMds_transpose {M : Matrix (Fin T) (Fin T) F} (hM : Trails.IsMds M) : Trails.IsMds Mᵀ := by
  intro n r c hr hc
  rw [← Matrix.transpose_submatrix, Matrix.det_transpose]
  exact hM n c r hc hr

/-- The masks `c` between two layers, for given masks at both ends. -/
theorem two_layers (l : F → F → ℝ) (p : ℝ) (hp0 : 0 ≤ p) (h0 : ∀ u v, 0 ≤ l u v) (h1 : ∀ v, ∑ u, l u v ≤ 1)
    (hr : ∀ u, u ≠ 0 → l u 0 = 0) (hl : ∀ v, v ≠ 0 → l 0 v = 0) (hp : ∀ u v, u ≠ 0 → v ≠ 0 → l u v ≤ p)
    {N : Matrix (Fin T) (Fin T) F} (hN : Trails.IsMds N) {b : Fin T → F} (hb : b ≠ 0) (e : Fin T → F) :
    ∑ c : Fin T → F, (∏ i, l (c i) (b i)) * ∏ i, l (e i) ((N *ᵥ c) i) ≤ p ^ T := by
  classical
  have hle1 : ∀ u v, l u v ≤ 1 := fun u v =>
    (Finset.single_le_sum (fun u _ => h0 u v) (Finset.mem_univ u)).trans (h1 v)
  let B := Finset.univ.filter fun i => b i ≠ 0
  let E := Finset.univ.filter fun i => e i ≠ 0
  -- the masks whose zero words agree with those at both ends
  let V := Finset.univ.filter fun c : Fin T → F => (∀ i, c i = 0 ↔ b i = 0) ∧ ∀ i, (N *ᵥ c) i = 0 ↔ e i = 0
  have hV : ∀ c ∉ V, (∏ i, l (c i) (b i)) * ∏ i, l (e i) ((N *ᵥ c) i) = 0 := by
    intro c hc
    simp only [V, Finset.mem_filter, Finset.mem_univ, true_and, not_and_or, not_forall] at hc
    rcases hc with ⟨i, hi⟩ | ⟨i, hi⟩
    · refine mul_eq_zero_of_left (Finset.prod_eq_zero (Finset.mem_univ i) ?_) _
      by_cases hci : c i = 0
      · rw [hci]; exact hl _ fun h => hi ⟨fun _ => h, fun _ => hci⟩
      · by_cases hbi : b i = 0
        · rw [hbi]; exact hr _ hci
        · exact absurd ⟨fun h => absurd h hci, fun h => absurd h hbi⟩ hi
    · refine mul_eq_zero_of_right _ (Finset.prod_eq_zero (Finset.mem_univ i) ?_)
      by_cases hci : (N *ᵥ c) i = 0
      · rw [hci]; exact hr _ fun h => hi ⟨fun _ => h, fun _ => hci⟩
      · by_cases hbi : e i = 0
        · rw [hbi]; exact hl _ hci
        · exact absurd ⟨fun h => absurd h hci, fun h => absurd h hbi⟩ hi
  rw [← Finset.sum_subset (Finset.subset_univ V) fun c _ hc => hV c hc]
  by_cases hVe : V = ∅
  · rw [hVe, Finset.sum_empty]; exact pow_nonneg hp0 _
  have hE : E.card ≤ T := (Finset.card_le_univ _).trans (by rw [Fintype.card_fin])
  have hBE : T + 1 ≤ B.card + E.card := by
    obtain ⟨c, hc⟩ := Finset.nonempty_iff_ne_empty.mpr hVe
    simp only [V, Finset.mem_filter, Finset.mem_univ, true_and] at hc
    have hc0 : c ≠ 0 := by
      obtain ⟨i, hi⟩ := Function.ne_iff.mp hb
      exact fun h => hi ((hc.1 i).mp (congrFun h i))
    have := Trails.branch hN hc0
    unfold Trails.weight at this
    simpa only [ne_eq, hc.1, hc.2] using this
  obtain ⟨J, hJB, hJ⟩ := Finset.exists_subset_card_eq (s := B) (n := B.card + E.card - T) (by omega)
  have hterm : ∀ c ∈ V, (∏ i, l (c i) (b i)) * ∏ i, l (e i) ((N *ᵥ c) i) ≤ p ^ T * ∏ i : J, l (c i) (b i) := by
    intro c hc
    simp only [V, Finset.mem_filter, Finset.mem_univ, true_and] at hc
    have a1 : ∏ i, l (e i) ((N *ᵥ c) i) ≤ p ^ E.card := by
      rw [← Finset.prod_mul_prod_compl E]
      have u1 : ∏ i ∈ E, l (e i) ((N *ᵥ c) i) ≤ p ^ E.card := by
        rw [← Finset.prod_const]
        refine Finset.prod_le_prod (fun i _ => h0 _ _) fun i hi => ?_
        have hi : e i ≠ 0 := (Finset.mem_filter.mp hi).2
        exact hp _ _ hi fun h => hi ((hc.2 i).mp h)
      have u2 : ∏ i ∈ Eᶜ, l (e i) ((N *ᵥ c) i) ≤ 1 := Finset.prod_le_one (fun i _ => h0 _ _) fun i _ => hle1 _ _
      have := mul_le_mul u1 u2 (Finset.prod_nonneg fun i _ => h0 _ _) (pow_nonneg hp0 _)
      rwa [mul_one] at this
    have a2 : ∏ i, l (c i) (b i) ≤ p ^ (T - E.card) * ∏ i : J, l (c i) (b i) := by
      have hc1 : (B \ J).card = T - E.card := by rw [Finset.card_sdiff_of_subset hJB]; omega
      rw [← Finset.prod_mul_prod_compl B, ← Finset.prod_sdiff hJB, ← hc1]
      have u1 : ∏ i ∈ B \ J, l (c i) (b i) ≤ p ^ (B \ J).card := by
        rw [← Finset.prod_const]
        refine Finset.prod_le_prod (fun i _ => h0 _ _) fun i hi => ?_
        have hi : b i ≠ 0 := (Finset.mem_filter.mp (Finset.mem_sdiff.mp hi).1).2
        exact hp _ _ (fun h => hi ((hc.1 i).mp h)) hi
      have u2 : ∏ i ∈ Bᶜ, l (c i) (b i) ≤ 1 := Finset.prod_le_one (fun i _ => h0 _ _) fun i _ => hle1 _ _
      have u3 : ∏ i ∈ J, l (c i) (b i) = ∏ i : J, l (c i) (b i) := (Finset.prod_coe_sort J fun i => l (c i) (b i)).symm
      rw [u3]
      have hJ0 : 0 ≤ ∏ i : J, l (c i) (b i) := Finset.prod_nonneg fun i _ => h0 _ _
      have := mul_le_mul (mul_le_mul_of_nonneg_right u1 hJ0) u2 (Finset.prod_nonneg fun i _ => h0 _ _)
        (mul_nonneg (pow_nonneg hp0 _) hJ0)
      rwa [mul_one] at this
    have hJ0 : 0 ≤ ∏ i : J, l (c i) (b i) := Finset.prod_nonneg fun i _ => h0 _ _
    have := mul_le_mul a2 a1 (Finset.prod_nonneg fun i _ => h0 _ _) (mul_nonneg (pow_nonneg hp0 _) hJ0)
    refine this.trans (le_of_eq ?_)
    rw [mul_right_comm, ← pow_add, Nat.sub_add_cancel hE]
  refine (Finset.sum_le_sum hterm).trans ?_
  rw [← Finset.mul_sum]
  refine mul_le_of_le_one_right (pow_nonneg hp0 _) ?_
  -- a mask is determined by its words in `J`
  have hinj : Set.InjOn (fun (c : Fin T → F) (i : J) => c i) V := by
    intro c hc c' hc' hcc
    simp only [V, Finset.coe_filter, Finset.mem_univ, true_and, Set.mem_ofPred_eq] at hc hc'
    by_contra hne
    have hbr := Trails.branch hN (sub_ne_zero.mpr hne)
    have w1 : Trails.weight (c - c') ≤ (B \ J).card := by
      refine Finset.card_le_card fun i hi => ?_
      have hi := (Finset.mem_filter.mp hi).2
      rw [Finset.mem_sdiff]
      refine ⟨Finset.mem_filter.mpr ⟨Finset.mem_univ _, fun h => hi ?_⟩, fun h => hi ?_⟩
      · rw [Pi.sub_apply, (hc.1 i).mpr h, (hc'.1 i).mpr h, sub_zero]
      · exact sub_eq_zero.mpr (congrFun hcc ⟨i, h⟩)
    have w2 : Trails.weight (N *ᵥ (c - c')) ≤ E.card := by
      refine Finset.card_le_card fun i hi => ?_
      have hi := (Finset.mem_filter.mp hi).2
      refine Finset.mem_filter.mpr ⟨Finset.mem_univ _, fun h => hi ?_⟩
      rw [Matrix.mulVec_sub, Pi.sub_apply, (hc.2 i).mpr h, (hc'.2 i).mpr h, sub_zero]
    rw [Finset.card_sdiff_of_subset hJB] at w1
    omega
  have himg := Finset.sum_image (s := V) (g := fun (c : Fin T → F) (i : J) => c i)
    (f := fun w : J → F => ∏ i : J, l (w i) (b i)) hinj
  rw [← himg]
  refine (Finset.sum_le_sum_of_subset_of_nonneg (Finset.subset_univ _) fun w _ _ =>
    Finset.prod_nonneg fun i _ => h0 _ _).trans ?_
  rw [sum_prod fun (i : J) z => l z (b i)]
  exact Finset.prod_le_one (fun i _ => Finset.sum_nonneg fun z _ => h0 _ _) fun i _ => h1 _

/-- The sum over all masks at the input. -/
theorem two_rounds {X : Type} [Fintype X] {ψ : AddChar F ℂ} (hψ : ψ.IsPrimitive) {s : F → F}
    (hs : Function.Bijective s) {p : ℝ} (hp0 : 0 ≤ p) (hp : ∀ u v, u ≠ 0 → v ≠ 0 → lp ψ s u v ≤ p)
    {M : Matrix (Fin T) (Fin T) F} (hM : Trails.IsMds M) (φ : X → ℂ) {g : X → Fin T → F} (hg : Function.Injective g)
    {b : Fin T → F} (hb : b ≠ 0) :
    ∑ k₁ : Fin T → F, ∑ k₂ : Fin T → F,
      ‖∑ x, φ x * ψ (b ⬝ᵥ M *ᵥ fun i => s ((M *ᵥ fun j => s (g x j + k₁ j)) i + k₂ i))‖ ^ 2 ≤
      (Fintype.card F : ℝ) ^ (2 * T) * p ^ T * ((Fintype.card F : ℝ) ^ T * ∑ x, ‖φ x‖ ^ 2) := by
  have hN := isMds_transpose hM
  have ht : ∀ (c y : Fin T → F), c ⬝ᵥ M *ᵥ y = (Mᵀ *ᵥ c) ⬝ᵥ y := fun c y => by
    rw [Matrix.dotProduct_mulVec, Matrix.mulVec_transpose]
  have hd : Mᵀ *ᵥ b ≠ 0 := fun h => by
    have hdet : Mᵀ.det ≠ 0 := by simpa using hN T id id Function.injective_id Function.injective_id
    exact hb (Matrix.eq_zero_of_mulVec_eq_zero hdet h)
  simp only [ht b]
  have e1 : ∀ k₁ : Fin T → F, _ := fun k₁ => keyed hψ s φ (fun x => M *ᵥ fun j => s (g x j + k₁ j)) (Mᵀ *ᵥ b)
  simp only [e1, ht]
  rw [← Finset.mul_sum, Finset.sum_comm]
  simp only [← Finset.mul_sum]
  have e2 : ∀ c : Fin T → F, _ := fun c => keyed hψ s φ g (Mᵀ *ᵥ c)
  simp only [e2]
  have e3 := plancherel_inj (fun c v : Fin T → F => ψ (c ⬝ᵥ v)) ((Fintype.card F : ℝ) ^ T) (kernel_dot hψ) g hg φ
  rw [← e3]
  have hq := card_pos (F := F)
  have e4 : ∑ c : Fin T → F, lpVec ψ s c (Mᵀ *ᵥ b) * ((Fintype.card F : ℝ) ^ T *
      ∑ e : Fin T → F, lpVec ψ s e (Mᵀ *ᵥ c) * ‖∑ x, φ x * ψ (e ⬝ᵥ g x)‖ ^ 2) =
      (Fintype.card F : ℝ) ^ T * ∑ e : Fin T → F, (∑ c : Fin T → F, lpVec ψ s c (Mᵀ *ᵥ b) * lpVec ψ s e (Mᵀ *ᵥ c)) *
        ‖∑ x, φ x * ψ (e ⬝ᵥ g x)‖ ^ 2 := by
    simp only [Finset.mul_sum, Finset.sum_mul]
    rw [Finset.sum_comm]
    exact Finset.sum_congr rfl fun e _ => Finset.sum_congr rfl fun c _ => by ring
  rw [e4, ← mul_assoc, ← pow_add, ← two_mul, mul_assoc, Finset.mul_sum Finset.univ _ (p ^ T)]
  refine mul_le_mul_of_nonneg_left (Finset.sum_le_sum fun e _ => ?_) (pow_nonneg hq.le _)
  refine mul_le_mul_of_nonneg_right ?_ (sq_nonneg _)
  exact two_layers (lp ψ s) p hp0 (lp_nonneg ψ s) (fun v => (sum_lp hψ s v).le) (fun u hu => lp_zero_right hψ s hu)
    (fun v hv => lp_zero_left hψ hs hv) hp hN hd e

/-! ## The fifth power -/

/-- Two sums of two fifth powers. -/
theorem pairs_le (h5 : (5 : F) ≠ 0) (x : F × F) (hx : x.1 + x.2 ≠ 0) :
    Nat.card {y : F × F // (![-(x.1 + x.2), x.1 ^ 5 + x.2 ^ 5] : Fin 2 → F) = ![-(y.1 + y.2), y.1 ^ 5 + y.2 ^ 5]} ≤ 4 := by
  refine le_trans (Nat.card_le_card_of_injective
    (fun y => (⟨-y.1.2, ?_⟩ : {z : F // (z + (x.1 + x.2)) ^ 5 - z ^ 5 = x.1 ^ 5 + x.2 ^ 5})) ?_) (C74_sbox h5 hx _).2
  · have e0 := congrFun y.2 0
    have e1 := congrFun y.2 1
    simp at e0 e1
    have : -y.1.2 + (x.1 + x.2) = y.1.1 := by linear_combination -e0
    rw [this]
    linear_combination -e1
  · rintro ⟨y, hy⟩ ⟨y', hy'⟩ h
    have h := neg_injective (congrArg Subtype.val h)
    have e0 := congrFun hy 0
    have e1 := congrFun hy' 0
    simp at e0 e1 h
    refine Subtype.ext (Prod.ext ?_ h)
    change y.1 = y'.1
    linear_combination e0 - e1 - h

theorem pairs_zero (x : F × F) (hx : x.1 + x.2 = 0) :
    Nat.card {y : F × F // (![-(x.1 + x.2), x.1 ^ 5 + x.2 ^ 5] : Fin 2 → F) = ![-(y.1 + y.2), y.1 ^ 5 + y.2 ^ 5]} ≤
      Fintype.card F := by
  rw [← Nat.card_eq_fintype_card]
  refine Nat.card_le_card_of_injective (fun y => y.1.2) ?_
  rintro ⟨y, hy⟩ ⟨y', hy'⟩ h
  have e0 := congrFun hy 0
  have e1 := congrFun hy' 0
  simp at e0 e1 h
  refine Subtype.ext (Prod.ext ?_ h)
  change y.1 = y'.1
  linear_combination e0 - e1 - h

theorem pairs_sum (h5 : (5 : F) ≠ 0) :
    ∑ x : F × F, (Nat.card {y : F × F // (![-(x.1 + x.2), x.1 ^ 5 + x.2 ^ 5] : Fin 2 → F) =
      ![-(y.1 + y.2), y.1 ^ 5 + y.2 ^ 5]} : ℝ) ≤ 5 * (Fintype.card F : ℝ) ^ 2 := by
  have hb : ∀ x : F × F, (Nat.card {y : F × F // (![-(x.1 + x.2), x.1 ^ 5 + x.2 ^ 5] : Fin 2 → F) =
      ![-(y.1 + y.2), y.1 ^ 5 + y.2 ^ 5]} : ℝ) ≤ 4 + if x.1 = -x.2 then (Fintype.card F : ℝ) else 0 := by
    intro x
    by_cases hx : x.1 + x.2 = 0
    · rw [if_pos (eq_neg_of_add_eq_zero_left hx)]
      have : (_ : ℝ) ≤ (Fintype.card F : ℝ) := Nat.cast_le.mpr (pairs_zero x hx)
      linarith
    · have : (_ : ℝ) ≤ ((4 : ℕ) : ℝ) := Nat.cast_le.mpr (pairs_le h5 x hx)
      push_cast at this
      split_ifs <;> linarith [card_pos (F := F)]
  refine (Finset.sum_le_sum fun x _ => hb x).trans ?_
  rw [Finset.sum_add_distrib, Fintype.sum_prod_type_right]
  rw [Fintype.sum_prod_type_right]
  simp only [Finset.sum_ite_eq', Finset.mem_univ, if_true, Finset.sum_const, Finset.card_univ, nsmul_eq_mul]
  apply le_of_eq
  ring

/-- The sum of the characters `v z^5 - u z`. -/
noncomputable def gsum (ψ : AddChar F ℂ) (u v : F) : ℂ := ∑ z, ψ (v * z ^ 5 - u * z)

theorem gsum_scale (ψ : AddChar F ℂ) (u v : F) {t : F} (ht : t ≠ 0) : gsum ψ (u * t) (v * t ^ 5) = gsum ψ u v := by
  unfold gsum
  rw [← Equiv.sum_comp (Equiv.mulLeft₀ t ht) fun z => ψ (v * z ^ 5 - u * z)]
  refine Finset.sum_congr rfl fun z _ => ?_
  change _ = ψ (v * (t * z) ^ 5 - u * (t * z))
  congr 1
  ring

theorem gsum_fourth {ψ : AddChar F ℂ} (hψ : ψ.IsPrimitive) (h5 : (5 : F) ≠ 0) {u v : F} (hu : u ≠ 0) :
    ((Fintype.card F : ℝ) - 1) * ‖gsum ψ u v‖ ^ 4 ≤ 5 * (Fintype.card F : ℝ) ^ 4 := by
  classical
  have hsq : ∀ c : Fin 2 → F, ‖gsum ψ (c 0) (c 1)‖ ^ 4 =
      ‖∑ x : F × F, ψ (c ⬝ᵥ ![-(x.1 + x.2), x.1 ^ 5 + x.2 ^ 5])‖ ^ 2 := by
    intro c
    have : ∑ x : F × F, ψ (c ⬝ᵥ ![-(x.1 + x.2), x.1 ^ 5 + x.2 ^ 5]) = gsum ψ (c 0) (c 1) ^ 2 := by
      rw [sq, gsum, Fintype.sum_prod_type, Finset.sum_mul_sum]
      refine Finset.sum_congr rfl fun x _ => Finset.sum_congr rfl fun y _ => ?_
      rw [← AddChar.map_add_eq_mul]
      congr 1
      simp only [dotProduct, Fin.sum_univ_two, Matrix.cons_val_zero, Matrix.cons_val_one]
      ring
    rw [this, norm_pow, ← pow_mul]
  have h := plancherel_count (fun c v : Fin 2 → F => ψ (c ⬝ᵥ v)) ((Fintype.card F : ℝ) ^ 2) (kernel_dot hψ)
    fun x : F × F => ![-(x.1 + x.2), x.1 ^ 5 + x.2 ^ 5]
  simp only [← hsq] at h
  have hp := pairs_sum h5
  have hle : ∑ c : Fin 2 → F, ‖gsum ψ (c 0) (c 1)‖ ^ 4 ≤ 5 * (Fintype.card F : ℝ) ^ 4 := by
    rw [h]
    refine (mul_le_mul_of_nonneg_left hp (sq_nonneg _)).trans (le_of_eq (by ring))
  refine le_trans ?_ hle
  let O := (Finset.univ.erase (0 : F)).image fun t => (![u * t, v * t ^ 5] : Fin 2 → F)
  have hO : ∑ c ∈ O, ‖gsum ψ (c 0) (c 1)‖ ^ 4 = ((Fintype.card F : ℝ) - 1) * ‖gsum ψ u v‖ ^ 4 := by
    rw [Finset.sum_image fun t _ t' _ htt => mul_left_cancel₀ hu (by simpa using congrFun htt 0)]
    have : ∀ t ∈ Finset.univ.erase (0 : F), ‖gsum ψ ((![u * t, v * t ^ 5] : Fin 2 → F) 0)
        ((![u * t, v * t ^ 5] : Fin 2 → F) 1)‖ ^ 4 = ‖gsum ψ u v‖ ^ 4 := fun t ht => by
      rw [Matrix.cons_val_zero, Matrix.cons_val_one, Matrix.cons_val_fin_one, gsum_scale ψ u v (Finset.ne_of_mem_erase ht)]
    rw [Finset.sum_congr rfl this, Finset.sum_const, Finset.card_erase_of_mem (Finset.mem_univ _), Finset.card_univ,
      nsmul_eq_mul, Nat.cast_sub Fintype.card_pos, Nat.cast_one]
  rw [← hO]
  exact Finset.sum_le_sum_of_subset_of_nonneg (Finset.subset_univ _) fun c _ _ => by positivity

end Linear
end Props
