import Verif.Props.Trails
import Mathlib.Tactic.LinearCombination

/-!
# Subspace trails: C63

A linear subspace trail is a sequence of subspaces such that each round maps every coset of one into a coset of the
next. The matrix of an instance is chosen (`Spec::secure_mds`, primitives.rs:57-62) so that no such trail
covers many rounds.
-/

set_option linter.unusedSectionVars false

namespace Props
open Base Trails

/-! ## Specification -/

namespace SubTrails
variable {F : Type} [Field F] {T : ℕ}

/-- `f` maps every coset of `U` into a coset of `V`. -/
def MapsCosets (f : (Fin T → F) → Fin T → F) (U V : Submodule F (Fin T → F)) : Prop :=
  ∀ a, ∃ b, ∀ u ∈ U, ∃ v ∈ V, f (a + u) = b + v

/-- The columns `M^0 e_0, ..., M^(T-1) e_0`. -/
def firstCols [NeZero T] (M : Matrix (Fin T) (Fin T) F) : Matrix (Fin T) (Fin T) F :=
  Matrix.of fun i j => (M ^ j.val) i 0

/-- No derivative of the S-box is constant. -/
def NonLinear (sbox : F → F) : Prop :=
  ∀ d, d ≠ 0 → ∃ a b, sbox (a + d) - sbox a ≠ sbox (b + d) - sbox b

/-! ## Lemmas -/

theorem MapsCosets.sub_mem {f : (Fin T → F) → Fin T → F} {U V : Submodule F (Fin T → F)} (h : MapsCosets f U V)
    (x : Fin T → F) {u : Fin T → F} (hu : u ∈ U) : f (x + u) - f x ∈ V := by
  obtain ⟨b, hb⟩ := h x
  obtain ⟨v, hv, e⟩ := hb u hu
  obtain ⟨w, hw, e'⟩ := hb 0 U.zero_mem
  rw [add_zero] at e'
  rw [e, e', add_sub_add_left_eq_sub]
  exact V.sub_mem hv hw

theorem mapsCosets_of_sub {f : (Fin T → F) → Fin T → F} {U V : Submodule F (Fin T → F)}
    (h : ∀ x, ∀ u ∈ U, f (x + u) - f x ∈ V) : MapsCosets f U V :=
  fun a => ⟨f a, fun u hu => ⟨_, h a u hu, by abel⟩⟩

variable [NeZero T] {sbox : F → F} {M : Matrix (Fin T) (Fin T) F}

private theorem partial_diff (c u : Fin T → F) (a : F) :
    Spec.partialRound sbox M c ((Pi.single 0 a - c) + u) - Spec.partialRound sbox M c (Pi.single 0 a - c) =
      M.mulVec u + (sbox (a + u 0) - sbox a - u 0) • M.mulVec (Pi.single 0 1) := by
  unfold Spec.partialRound
  rw [← Matrix.mulVec_sub, ← Matrix.mulVec_smul, ← Matrix.mulVec_add]
  congr 1
  funext i
  by_cases hi : i = 0
  · subst hi
    simp only [Pi.sub_apply, Pi.add_apply, Pi.single_eq_same, if_true, Pi.smul_apply, smul_eq_mul, mul_one]
    rw [show a - c 0 + u 0 + c 0 = a + u 0 by ring, show a - c 0 + c 0 = a by ring]
    ring
  · simp [hi]

theorem partial_step (hs : NonLinear sbox) {c : Fin T → F} {U V : Submodule F (Fin T → F)}
    (h : MapsCosets (Spec.partialRound sbox M c) U V) {u : Fin T → F} (hu : u ∈ U) :
    M.mulVec u ∈ V ∧ (u 0 ≠ 0 → M.mulVec (Pi.single 0 1) ∈ V) := by
  have hd (a : F) := h.sub_mem (Pi.single 0 a - c) hu
  simp only [partial_diff] at hd
  by_cases h0 : u 0 = 0
  · refine ⟨?_, fun h1 => absurd h0 h1⟩
    have := hd 0
    simpa [h0] using this
  · obtain ⟨a, b, hab⟩ := hs (u 0) h0
    have h1 := V.sub_mem (hd a) (hd b)
    rw [add_sub_add_left_eq_sub, ← sub_smul] at h1
    have hne : (sbox (a + u 0) - sbox a - u 0 - (sbox (b + u 0) - sbox b - u 0)) ≠ 0 := by
      intro e
      apply hab
      linear_combination e
    have h2 : M.mulVec (Pi.single 0 1) ∈ V := (V.smul_mem_iff hne).1 h1
    refine ⟨?_, fun _ => h2⟩
    have h3 := V.sub_mem (hd a) (V.smul_mem (sbox (a + u 0) - sbox a - u 0) h2)
    rwa [add_sub_cancel_right] at h3

private theorem full_diff (c u : Fin T → F) (j : Fin T) (a b : F) :
    (Spec.fullRound sbox M c ((Pi.single j a - c) + u) - Spec.fullRound sbox M c (Pi.single j a - c)) -
    (Spec.fullRound sbox M c ((Pi.single j b - c) + u) - Spec.fullRound sbox M c (Pi.single j b - c)) =
      ((sbox (a + u j) - sbox a) - (sbox (b + u j) - sbox b)) • M.mulVec (Pi.single j 1) := by
  unfold Spec.fullRound
  rw [← Matrix.mulVec_sub, ← Matrix.mulVec_sub, ← Matrix.mulVec_sub, ← Matrix.mulVec_smul]
  congr 1
  funext i
  by_cases hi : i = j
  · subst hi
    simp only [Pi.sub_apply, Pi.add_apply, Pi.single_eq_same, Pi.smul_apply, smul_eq_mul, mul_one]
    rw [show a - c i + u i + c i = a + u i by ring, show a - c i + c i = a by ring,
      show b - c i + u i + c i = b + u i by ring, show b - c i + c i = b by ring]
  · simp [hi]

theorem full_step (hs : NonLinear sbox) {c : Fin T → F} {U V : Submodule F (Fin T → F)}
    (h : MapsCosets (Spec.fullRound sbox M c) U V) {u : Fin T → F} (hu : u ∈ U) {j : Fin T} (hj : u j ≠ 0) :
    M.mulVec (Pi.single j 1) ∈ V := by
  obtain ⟨a, b, hab⟩ := hs (u j) hj
  have h1 := V.sub_mem (h.sub_mem (Pi.single j a - c) hu) (h.sub_mem (Pi.single j b - c) hu)
  rw [full_diff] at h1
  exact (V.smul_mem_iff (sub_ne_zero.mpr hab)).1 h1

/-- A subspace that contains the image of a basis is everything. -/
private theorem eq_top_of_cols {N : Matrix (Fin T) (Fin T) F} (hN : N.det ≠ 0) {V : Submodule F (Fin T → F)}
    (h : ∀ j, N.mulVec (Pi.single j 1) ∈ V) : V = ⊤ := by
  rw [eq_top_iff]
  intro v _
  have hu : IsUnit N.det := isUnit_iff_ne_zero.mpr hN
  have e : v = N.mulVec (N⁻¹.mulVec v) := by
    rw [Matrix.mulVec_mulVec, Matrix.mul_nonsing_inv _ hu, Matrix.one_mulVec]
  rw [e, ← Finset.univ_sum_single (N⁻¹.mulVec v), Matrix.mulVec_sum]
  refine V.sum_mem fun j _ => ?_
  have : (Pi.single j (N⁻¹.mulVec v j) : Fin T → F) = (N⁻¹.mulVec v j) • Pi.single j 1 := by
    rw [← Pi.single_smul, smul_eq_mul, mul_one]
  rw [this, Matrix.mulVec_smul]
  exact V.smul_mem _ (h j)

end SubTrails
open SubTrails

/-! ## C63 -/

section
variable {F : Type} [Field F] {T : ℕ} [NeZero T]

/-- **C63, partial rounds.** If the first rows and the first columns of the powers of the matrix are independent, no
subspace trail starting from a nonzero subspace covers `2 T - 1` consecutive partial rounds: the subspace after them
is the whole space. -/
theorem C63_partial [DecidableEq F] (sbox : F → F) (hs : NonLinear sbox) (M : Matrix (Fin T) (Fin T) F) (hM : M.det ≠ 0)
    (h00 : M 0 0 ≠ 0) (hK : (firstRows M).det ≠ 0) (hC : (firstCols M).det ≠ 0) (h rp : ℕ) (c : ℕ → Fin T → F)
    (r : ℕ) (hr : h ≤ r) (hr' : r + (2 * T - 1) ≤ h + rp) (U : ℕ → Submodule F (Fin T → F)) (hU : U 0 ≠ ⊥)
    (hstep : ∀ i < 2 * T - 1, MapsCosets (Spec.round sbox M h rp c (r + i)) (U i) (U (i + 1))) :
    U (2 * T - 1) = ⊤ := by
  have hT : 0 < T := Nat.pos_of_ne_zero (NeZero.ne T)
  have step (i : ℕ) (hi : i < 2 * T - 1) {u : Fin T → F} (hu : u ∈ U i) :
      M.mulVec u ∈ U (i + 1) ∧ (u 0 ≠ 0 → M.mulVec (Pi.single 0 1) ∈ U (i + 1)) := by
    have := hstep i hi
    have hnot : ¬(r + i < h ∨ h + rp ≤ r + i) := by omega
    have he : Spec.round sbox M h rp c (r + i) = Spec.partialRound sbox M (c (r + i)) := by
      funext x
      simp only [Spec.round, if_neg hnot]
    rw [he] at this
    exact partial_step hs this hu
  obtain ⟨u, hu, hne⟩ := (Submodule.ne_bot_iff _).1 hU
  have hpow (i : ℕ) (hi : i ≤ 2 * T - 1) : (M ^ i).mulVec u ∈ U i := by
    induction i with
    | zero => simpa using hu
    | succ i ih =>
      have := (step i (by omega) (ih (by omega))).1
      rwa [Matrix.mulVec_mulVec, ← pow_succ'] at this
  obtain ⟨i, hi, hact⟩ : ∃ i < T, (M ^ i).mulVec u 0 ≠ 0 := by
    by_contra hcon
    push Not at hcon
    exact hne (observable hK hcon)
  have h1 : M.mulVec (Pi.single 0 1) ∈ U (i + 1) := (step i (by omega) (hpow i (by omega))).2 hact
  have grow (k : ℕ) (hk : i + 1 + k ≤ 2 * T - 1) :
      ∀ j ≤ k, (M ^ (j + 1)).mulVec (Pi.single 0 1) ∈ U (i + 1 + k) := by
    induction k with
    | zero =>
      intro j hj
      obtain rfl : j = 0 := by omega
      simpa using h1
    | succ k ih =>
      intro j hj
      have ih := ih (by omega)
      rcases j with _ | j
      · have h2 := (step (i + 1 + k) (by omega) (ih 0 (by omega))).2
        simp only [zero_add, pow_one] at h2 ⊢
        exact h2 (by simpa using h00)
      · have h2 := (step (i + 1 + k) (by omega) (ih j (by omega))).1
        rwa [Matrix.mulVec_mulVec, ← pow_succ'] at h2
  have hfin := grow (2 * T - 1 - (i + 1)) (by omega)
  rw [show i + 1 + (2 * T - 1 - (i + 1)) = 2 * T - 1 by omega] at hfin
  refine eq_top_of_cols (N := M * firstCols M) (by rw [Matrix.det_mul]; exact mul_ne_zero hM hC) fun j => ?_
  have := hfin j.val (by omega)
  rw [pow_succ', ← Matrix.mulVec_mulVec] at this
  rw [← Matrix.mulVec_mulVec]
  convert this using 2
  funext k
  simp [firstCols]

/-- **C63, full rounds.** With an MDS matrix no subspace trail covers two consecutive full rounds. -/
theorem C63_full [DecidableEq F] (sbox : F → F) (hs : NonLinear sbox) (M : Matrix (Fin T) (Fin T) F) (hmds : IsMds M)
    (h rp : ℕ) (c : ℕ → Fin T → F) (r : ℕ) (hr : r + 1 < h ∨ h + rp ≤ r) (U₀ U₁ U₂ : Submodule F (Fin T → F))
    (hU : U₀ ≠ ⊥) (h₀ : MapsCosets (Spec.round sbox M h rp c r) U₀ U₁)
    (h₁ : MapsCosets (Spec.round sbox M h rp c (r + 1)) U₁ U₂) : U₂ = ⊤ := by
  have he (r : ℕ) (hr : r < h ∨ h + rp ≤ r) : Spec.round sbox M h rp c r = Spec.fullRound sbox M (c r) := by
    funext x
    simp only [Spec.round, if_pos hr]
  rw [he r (by omega)] at h₀
  rw [he (r + 1) (by omega)] at h₁
  obtain ⟨u, hu, hne⟩ := (Submodule.ne_bot_iff _).1 hU
  obtain ⟨j, hj⟩ := Function.ne_iff.mp hne
  have h1 := full_step hs h₀ hu hj
  have hent (i : Fin T) : M i j ≠ 0 := by
    have := hmds 1 (fun _ => i) (fun _ => j) (Function.injective_of_subsingleton _) (Function.injective_of_subsingleton _)
    simpa using this
  have hdet : M.det ≠ 0 := by
    have := hmds T id id Function.injective_id Function.injective_id
    rwa [Matrix.submatrix_id_id] at this
  refine eq_top_of_cols hdet fun i => full_step hs h₁ h1 ?_
  simpa using hent i

end

/-- The fifth power is not linear in characteristic greater than 5. -/
private theorem pow5_nonLinear {n : ℕ} [Fact n.Prime] (hn : 5 < n) : NonLinear fun v : ZMod n => v ^ 5 := by
  intro d hd
  refine ⟨d, 0, fun e => ?_⟩
  have h30 : ((30 : ℕ) : ZMod n) ≠ 0 := by
    intro h
    rw [ZMod.natCast_eq_zero_iff, show (30 : ℕ) = 2 * (3 * 5) by norm_num] at h
    have hp : n.Prime := Fact.out
    rcases hp.dvd_mul.1 h with h | h
    · exact absurd (Nat.le_of_dvd (by norm_num) h) (by omega)
    · rcases hp.dvd_mul.1 h with h | h
      · exact absurd (Nat.le_of_dvd (by norm_num) h) (by omega)
      · exact absurd (Nat.le_of_dvd (by norm_num) h) (by omega)
  have h0 : ((30 : ℕ) : ZMod n) * d ^ 5 = 0 := by
    push_cast
    linear_combination e
  exact (mul_ne_zero h30 (pow_ne_zero 5 hd)) h0

private theorem firstCols_det {F : Type} [Field F] (M : Matrix (Fin 3) (Fin 3) F) : (firstCols M).det =
    M 1 0 * (M 2 0 * M 0 0 + M 2 1 * M 1 0 + M 2 2 * M 2 0) -
    M 2 0 * (M 1 0 * M 0 0 + M 1 1 * M 1 0 + M 1 2 * M 2 0) := by
  rw [Matrix.det_fin_three]
  simp only [firstCols, Matrix.of_apply]
  simp [pow_two, Matrix.mul_apply, Fin.sum_univ_three]
  ring

private theorem ne_zero_of_nat {n : ℕ} (a b : ℕ) (h : a % n ≠ b % n) : (a : ZMod n) - (b : ZMod n) ≠ 0 := by
  intro e
  exact h ((ZMod.natCast_eq_natCast_iff' a b n).mp (sub_eq_zero.mp e))

/-- **C63, BN254.** The rounds of the permutation used by every hash of the crate (see C56 for its relation to
`permuteFr`): no subspace trail covers five partial or two full rounds. -/
theorem C63_bn254 (U : ℕ → Submodule Bn256.Fr (State Bn256.Fr 3)) (hU : U 0 ≠ ⊥) (r : ℕ) :
    (4 ≤ r → r + 5 ≤ 61 → (∀ i < 5, MapsCosets (Spec.round (fun v => v ^ 5) (Matrix.of Bn256.mds) 4 57
      (fun i => Bn256.roundConstants.getD i 0) (r + i)) (U i) (U (i + 1))) → U 5 = ⊤) ∧
    (r + 1 < 4 ∨ 61 ≤ r → (∀ i < 2, MapsCosets (Spec.round (fun v => v ^ 5) (Matrix.of Bn256.mds) 4 57
      (fun i => Bn256.roundConstants.getD i 0) (r + i)) (U i) (U (i + 1))) → U 2 = ⊤) := by
  obtain ⟨-, -, inv, N, -, hN⟩ := C49_bn254_constants
  have hmds : IsMds (Matrix.of Bn256.mds) := default_isMds (hN N le_rfl)
  have hs := pow5_nonLinear (n := Bn256.r) (by norm_num)
  refine ⟨fun h1 h2 h3 => ?_, fun h1 h2 => ?_⟩
  · have hC : (firstCols (Matrix.of Bn256.mds)).det ≠ 0 := by
      rw [firstCols_det]
      simp only [Matrix.of_apply, Bn256.mds]
      have := ne_zero_of_nat (n := Bn256.r) _ _ (show
        ((fun m : ℕ → ℕ → ℕ => m 1 0 * (m 2 0 * m 0 0 + m 2 1 * m 1 0 + m 2 2 * m 2 0))
          fun i j => (Bn256.mdsStrings.getD i []).getD j 0) % Bn256.r ≠
        ((fun m : ℕ → ℕ → ℕ => m 2 0 * (m 1 0 * m 0 0 + m 1 1 * m 1 0 + m 1 2 * m 2 0))
          fun i j => (Bn256.mdsStrings.getD i []).getD j 0) % Bn256.r by decide +kernel)
      push_cast at this
      exact this
    have hdet : (Matrix.of Bn256.mds).det ≠ 0 := by
      have := hmds 3 id id Function.injective_id Function.injective_id
      rwa [Matrix.submatrix_id_id] at this
    have h00 : Matrix.of Bn256.mds 0 0 ≠ 0 := by
      have := hmds 1 (fun _ => 0) (fun _ => 0) (Function.injective_of_subsingleton _)
        (Function.injective_of_subsingleton _)
      simpa using this
    exact C63_partial _ hs _ hdet h00 bn254_firstRows hC 4 57 _ r h1 h2 U hU h3
  · exact C63_full _ hs _ hmds 4 57 _ r h1 (U 0) (U 1) (U 2) hU (h2 0 (by norm_num)) (h2 1 (by norm_num))

/-- **C63, Pallas.** -/
theorem C63_pasta (U : ℕ → Submodule Pasta.Fp (State Pasta.Fp 3)) (hU : U 0 ≠ ⊥) (r : ℕ) :
    (4 ≤ r → r + 5 ≤ 60 → (∀ i < 5, MapsCosets (Spec.round (fun v => v ^ 5) (Matrix.of Pasta.mds) 4 56
      (fun i => Pasta.roundConstants.getD i 0) (r + i)) (U i) (U (i + 1))) → U 5 = ⊤) ∧
    (r + 1 < 4 ∨ 60 ≤ r → (∀ i < 2, MapsCosets (Spec.round (fun v => v ^ 5) (Matrix.of Pasta.mds) 4 56
      (fun i => Pasta.roundConstants.getD i 0) (r + i)) (U i) (U (i + 1))) → U 2 = ⊤) := by
  obtain ⟨-, -, -, -, N, hN⟩ := C50_pasta_constants
  have hmds : IsMds (Matrix.of Pasta.mds) := default_isMds (hN N le_rfl)
  have hs := pow5_nonLinear (n := Pasta.p) (by norm_num)
  refine ⟨fun h1 h2 h3 => ?_, fun h1 h2 => ?_⟩
  · have hC : (firstCols (Matrix.of Pasta.mds)).det ≠ 0 := by
      rw [firstCols_det]
      simp only [Matrix.of_apply, Pasta.mds]
      have := ne_zero_of_nat (n := Pasta.p) _ _ (show
        ((fun m : ℕ → ℕ → ℕ => m 1 0 * (m 2 0 * m 0 0 + m 2 1 * m 1 0 + m 2 2 * m 2 0))
          fun i j => Pasta.rawNat (Pasta.mdsWords.getD (i * 3 + j) [])) % Pasta.p ≠
        ((fun m : ℕ → ℕ → ℕ => m 2 0 * (m 1 0 * m 0 0 + m 1 1 * m 1 0 + m 1 2 * m 2 0))
          fun i j => Pasta.rawNat (Pasta.mdsWords.getD (i * 3 + j) [])) % Pasta.p by decide +kernel)
      push_cast at this
      exact this
    have hdet : (Matrix.of Pasta.mds).det ≠ 0 := by
      have := hmds 3 id id Function.injective_id Function.injective_id
      rwa [Matrix.submatrix_id_id] at this
    have h00 : Matrix.of Pasta.mds 0 0 ≠ 0 := by
      have := hmds 1 (fun _ => 0) (fun _ => 0) (Function.injective_of_subsingleton _)
        (Function.injective_of_subsingleton _)
      simpa using this
    exact C63_partial _ hs _ hdet h00 pasta_firstRows hC 4 56 _ r h1 h2 U hU h3
  · exact C63_full _ hs _ hmds 4 56 _ r h1 (U 0) (U 1) (U 2) hU (h2 0 (by norm_num)) (h2 1 (by norm_num))

/-! Trails do exist over fewer rounds: two partial rounds starting from the line of word 0, and one full round. -/

section
variable {F : Type} [Field F] {T : ℕ} [NeZero T]

/-- The line of word 0 survives a partial round (as its image), and the next round adds one dimension. -/
example (sbox : F → F) (M : Matrix (Fin T) (Fin T) F) (c c' : Fin T → F) :
    MapsCosets (Spec.partialRound sbox M c) (Submodule.span F {Pi.single 0 1})
      (Submodule.span F {M.mulVec (Pi.single 0 1)}) ∧
    MapsCosets (Spec.partialRound sbox M c') (Submodule.span F {M.mulVec (Pi.single 0 1)})
      (Submodule.span F {M.mulVec (M.mulVec (Pi.single 0 1)), M.mulVec (Pi.single 0 1)}) ∧
    (Submodule.span F {(Pi.single 0 1 : Fin T → F)}) ≠ ⊥ := by
  have key (c x u : Fin T → F) : Spec.partialRound sbox M c (x + u) - Spec.partialRound sbox M c x =
      M.mulVec u + (sbox (x 0 + u 0 + c 0) - sbox (x 0 + c 0) - u 0) • M.mulVec (Pi.single 0 1) := by
    unfold Spec.partialRound
    rw [← Matrix.mulVec_sub, ← Matrix.mulVec_smul, ← Matrix.mulVec_add]
    congr 1
    funext i
    by_cases hi : i = 0
    · subst hi; simp
    · simp only [Pi.sub_apply, Pi.add_apply, hi, if_false, Pi.smul_apply, Pi.single_eq_of_ne hi, smul_zero]
      ring
  refine ⟨mapsCosets_of_sub fun x u hu => ?_, mapsCosets_of_sub fun x u hu => ?_, ?_⟩
  · rw [key]
    obtain ⟨k, rfl⟩ := Submodule.mem_span_singleton.1 hu
    rw [Matrix.mulVec_smul, ← add_smul]
    exact Submodule.smul_mem _ _ (Submodule.mem_span_singleton_self _)
  · rw [key]
    obtain ⟨k, rfl⟩ := Submodule.mem_span_singleton.1 hu
    rw [Matrix.mulVec_smul]
    exact Submodule.add_mem _ (Submodule.smul_mem _ _ (Submodule.subset_span (by simp)))
      (Submodule.smul_mem _ _ (Submodule.subset_span (by simp)))
  · rw [Ne, Submodule.span_singleton_eq_bot]
    intro h
    exact one_ne_zero (α := F) (by simpa using congrFun h 0)

end

end Props
