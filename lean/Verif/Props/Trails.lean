import Verif.Props.Bn254
import Verif.Props.Constants
import Verif.Props.Pasta
import Mathlib.LinearAlgebra.Matrix.ToLinearEquiv
import Mathlib.Algebra.BigOperators.Intervals

/-!
# Active S-boxes of the permutation: C56
-/

set_option linter.unusedVariables false
set_option linter.unusedSectionVars false

namespace Props
open Base

/-! ## Specification -/

namespace Trails
variable {F : Type} [Field F] [DecidableEq F] {T : ℕ} [NeZero T]

/-- Number of nonzero words. -/
def weight (v : Fin T → F) : ℕ := (Finset.univ.filter fun i => v i ≠ 0).card

/-- The state before round `r`. -/
def stateAt (sbox : F → F) (M : Matrix (Fin T) (Fin T) F) (h rp : ℕ) (c : ℕ → Fin T → F) (r : ℕ)
    (x : Fin T → F) : Fin T → F :=
  (List.range r).foldl (fun x r => Spec.round sbox M h rp c r x) x

/-- The number of S-boxes of round `r` that see different inputs when the permutation is applied to `x` and
`y`: any of the `T` words in a full round, word 0 in a partial round. -/
def active (sbox : F → F) (M : Matrix (Fin T) (Fin T) F) (h rp : ℕ) (c : ℕ → Fin T → F) (x y : Fin T → F)
    (r : ℕ) : ℕ :=
  let X := stateAt sbox M h rp c r x
  let Y := stateAt sbox M h rp c r y
  if r < h ∨ h + rp ≤ r then (Finset.univ.filter fun i => X i + c r i ≠ Y i + c r i).card
  else if X 0 + c r 0 ≠ Y 0 + c r 0 then 1 else 0

/-- Every square submatrix is invertible. -/
def IsMds (M : Matrix (Fin T) (Fin T) F) : Prop :=
  ∀ (s : ℕ) (r c : Fin s → Fin T), Function.Injective r → Function.Injective c → (M.submatrix r c).det ≠ 0

/-- Row 0 of the powers `M^0, ..., M^(T-1)`. -/
def firstRows (M : Matrix (Fin T) (Fin T) F) : Matrix (Fin T) (Fin T) F := Matrix.of fun i j => (M ^ i.val) 0 j

/-! ## Lemmas -/

theorem branch {M : Matrix (Fin T) (Fin T) F} (hM : IsMds M) {v : Fin T → F} (hv : v ≠ 0) :
    T + 1 ≤ weight v + weight (M.mulVec v) := by
  by_contra hlt
  have hz : weight v ≤ (Finset.univ.filter fun i => M.mulVec v i = 0).card := by
    have := Finset.card_filter_add_card_filter_not (s := (Finset.univ : Finset (Fin T)))
      (fun i => M.mulVec v i = 0)
    rw [Finset.card_univ, Fintype.card_fin] at this
    unfold weight at hlt ⊢
    simp only [ne_eq] at hlt ⊢
    omega
  obtain ⟨Z, hZ, hZc⟩ := Finset.exists_subset_card_eq hz
  let S := Finset.univ.filter fun i => v i ≠ 0
  have hS : S.card = weight v := rfl
  let c := S.orderEmbOfFin hS
  let r := Z.orderEmbOfFin hZc
  have hdet := hM (weight v) r c r.injective c.injective
  have h0 : (M.submatrix r c).mulVec (fun j => v (c j)) = 0 := by
    funext i
    have hi : M.mulVec v (r i) = 0 := (Finset.mem_filter.mp (hZ (Finset.orderEmbOfFin_mem Z hZc i))).2
    rw [Pi.zero_apply, ← hi]
    simp only [Matrix.mulVec, dotProduct, Matrix.submatrix_apply]
    rw [← Finset.sum_filter_of_ne (s := Finset.univ) (p := fun j => v j ≠ 0)
      (fun j _ hj => right_ne_zero_of_mul hj)]
    have himg : Finset.univ.map c.toEmbedding = S := Finset.map_orderEmbOfFin_univ S hS
    change _ = ∑ j ∈ S, _
    rw [← himg, Finset.sum_map]
    rfl
  have hv0 := Matrix.eq_zero_of_mulVec_eq_zero hdet h0
  obtain ⟨j, hj⟩ := Function.ne_iff.mp hv
  have hjS : j ∈ S := Finset.mem_filter.mpr ⟨Finset.mem_univ _, hj⟩
  obtain ⟨k, hk⟩ : ∃ k, c k = j := by
    have : j ∈ Set.range c := by rw [Finset.range_orderEmbOfFin]; exact hjS
    exact this
  have := congrFun hv0 k
  simp only [hk, Pi.zero_apply] at this
  exact hj this

theorem observable {M : Matrix (Fin T) (Fin T) F} (hK : (firstRows M).det ≠ 0) {d : Fin T → F}
    (h : ∀ i < T, (M ^ i).mulVec d 0 = 0) : d = 0 := by
  refine Matrix.eq_zero_of_mulVec_eq_zero hK ?_
  funext i
  exact h i.val i.isLt

theorem sum_blocks (f : ℕ → ℕ) (k w n : ℕ) (h : ∀ b, (b + 1) * k ≤ n → w ≤ ∑ i ∈ Finset.range k, f (b * k + i)) :
    w * (n / k) ≤ ∑ i ∈ Finset.range n, f i := by
  have key : ∀ m, m * k ≤ n → w * m ≤ ∑ i ∈ Finset.range (m * k), f i := by
    intro m
    induction m with
    | zero => intro _; simp
    | succ m ih =>
      intro hm
      rw [show (m + 1) * k = m * k + k by ring, Finset.sum_range_add]
      have h1 := ih (by rw [show (m + 1) * k = m * k + k by ring] at hm; omega)
      have h2 := h m hm
      rw [Nat.mul_succ]
      omega
  refine (key (n / k) (Nat.div_mul_le_self n k)).trans ?_
  exact Finset.sum_le_sum_of_subset (Finset.range_mono (Nat.div_mul_le_self n k))

variable {sbox : F → F} {M : Matrix (Fin T) (Fin T) F} {h rp : ℕ} {c : ℕ → Fin T → F}

theorem stateAt_succ (r : ℕ) (x : Fin T → F) :
    stateAt sbox M h rp c (r + 1) x = Spec.round sbox M h rp c r (stateAt sbox M h rp c r x) := by
  unfold stateAt
  rw [List.range_succ, List.foldl_append]
  rfl

theorem stateAt_ne (hs : Function.Bijective sbox) (hM : IsUnit M.det) (r : ℕ) {x y : Fin T → F} (hxy : x ≠ y) :
    stateAt sbox M h rp c r x ≠ stateAt sbox M h rp c r y := by
  induction r with
  | zero => exact hxy
  | succ r ih =>
    rw [stateAt_succ, stateAt_succ]
    have hr : Function.Bijective (Spec.round sbox M h rp c r) := by
      unfold Spec.round
      split
      · exact fullRound_bijective sbox hs M hM _
      · exact partialRound_bijective sbox hs M hM _
    exact fun e => ih (hr.1 e)

/-- Two consecutive full rounds. -/
theorem full_pair (hs : Function.Bijective sbox) (hM : IsUnit M.det) (hmds : IsMds M) {x y : Fin T → F}
    (hxy : x ≠ y) (r : ℕ) (h1 : r < h ∨ h + rp ≤ r) (h2 : r + 1 < h ∨ h + rp ≤ r + 1) :
    T + 1 ≤ active sbox M h rp c x y r + active sbox M h rp c x y (r + 1) := by
  have hne := stateAt_ne (h := h) (rp := rp) (c := c) hs hM r hxy
  unfold active
  simp only [if_pos h1, if_pos h2, stateAt_succ]
  generalize stateAt sbox M h rp c r x = X at hne ⊢
  generalize stateAt sbox M h rp c r y = Y at hne ⊢
  have hd : (fun i => sbox (X i + c r i) - sbox (Y i + c r i)) ≠ 0 := by
    intro e
    apply hne
    funext i
    have := congrFun e i
    exact add_right_cancel (hs.1 (sub_eq_zero.mp this))
  refine (branch hmds hd).trans (le_of_eq ?_)
  have hR : ∀ Z, Spec.round sbox M h rp c r Z = M.mulVec fun i => sbox (Z i + c r i) := by
    intro Z
    rw [Spec.round, if_pos h1]
    rfl
  rw [hR, hR]
  unfold weight
  congr 2
  · ext i
    simp only [Finset.mem_filter, Finset.mem_univ, true_and, ne_eq, sub_eq_zero, hs.1.eq_iff]
  · ext i
    have : M.mulVec (fun i => sbox (X i + c r i) - sbox (Y i + c r i)) i =
        M.mulVec (fun i => sbox (X i + c r i)) i - M.mulVec (fun i => sbox (Y i + c r i)) i := by
      exact congrFun (Matrix.mulVec_sub M (fun i => sbox (X i + c r i)) (fun i => sbox (Y i + c r i))) i
    simp only [Finset.mem_filter, Finset.mem_univ, true_and, ne_eq, add_left_inj, this, sub_eq_zero]

/-- `T` consecutive partial rounds. -/
theorem partial_block (hs : Function.Bijective sbox) (hM : IsUnit M.det) (hK : (firstRows M).det ≠ 0)
    {x y : Fin T → F} (hxy : x ≠ y) (r : ℕ) (h1 : ∀ i < T, ¬(r + i < h ∨ h + rp ≤ r + i)) :
    1 ≤ ∑ i ∈ Finset.range T, active sbox M h rp c x y (r + i) := by
  have hne := stateAt_ne (h := h) (rp := rp) (c := c) hs hM r hxy
  by_contra hlt
  have h0 : ∀ i < T, active sbox M h rp c x y (r + i) = 0 := by
    intro i hi
    exact Finset.sum_eq_zero_iff.mp (Nat.lt_one_iff.mp (not_le.mp hlt)) i (Finset.mem_range.mpr hi)
  have h0' : ∀ i < T, stateAt sbox M h rp c (r + i) x 0 = stateAt sbox M h rp c (r + i) y 0 := by
    intro i hi
    have := h0 i hi
    unfold active at this
    simp only [if_neg (h1 i hi), add_left_inj, ne_eq, ite_not, ite_eq_left_iff, one_ne_zero, imp_false,
      not_not] at this
    exact this
  have hdiff : ∀ i ≤ T, stateAt sbox M h rp c (r + i) x - stateAt sbox M h rp c (r + i) y =
      (M ^ i).mulVec (stateAt sbox M h rp c r x - stateAt sbox M h rp c r y) := by
    intro i
    induction i with
    | zero => intro _; simp
    | succ i ih =>
      intro hi
      rw [← Nat.add_assoc, stateAt_succ, stateAt_succ, pow_succ', ← Matrix.mulVec_mulVec, ← ih (by omega)]
      have e0 := h0' i (by omega)
      unfold Spec.round
      rw [if_neg (h1 i (by omega)), if_neg (h1 i (by omega))]
      unfold Spec.partialRound
      rw [← Matrix.mulVec_sub]
      congr 1
      funext j
      simp only [Pi.sub_apply]
      by_cases hj : j = 0
      · subst hj
        rw [if_pos rfl, if_pos rfl, e0]
        simp
      · rw [if_neg hj, if_neg hj]
        ring
  apply hne
  rw [← sub_eq_zero]
  refine observable hK fun i hi => ?_
  rw [← hdiff i hi.le, Pi.sub_apply, h0' i hi, sub_self]

end Trails

open Trails

/-! ## C56 -/

section
variable {F : Type} [Field F] [DecidableEq F] {T : ℕ} [NeZero T]

/-- **C56, any instance.** With a bijective S-box, an MDS matrix and the first rows of its first `T` powers
linearly independent, two different inputs of a permutation with `h + rp + h` rounds see different values in at
least `T + 1` S-boxes of each pair of consecutive full rounds and at least one of each `T` consecutive
partial rounds. -/
theorem C56_active_sboxes (sbox : F → F) (hs : Function.Bijective sbox) (M : Matrix (Fin T) (Fin T) F)
    (hmds : IsMds M) (hK : (firstRows M).det ≠ 0) (h rp : ℕ) (c : ℕ → Fin T → F) (x y : Fin T → F)
    (hxy : x ≠ y) :
    2 * ((T + 1) * (h / 2)) + rp / T ≤ ∑ r ∈ Finset.range (2 * h + rp), active sbox M h rp c x y r := by
  have hM : IsUnit M.det := by
    have := hmds T id id Function.injective_id Function.injective_id
    rw [Matrix.submatrix_id_id] at this
    exact isUnit_iff_ne_zero.mpr this
  have hsplit : ∑ r ∈ Finset.range (2 * h + rp), active sbox M h rp c x y r =
      ∑ r ∈ Finset.range h, active sbox M h rp c x y r +
      ∑ r ∈ Finset.range rp, active sbox M h rp c x y (h + r) +
      ∑ r ∈ Finset.range h, active sbox M h rp c x y (h + rp + r) := by
    rw [show 2 * h + rp = h + rp + h by ring, Finset.sum_range_add, Finset.sum_range_add]
  have a1 : (T + 1) * (h / 2) ≤ ∑ r ∈ Finset.range h, active sbox M h rp c x y r := by
    refine sum_blocks _ 2 (T + 1) h fun b hb => ?_
    rw [Finset.sum_range_succ, Finset.sum_range_one]
    exact full_pair hs hM hmds hxy _ (by omega) (by omega)
  have a2 : 1 * (rp / T) ≤ ∑ r ∈ Finset.range rp, active sbox M h rp c x y (h + r) := by
    refine sum_blocks _ T 1 rp fun b hb => ?_
    rw [show (b + 1) * T = b * T + T by ring] at hb
    simp only [← Nat.add_assoc]
    exact partial_block hs hM hK hxy _ fun i hi => by omega
  have a3 : (T + 1) * (h / 2) ≤ ∑ r ∈ Finset.range h, active sbox M h rp c x y (h + rp + r) := by
    refine sum_blocks _ 2 (T + 1) h fun b hb => ?_
    rw [Finset.sum_range_succ, Finset.sum_range_one]
    exact full_pair hs hM hmds hxy _ (by omega) (by omega)
  rw [hsplit]
  omega

end

/-- The matrices generated by the default `Spec::constants` are MDS (from C18). -/
theorem default_isMds {p numBits T rf rp sel fuel : ℕ} [Fact p.Prime] [NeZero T] {rcs : List (State (ZMod p) T)}
    {m inv : Mds (ZMod p) T} (h : defaultConstants p numBits T rf rp sel fuel = .ok (rcs, m, inv)) :
    IsMds (Matrix.of m) := by
  unfold defaultConstants at h
  cases h1 : Grain.new 0 numBits (T % 2 ^ 16) (rf % 2 ^ 16) (rp % 2 ^ 16) with
  | error e => rw [h1] at h; cases h
  | ok g =>
    rw [h1] at h
    cases h2 : constantRows (Grain.nextFieldElement p numBits fuel) T (rf + rp) g with
    | error e => simp only [h2, bind, Except.bind] at h; cases h
    | ok v =>
      obtain ⟨rcs', g'⟩ := v
      cases h3 : MdsGen.generateMds (Grain.nextFieldElementWithoutRejection p numBits) (leZMod p) T fuel sel g' with
      | error e => simp only [h2, h3, bind, Except.bind] at h; cases h
      | ok w =>
        obtain ⟨m', inv', g''⟩ := w
        simp only [h2, h3, bind, Except.bind, pure, Except.pure, Except.ok.injEq, Prod.mk.injEq] at h
        obtain ⟨-, rfl, -⟩ := h
        have : NeZero p := ⟨(Fact.out : p.Prime).ne_zero⟩
        exact (C18_generate_mds _ _ (leZMod_total p) (leZMod_trans p) (leZMod_anti p) _ _ _ _ _ _ _ h3).2.2.2

private theorem firstRows_det {F : Type} [Field F] (M : Matrix (Fin 3) (Fin 3) F) : (firstRows M).det =
    M 0 1 * (M 0 0 * M 0 2 + M 0 1 * M 1 2 + M 0 2 * M 2 2) -
    M 0 2 * (M 0 0 * M 0 1 + M 0 1 * M 1 1 + M 0 2 * M 2 1) := by
  rw [Matrix.det_fin_three]
  simp only [firstRows, Matrix.of_apply]
  simp [pow_two, Matrix.mul_apply, Fin.sum_univ_three]

private theorem ne_zero_of_nat {n : ℕ} (a b : ℕ) (h : a % n ≠ b % n) : (a : ZMod n) - (b : ZMod n) ≠ 0 := by
  intro e
  exact h ((ZMod.natCast_eq_natCast_iff' a b n).mp (sub_eq_zero.mp e))

theorem bn254_firstRows : (firstRows (Matrix.of Bn256.mds)).det ≠ 0 := by
  rw [firstRows_det]
  simp only [Matrix.of_apply, Bn256.mds]
  have := ne_zero_of_nat (n := Bn256.r) _ _ (show
    ((fun m : ℕ → ℕ → ℕ => m 0 1 * (m 0 0 * m 0 2 + m 0 1 * m 1 2 + m 0 2 * m 2 2))
      fun i j => (Bn256.mdsStrings.getD i []).getD j 0) % Bn256.r ≠
    ((fun m : ℕ → ℕ → ℕ => m 0 2 * (m 0 0 * m 0 1 + m 0 1 * m 1 1 + m 0 2 * m 2 1))
      fun i j => (Bn256.mdsStrings.getD i []).getD j 0) % Bn256.r by decide +kernel)
  push_cast at this
  exact this

/-- **C56, BN254.** The permutation used by every hash of the crate: two different states see different inputs in at
least 35 of the 81 S-boxes. -/
theorem C56_bn254 (short : Bool) (x y : State Bn256.Fr 3) (hxy : x ≠ y) :
    (∀ s, Bn256.permuteFr short s = .ok (stateAt (fun v => v ^ 5) (Matrix.of Bn256.mds) 4 57
      (fun i => Bn256.roundConstants.getD i 0) 65 s)) ∧
    35 ≤ ∑ r ∈ Finset.range 65, active (fun v => v ^ 5) (Matrix.of Bn256.mds) 4 57
      (fun i => Bn256.roundConstants.getD i 0) x y r := by
  refine ⟨fun s => ?_, ?_⟩
  · obtain ⟨rc, h1, -, h3, -⟩ := Bn256.cached_ok
    simp only [Bn256.permuteFr, h1, bind, Except.bind, h3, pure, Except.pure]
    rfl
  obtain ⟨-, -, inv, N, -, hN⟩ := C49_bn254_constants
  exact C56_active_sboxes _ Bn256.sbox_bijective _ (default_isMds (hN N le_rfl)) bn254_firstRows 4 57 _ x y hxy

theorem pasta_firstRows : (firstRows (Matrix.of Pasta.mds)).det ≠ 0 := by
  rw [firstRows_det]
  simp only [Matrix.of_apply, Pasta.mds]
  have := ne_zero_of_nat (n := Pasta.p) _ _ (show
    ((fun m : ℕ → ℕ → ℕ => m 0 1 * (m 0 0 * m 0 2 + m 0 1 * m 1 2 + m 0 2 * m 2 2))
      fun i j => Pasta.rawNat (Pasta.mdsWords.getD (i * 3 + j) [])) % Pasta.p ≠
    ((fun m : ℕ → ℕ → ℕ => m 0 2 * (m 0 0 * m 0 1 + m 0 1 * m 1 1 + m 0 2 * m 2 1))
      fun i j => Pasta.rawNat (Pasta.mdsWords.getD (i * 3 + j) [])) % Pasta.p by decide +kernel)
  push_cast at this
  exact this

/-- **C56, Pallas.** At least 34 of the 80 S-boxes. -/
theorem C56_pasta (short : Bool) (x y : State Pasta.Fp 3) (hxy : x ≠ y) :
    (∀ s, Pasta.permuteFp short s = .ok (stateAt (fun v => v ^ 5) (Matrix.of Pasta.mds) 4 56
      (fun i => Pasta.roundConstants.getD i 0) 64 s)) ∧
    34 ≤ ∑ r ∈ Finset.range 64, active (fun v => v ^ 5) (Matrix.of Pasta.mds) 4 56
      (fun i => Pasta.roundConstants.getD i 0) x y r := by
  refine ⟨(C50_pasta_permutation short).1, ?_⟩
  obtain ⟨-, -, -, -, N, hN⟩ := C50_pasta_constants
  exact C56_active_sboxes _ Pasta.sbox_bijective _ (default_isMds (hN N le_rfl)) pasta_firstRows 4 56 _ x y hxy

/-- Two states to which the theorems apply, and their first active S-box. -/
example : (![0, 1, 2] : State Bn256.Fr 3) ≠ ![0, 1, 3] ∧
    active (fun v => v ^ 5) (Matrix.of Bn256.mds) 4 57 (fun i => Bn256.roundConstants.getD i 0)
      ![0, 1, 2] ![0, 1, 3] 0 = 1 := by
  have h : (2 : Bn256.Fr) ≠ 3 := by
    have := ne_zero_of_nat (n := Bn256.r) 2 3 (by norm_num)
    intro e
    apply this
    simp only [Nat.cast_ofNat, e, sub_self]
  refine ⟨fun e => h (congrFun e 2), ?_⟩
  unfold active
  simp only [stateAt, List.range_zero, List.foldl_nil, if_pos (show (0 < 4 ∨ 4 + 57 ≤ 0) by norm_num), ne_eq,
    add_left_inj]
  rw [Finset.card_eq_one]
  refine ⟨2, ?_⟩
  ext i
  match i with
  | 0 => simp
  | 1 => simp
  | 2 => simpa using h

end Props
