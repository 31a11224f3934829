import Verif.Props.Trails
import Mathlib.Algebra.Polynomial.Roots
import Mathlib.Data.Fin.Tuple.Basic
import Mathlib.SetTheory.Cardinal.Finite
import Mathlib.Tactic.ComputeDegree

/-!
# Differential characteristics of the permutation: C74

A differential characteristic prescribes the difference of two states before every round. The number of
pairs (constants, input) that follow it is computed exactly, and bounded with the active S-boxes of C56.
-/

set_option linter.unusedVariables false
set_option linter.unusedSectionVars false

namespace Props
open Base Trails

/-! ## Specification -/

namespace Differential
variable {F : Type} [Field F] [DecidableEq F] {T : ℕ} [NeZero T]

/-- Round constants for the first `R` rounds, zero afterwards. -/
def constants {R : ℕ} (k : Fin R → Fin T → F) : ℕ → Fin T → F := fun r => if h : r < R then k ⟨r, h⟩ else 0

/-- Before every round up to round `R`, and after the last of the `R` rounds, the states of the inputs `x` and
`x + δ 0` differ by the prescribed difference. -/
def Follows (sbox : F → F) (M : Matrix (Fin T) (Fin T) F) (h rp R : ℕ) (δ : ℕ → Fin T → F)
    (k : Fin R → Fin T → F) (x : Fin T → F) : Prop :=
  ∀ r ≤ R, stateAt sbox M h rp (constants k) r (x + δ 0) = stateAt sbox M h rp (constants k) r x + δ r

/-- The number of pairs of constants and input that follow the characteristic. -/
noncomputable def followers (sbox : F → F) (M : Matrix (Fin T) (Fin T) F) (h rp R : ℕ) (δ : ℕ → Fin T → F) : ℕ :=
  Nat.card {q : (Fin R → Fin T → F) × (Fin T → F) // Follows sbox M h rp R δ q.1 q.2}

/-- The number of S-boxes of round `r` whose input difference is not zero. -/
def activeAt (h rp : ℕ) (δ : ℕ → Fin T → F) (r : ℕ) : ℕ :=
  if r < h ∨ h + rp ≤ r then weight (δ r) else if δ r 0 ≠ 0 then 1 else 0

/-- The number of states `u` for which round `r` with constants zero takes the difference `d` to `d'`. -/
noncomputable def transitions (sbox : F → F) (M : Matrix (Fin T) (Fin T) F) (h rp r : ℕ) (d d' : Fin T → F) : ℕ :=
  Nat.card {u : Fin T → F // Spec.round sbox M h rp (fun _ => 0) r (u + d) =
    Spec.round sbox M h rp (fun _ => 0) r u + d'}

end Differential
open Differential

/-! ## The S-box -/

/-- **C74, S-box.** An input difference other than zero leads to a given output difference of `x^5` for at most four
values of `x`. -/
theorem C74_sbox {F : Type} [Field F] (h5 : (5 : F) ≠ 0) {a : F} (ha : a ≠ 0) (b : F) :
    Set.Finite {x : F | (x + a) ^ 5 - x ^ 5 = b} ∧ Nat.card {x : F // (x + a) ^ 5 - x ^ 5 = b} ≤ 4 := by
  classical
  obtain ⟨p, hp⟩ : ∃ p : Polynomial F, p = .C (5 * a) * .X ^ 4 + .C (10 * a ^ 2) * .X ^ 3 +
    .C (10 * a ^ 3) * .X ^ 2 + .C (5 * a ^ 4) * .X + .C (a ^ 5 - b) := ⟨_, rfl⟩
  have hd : p.natDegree = 4 := by
    rw [hp]; compute_degree!
  have h0 : p ≠ 0 := by
    rintro rfl; simp at hd
  have hsub : {x : F | (x + a) ^ 5 - x ^ 5 = b} ⊆ ↑p.roots.toFinset := by
    intro x hx
    have hx : (x + a) ^ 5 - x ^ 5 = b := hx
    rw [Finset.mem_coe, Multiset.mem_toFinset, Polynomial.mem_roots h0, Polynomial.IsRoot, hp]
    simp only [Polynomial.eval_add, Polynomial.eval_mul, Polynomial.eval_C, Polynomial.eval_pow, Polynomial.eval_X]
    rw [← hx]; ring
  have hfin := p.roots.toFinset.finite_toSet.subset hsub
  refine ⟨hfin, ?_⟩
  calc Nat.card {x : F // (x + a) ^ 5 - x ^ 5 = b} ≤ Nat.card (p.roots.toFinset : Set F) :=
        Nat.card_mono p.roots.toFinset.finite_toSet hsub
    _ = p.roots.toFinset.card := Nat.card_eq_card_toFinset _ |>.trans (by rw [Finset.toFinset_coe])
    _ ≤ Multiset.card p.roots := Multiset.toFinset_card_le _
    _ ≤ p.natDegree := p.card_roots'
    _ = 4 := hd

/-! ## Lemmas -/

namespace Differential
variable {F : Type} [Field F] [DecidableEq F] {T : ℕ} [NeZero T]
variable (sbox : F → F) (M : Matrix (Fin T) (Fin T) F) (h rp : ℕ)

theorem round_key (c : ℕ → Fin T → F) (r : ℕ) (x : Fin T → F) :
    Spec.round sbox M h rp c r x = Spec.round sbox M h rp (fun _ => 0) r (x + c r) := by
  unfold Spec.round
  split_ifs
  · simp [Spec.fullRound]
  · simp [Spec.partialRound]

theorem stateAt_succ (c : ℕ → Fin T → F) (r : ℕ) (x : Fin T → F) :
    stateAt sbox M h rp c (r + 1) x = Spec.round sbox M h rp c r (stateAt sbox M h rp c r x) := by
  simp [stateAt, List.range_succ]

theorem stateAt_congr {c c' : ℕ → Fin T → F} {r : ℕ} (hc : ∀ i < r, c i = c' i) (x : Fin T → F) :
    stateAt sbox M h rp c r x = stateAt sbox M h rp c' r x := by
  induction r with
  | zero => rfl
  | succ r ih =>
    rw [stateAt_succ, stateAt_succ, ih fun i hi => hc i (by omega), round_key _ _ _ _ c, round_key _ _ _ _ c',
      hc r (by omega)]

theorem constants_snoc_lt {R : ℕ} (k : Fin R → Fin T → F) (v : Fin T → F) {i : ℕ} (hi : i < R) :
    constants (Fin.snoc (α := fun _ => Fin T → F) k v) i = constants k i := by
  unfold constants
  rw [dif_pos (by omega), dif_pos hi]
  exact Fin.snoc_castSucc (α := fun _ => Fin T → F) (x := v) (p := k) (i := ⟨i, hi⟩)

theorem constants_snoc_self {R : ℕ} (k : Fin R → Fin T → F) (v : Fin T → F) :
    constants (Fin.snoc (α := fun _ => Fin T → F) k v) R = v := by
  unfold constants
  rw [dif_pos (by omega)]
  exact Fin.snoc_last (α := fun _ => Fin T → F) (x := v) (p := k)

theorem follows_snoc {R : ℕ} (δ : ℕ → Fin T → F) (k : Fin R → Fin T → F) (v x : Fin T → F) :
    Follows sbox M h rp (R + 1) δ (Fin.snoc (α := fun _ => Fin T → F) k v) x ↔ Follows sbox M h rp R δ k x ∧
      Spec.round sbox M h rp (fun _ => 0) R (stateAt sbox M h rp (constants k) R x + v + δ R) =
        Spec.round sbox M h rp (fun _ => 0) R (stateAt sbox M h rp (constants k) R x + v) + δ (R + 1) := by
  have hc : ∀ r ≤ R, ∀ y, stateAt sbox M h rp (constants (Fin.snoc (α := fun _ => Fin T → F) k v)) r y =
      stateAt sbox M h rp (constants k) r y := fun r hr y =>
    stateAt_congr sbox M h rp (fun i hi => constants_snoc_lt k v (by omega)) y
  have hl : Follows sbox M h rp R δ k x → (stateAt sbox M h rp (constants (Fin.snoc (α := fun _ => Fin T → F) k v)) (R + 1)
      (x + δ 0) = stateAt sbox M h rp (constants (Fin.snoc (α := fun _ => Fin T → F) k v)) (R + 1) x + δ (R + 1) ↔
      Spec.round sbox M h rp (fun _ => 0) R (stateAt sbox M h rp (constants k) R x + v + δ R) =
        Spec.round sbox M h rp (fun _ => 0) R (stateAt sbox M h rp (constants k) R x + v) + δ (R + 1)) := by
    intro hf
    rw [stateAt_succ, stateAt_succ, round_key, round_key sbox M h rp _ R (stateAt sbox M h rp _ R x), hc R le_rfl,
      hc R le_rfl, constants_snoc_self, hf R le_rfl, add_right_comm]
  constructor
  · intro hf
    have hf' : Follows sbox M h rp R δ k x := fun r hr => by
      have := hf r (by omega)
      rwa [hc r hr, hc r hr] at this
    exact ⟨hf', (hl hf').mp (hf (R + 1) le_rfl)⟩
  · rintro ⟨hf, hlast⟩ r hr
    rcases Nat.lt_or_ge R r with hlt | hle
    · obtain rfl : r = R + 1 := by omega
      exact (hl hf).mpr hlast
    · rw [hc r hle, hc r hle]
      exact hf r hle

theorem followers_succ (R : ℕ) (δ : ℕ → Fin T → F) :
    followers sbox M h rp (R + 1) δ = followers sbox M h rp R δ * transitions sbox M h rp R (δ R) (δ (R + 1)) := by
  unfold followers transitions
  rw [← Nat.card_prod]
  refine Nat.card_congr ?_
  refine
    { toFun := fun q => (⟨(Fin.init q.1.1, q.1.2), ?_⟩,
        ⟨stateAt sbox M h rp (constants (Fin.init (α := fun _ => Fin T → F) q.1.1)) R q.1.2 + q.1.1 (Fin.last R), ?_⟩)
      invFun := fun p => ⟨(Fin.snoc (α := fun _ => Fin T → F) p.1.1.1
        (p.2.1 - stateAt sbox M h rp (constants p.1.1.1) R p.1.1.2), p.1.1.2), ?_⟩
      left_inv := fun q => ?_
      right_inv := fun p => ?_ }
  · have := q.2
    rw [← Fin.snoc_init_self q.1.1] at this
    exact ((follows_snoc sbox M h rp δ _ _ _).mp this).1
  · have := q.2
    rw [← Fin.snoc_init_self q.1.1] at this
    exact ((follows_snoc sbox M h rp δ _ _ _).mp this).2
  · refine (follows_snoc sbox M h rp δ _ _ _).mpr ⟨p.1.2, ?_⟩
    rw [add_sub_cancel]
    exact p.2.2
  · apply Subtype.ext
    simp
  · obtain ⟨⟨⟨k, x⟩, h1⟩, ⟨u, h2⟩⟩ := p
    simp

theorem followers_zero (δ : ℕ → Fin T → F) : followers sbox M h rp 0 δ = Nat.card (Fin T → F) := by
  unfold followers
  refine Nat.card_congr ⟨fun q => q.1.2, fun x => ⟨(fun i => i.elim0, x), fun r hr => ?_⟩, fun q => ?_, fun x => rfl⟩
  · obtain rfl : r = 0 := by omega
    rfl
  · apply Subtype.ext
    exact Prod.ext (Subsingleton.elim _ _) rfl

end Differential

variable {F : Type} [Field F] [DecidableEq F] {T : ℕ} [NeZero T]

/-- **C74, exact count.** For every S-box, matrix, number of rounds and characteristic: the number of pairs of round
constants and input that follow the characteristic is the number of inputs times the product over the rounds
of the number of states for which the round takes the one difference to the next. -/
theorem C74_followers (sbox : F → F) (M : Matrix (Fin T) (Fin T) F) (h rp R : ℕ) (δ : ℕ → Fin T → F) :
    followers sbox M h rp R δ =
      Nat.card (Fin T → F) * ∏ r ∈ Finset.range R, transitions sbox M h rp r (δ r) (δ (r + 1)) := by
  induction R with
  | zero => simp [followers_zero]
  | succ R ih => rw [followers_succ, ih, Finset.prod_range_succ, mul_assoc]

/-! ## Bounds -/

namespace Differential

/-- The words of round `r` whose S-box is active for the difference `d`. -/
def activeSet (h rp r : ℕ) (d : Fin T → F) : Finset (Fin T) :=
  Finset.univ.filter fun i => (r < h ∨ h + rp ≤ r ∨ i = 0) ∧ d i ≠ 0

theorem card_activeSet (h rp : ℕ) (δ : ℕ → Fin T → F) (r : ℕ) : (activeSet h rp r (δ r)).card = activeAt h rp δ r := by
  unfold activeSet activeAt
  split_ifs with h1 h2
  · have : ∀ i : Fin T, ((r < h ∨ h + rp ≤ r ∨ i = 0) ∧ δ r i ≠ 0) ↔ δ r i ≠ 0 := fun i => by tauto
    simp only [this]
    rfl
  · rw [Finset.card_eq_one]
    refine ⟨0, Finset.ext fun i => ?_⟩
    simp only [Finset.mem_filter, Finset.mem_univ, true_and, Finset.mem_singleton]
    constructor
    · rintro ⟨h3, -⟩
      tauto
    · rintro rfl
      exact ⟨Or.inr (Or.inr rfl), h2⟩
  · rw [Finset.card_eq_zero]
    refine Finset.filter_eq_empty_iff.mpr fun i _ h3 => ?_
    rcases h3 with ⟨h3 | h3 | rfl, h4⟩
    · exact h1 (Or.inl h3)
    · exact h1 (Or.inr h3)
    · exact h2 h4

theorem transitions_le [Fintype F] {sbox : F → F} {M : Matrix (Fin T) (Fin T) F} (hM : IsUnit M.det) {m : ℕ}
    (hs : ∀ a b : F, a ≠ 0 → Nat.card {x : F // sbox (x + a) - sbox x = b} ≤ m) (h rp r : ℕ) (d d' : Fin T → F) :
    transitions sbox M h rp r d d' * Fintype.card F ^ (activeSet h rp r d).card ≤
      m ^ (activeSet h rp r d).card * Fintype.card F ^ T := by
  classical
  obtain ⟨e, he⟩ : ∃ e, e = M⁻¹.mulVec d' := ⟨_, rfl⟩
  let P : Fin T → Type := fun i => {x : F // i ∈ activeSet h rp r d → sbox (x + d i) - sbox x = e i}
  have hmem : ∀ u : {u : Fin T → F // Spec.round sbox M h rp (fun _ => 0) r (u + d) =
      Spec.round sbox M h rp (fun _ => 0) r u + d'}, ∀ i, i ∈ activeSet h rp r d →
      sbox (u.1 i + d i) - sbox (u.1 i) = e i := by
    rintro ⟨u, hu⟩ i hi
    have hi := (Finset.mem_filter.mp hi).2
    have hinv : ∀ v : Fin T → F, M⁻¹.mulVec (M.mulVec v) = v := fun v => by
      rw [Matrix.mulVec_mulVec, Matrix.nonsing_inv_mul _ hM, Matrix.one_mulVec]
    unfold Spec.round at hu
    split_ifs at hu with h1
    · simp only [Spec.fullRound] at hu
      have := congrArg M⁻¹.mulVec hu
      rw [Matrix.mulVec_add, hinv, hinv, ← he] at this
      have := congrFun this i
      simp only [Pi.add_apply, Pi.zero_apply, add_zero] at this
      rw [this]; ring
    · obtain rfl : i = 0 := by tauto
      simp only [Spec.partialRound] at hu
      have := congrArg M⁻¹.mulVec hu
      rw [Matrix.mulVec_add, hinv, hinv, ← he] at this
      have := congrFun this 0
      simp only [Pi.add_apply, Pi.zero_apply, add_zero, if_true] at this
      rw [this]; ring
  have hcard : transitions sbox M h rp r d d' ≤ Nat.card (∀ i, P i) := by
    refine Nat.card_le_card_of_injective (fun u i => (⟨u.1 i, hmem u i⟩ : P i)) fun u v huv => ?_
    apply Subtype.ext
    funext i
    exact congrArg Subtype.val (congrFun huv i)
  have hP : ∀ i, Nat.card (P i) ≤ if i ∈ activeSet h rp r d then m else Fintype.card F := by
    intro i
    split_ifs with hi
    · refine le_trans (Nat.card_le_card_of_injective
        (β := {x : F // sbox (x + d i) - sbox x = e i}) (fun x => ⟨x.1, x.2 hi⟩) fun x y hxy => Subtype.ext (Subtype.mk.inj hxy))
        (hs (d i) (e i) (Finset.mem_filter.mp hi).2.2)
    · rw [← Nat.card_eq_fintype_card]
      exact Nat.card_le_card_of_injective Subtype.val Subtype.val_injective
  have hprod : Nat.card (∀ i, P i) ≤ m ^ (activeSet h rp r d).card * Fintype.card F ^ (T - (activeSet h rp r d).card) := by
    rw [Nat.card_pi]
    refine le_trans (Finset.prod_le_prod' fun i _ => hP i) (le_of_eq ?_)
    rw [Finset.prod_ite, Finset.prod_const, Finset.prod_const]
    congr 2
    · congr 1
      ext i; simp
    · have := Finset.card_filter_add_card_filter_not (s := (Finset.univ : Finset (Fin T)))
        (fun i => i ∈ activeSet h rp r d)
      rw [Finset.card_univ, Fintype.card_fin] at this
      have h2 : (Finset.univ.filter fun i => i ∈ activeSet h rp r d) = activeSet h rp r d := by ext i; simp
      rw [h2] at this
      omega
  have hle : (activeSet h rp r d).card ≤ T := by
    have := Finset.card_le_univ (activeSet h rp r d)
    rwa [Fintype.card_fin] at this
  calc transitions sbox M h rp r d d' * Fintype.card F ^ (activeSet h rp r d).card
      ≤ (m ^ (activeSet h rp r d).card * Fintype.card F ^ (T - (activeSet h rp r d).card)) *
          Fintype.card F ^ (activeSet h rp r d).card := Nat.mul_le_mul_right _ (hcard.trans hprod)
    _ = m ^ (activeSet h rp r d).card * Fintype.card F ^ T := by
      rw [mul_assoc, ← pow_add, Nat.sub_add_cancel hle]

end Differential

/-- **C74, bound by the active S-boxes.** If every input difference other than zero of the S-box leads to a given
output difference for at most `m` values and the matrix is invertible, the number of followers is
at most a `(m / q)^A` part of all pairs of constants and input, where `A` is the number of active S-boxes of the
characteristic and `q` the size of the field. -/
theorem C74_active [Fintype F] (sbox : F → F) (M : Matrix (Fin T) (Fin T) F) (hM : IsUnit M.det) (m : ℕ)
    (hs : ∀ a b : F, a ≠ 0 → Nat.card {x : F // sbox (x + a) - sbox x = b} ≤ m) (h rp R : ℕ) (δ : ℕ → Fin T → F) :
    followers sbox M h rp R δ * Fintype.card F ^ (∑ r ∈ Finset.range R, activeAt h rp δ r) ≤
      m ^ (∑ r ∈ Finset.range R, activeAt h rp δ r) * Fintype.card F ^ (T * (R + 1)) := by
  rw [C74_followers]
  induction R with
  | zero => simp [Nat.card_eq_fintype_card]
  | succ R ih =>
    have hR := transitions_le hM hs h rp R (δ R) (δ (R + 1))
    rw [card_activeSet h rp δ R] at hR
    rw [Finset.prod_range_succ, Finset.sum_range_succ, pow_add, pow_add]
    calc _ = (Nat.card (Fin T → F) * ∏ r ∈ Finset.range R, transitions sbox M h rp r (δ r) (δ (r + 1))) *
          Fintype.card F ^ (∑ r ∈ Finset.range R, activeAt h rp δ r) *
          (transitions sbox M h rp R (δ R) (δ (R + 1)) * Fintype.card F ^ activeAt h rp δ R) := by ring
      _ ≤ _ := Nat.mul_le_mul ih hR
      _ = _ := by ring

/-- **C74, bound for MDS matrices.** With a bijective S-box and an MDS matrix whose first rows of powers are
independent, every characteristic that begins with a difference other than zero is followed by at most a
`(m / q)^N` part of all pairs, with `N` the number of active S-boxes that C56 guarantees. -/
theorem C74_characteristic [Fintype F] (sbox : F → F) (hb : Function.Bijective sbox) (M : Matrix (Fin T) (Fin T) F)
    (hmds : IsMds M) (hK : (firstRows M).det ≠ 0) (m : ℕ) (hmq : m ≤ Fintype.card F)
    (hs : ∀ a b : F, a ≠ 0 → Nat.card {x : F // sbox (x + a) - sbox x = b} ≤ m) (h rp : ℕ) (δ : ℕ → Fin T → F)
    (hδ : δ 0 ≠ 0) :
    followers sbox M h rp (2 * h + rp) δ * Fintype.card F ^ (2 * ((T + 1) * (h / 2)) + rp / T) ≤
      m ^ (2 * ((T + 1) * (h / 2)) + rp / T) * Fintype.card F ^ (T * (2 * h + rp + 1)) := by
  have hM : IsUnit M.det := by
    have := hmds T id id Function.injective_id Function.injective_id
    rw [Matrix.submatrix_id_id] at this
    exact isUnit_iff_ne_zero.mpr this
  rcases Nat.eq_zero_or_pos (followers sbox M h rp (2 * h + rp) δ) with h0 | hpos
  · rw [h0, Nat.zero_mul]
    exact Nat.zero_le _
  -- someone follows the characteristic: its active S-boxes are those of a pair of inputs
  obtain ⟨⟨⟨k, x⟩, hf⟩⟩ : Nonempty {q : (Fin (2 * h + rp) → Fin T → F) × (Fin T → F) //
      Follows sbox M h rp (2 * h + rp) δ q.1 q.2} := (Nat.card_pos_iff.mp hpos).1
  have hne : x + δ 0 ≠ x := fun e => hδ (by simpa using e)
  have hA := C56_active_sboxes sbox hb M hmds hK h rp (constants k) (x + δ 0) x hne
  have hact : ∀ r ∈ Finset.range (2 * h + rp), active sbox M h rp (constants k) (x + δ 0) x r = activeAt h rp δ r := by
    intro r hr
    have := hf r (Finset.mem_range.mp hr).le
    unfold active activeAt weight
    simp only [this, Pi.add_apply, ne_eq, add_left_inj, add_eq_left]
  rw [Finset.sum_congr rfl hact] at hA
  have hall := C74_active sbox M hM m hs h rp (2 * h + rp) δ
  obtain ⟨A, hAe⟩ : ∃ A, A = ∑ r ∈ Finset.range (2 * h + rp), activeAt h rp δ r := ⟨_, rfl⟩
  rw [← hAe] at hA hall
  obtain ⟨N, hN⟩ : ∃ N, N = 2 * ((T + 1) * (h / 2)) + rp / T := ⟨_, rfl⟩
  rw [← hN] at hA ⊢
  obtain ⟨b, rfl⟩ := Nat.exists_eq_add_of_le hA
  have hq : 0 < Fintype.card F ^ b := Nat.pow_pos Fintype.card_pos
  refine Nat.le_of_mul_le_mul_right ?_ hq
  calc _ = followers sbox M h rp (2 * h + rp) δ * Fintype.card F ^ (N + b) := by rw [pow_add, mul_assoc]
    _ ≤ m ^ (N + b) * Fintype.card F ^ (T * (2 * h + rp + 1)) := hall
    _ = m ^ N * Fintype.card F ^ (T * (2 * h + rp + 1)) * m ^ b := by rw [pow_add]; ring
    _ ≤ _ := Nat.mul_le_mul_left _ (Nat.pow_le_pow_left hmq b)

/-- **C74, BN254.** For the S-box, matrix and numbers of rounds of the BN254 instance, every characteristic
that begins with a difference other than zero is followed by at most a `(4 / r)^35` part, less than `2^-8785`, of
all pairs of round constants and input. -/
theorem C74_bn254 (δ : ℕ → Fin 3 → Bn256.Fr) (hδ : δ 0 ≠ 0) :
    followers (fun v => v ^ 5) (Matrix.of Bn256.mds) 4 57 65 δ * Bn256.r ^ 35 ≤ 4 ^ 35 * Bn256.r ^ (3 * 66) ∧
    followers (fun v => v ^ 5) (Matrix.of Bn256.mds) 4 57 65 δ * 2 ^ 8785 < Bn256.r ^ (3 * 66) := by
  obtain ⟨-, -, inv, N, -, hN⟩ := C49_bn254_constants
  have h5 : (5 : Bn256.Fr) ≠ 0 := by
    have := (ZMod.natCast_eq_zero_iff 5 Bn256.r).not.mpr (by decide +kernel)
    simpa using this
  have hc : Fintype.card Bn256.Fr = Bn256.r := ZMod.card _
  have hm := C74_characteristic (fun v : Bn256.Fr => v ^ 5) Bn256.sbox_bijective _ (default_isMds (hN N le_rfl))
    bn254_firstRows 4 (by rw [hc]; decide +kernel) (fun a b ha => (C74_sbox h5 ha b).2) 4 57 δ hδ
  rw [hc] at hm
  have hm' : followers (fun v => v ^ 5) (Matrix.of Bn256.mds) 4 57 65 δ * Bn256.r ^ 35 ≤ 4 ^ 35 * Bn256.r ^ (3 * 66) := hm
  refine ⟨hm', ?_⟩
  generalize followers (fun v => v ^ 5) (Matrix.of Bn256.mds) 4 57 65 δ = n at hm'
  have hr : 2 ^ 8785 * 4 ^ 35 < Bn256.r ^ 35 := by decide +kernel
  have hp : 0 < Bn256.r ^ (3 * 66) := Nat.pow_pos (by decide +kernel)
  generalize Bn256.r ^ (3 * 66) = Q at hm' hp ⊢
  generalize Bn256.r ^ 35 = q at hm' hr
  generalize 2 ^ 8785 = t at hr ⊢
  generalize 4 ^ 35 = f at hm' hr
  by_contra hlt
  have h1 : Q * q ≤ n * t * q := Nat.mul_le_mul_right _ (Nat.le_of_not_lt hlt)
  have h2 : n * t * q ≤ t * f * Q := by
    calc n * t * q = t * (n * q) := by ring
      _ ≤ t * (f * Q) := Nat.mul_le_mul_left _ hm'
      _ = t * f * Q := by ring
  have h3 : t * f * Q < q * Q := Nat.mul_lt_mul_of_pos_right hr hp
  rw [Nat.mul_comm Q q] at h1
  omega

/-- **C74, Pallas.** The same for the Pallas instance, with 34 active S-boxes. -/
theorem C74_pasta (δ : ℕ → Fin 3 → Pasta.Fp) (hδ : δ 0 ≠ 0) :
    followers (fun v => v ^ 5) (Matrix.of Pasta.mds) 4 56 64 δ * Pasta.p ^ 34 ≤ 4 ^ 34 * Pasta.p ^ (3 * 65) := by
  obtain ⟨-, -, -, -, N, hN⟩ := C50_pasta_constants
  have h5 : (5 : Pasta.Fp) ≠ 0 := by
    have := (ZMod.natCast_eq_zero_iff 5 Pasta.p).not.mpr (by decide +kernel)
    simpa using this
  have hc : Fintype.card Pasta.Fp = Pasta.p := ZMod.card _
  have hm := C74_characteristic (fun v : Pasta.Fp => v ^ 5) Pasta.sbox_bijective _ (default_isMds (hN N le_rfl))
    pasta_firstRows 4 (by rw [hc]; decide +kernel) (fun a b ha => (C74_sbox h5 ha b).2) 4 56 δ hδ
  rw [hc] at hm
  exact hm

/-! ## Cases -/

/-- Every pair of different inputs under any constants follows a characteristic that begins with a difference other
than zero. -/
theorem C74_exists (sbox : F → F) (M : Matrix (Fin T) (Fin T) F) (h rp R : ℕ) (k : Fin R → Fin T → F)
    {x y : Fin T → F} (hxy : x ≠ y) : ∃ δ : ℕ → Fin T → F, δ 0 ≠ 0 ∧ y = x + δ 0 ∧ Follows sbox M h rp R δ k x := by
  refine ⟨fun r => stateAt sbox M h rp (constants k) r y - stateAt sbox M h rp (constants k) r x, ?_, ?_, ?_⟩
  · exact sub_ne_zero.mpr (Ne.symm hxy)
  · exact (add_sub_cancel x y).symm
  · intro r _
    have : x + (stateAt sbox M h rp (constants k) 0 y - stateAt sbox M h rp (constants k) 0 x) = y :=
      add_sub_cancel x y
    dsimp only
    rw [this, add_sub_cancel]

/-- The characteristic of zero differences has no active S-box and is followed by all pairs. -/
example (sbox : F → F) (M : Matrix (Fin T) (Fin T) F) (h rp R : ℕ) (k : Fin R → Fin T → F) (x : Fin T → F) :
    Follows sbox M h rp R (fun _ => 0) k x ∧ ∑ r ∈ Finset.range R, activeAt h rp (fun _ => (0 : Fin T → F)) r = 0 := by
  refine ⟨fun r _ => by simp, Finset.sum_eq_zero fun r _ => ?_⟩
  simp [activeAt, weight]

/-- The bound of the S-box is attained: in the field with 7 elements, where `x^5` is a bijection,
`(x + 1)^5 - x^5 = 1` has the four solutions 0, 2, 4 and 6. -/
example : (5 : ZMod 7) ≠ 0 ∧ (1 : ZMod 7) ≠ 0 ∧
    Nat.card {x : ZMod 7 // (x + 1) ^ 5 - x ^ 5 = 1} = 4 := by
  rw [Nat.card_eq_fintype_card]
  decide +kernel

/-- A characteristic of the BN254 instance that somebody follows. -/
example : ∃ δ : ℕ → Fin 3 → Bn256.Fr, δ 0 ≠ 0 ∧
    Follows (fun v => v ^ 5) (Matrix.of Bn256.mds) 4 57 65 δ (fun i => Bn256.roundConstants.getD i 0) ![0, 0, 0] := by
  have hne : (![0, 0, 0] : Fin 3 → Bn256.Fr) ≠ ![0, 0, 1] := fun e => zero_ne_one (congrFun e 2)
  obtain ⟨δ, h1, -, h2⟩ := C74_exists (fun v => v ^ 5) (Matrix.of Bn256.mds) 4 57 65
    (fun i : Fin 65 => (Bn256.roundConstants.getD i 0 : Fin 3 → Bn256.Fr)) hne
  exact ⟨δ, h1, h2⟩

end Props
