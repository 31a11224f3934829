import Verif.Halo2.Opening
import Verif.Props.ArgumentCount
import Mathlib.Algebra.Polynomial.Div

/-!
# Openings of commitments
-/

set_option linter.unusedSectionVars false
set_option linter.unusedVariables false

namespace Halo2
open Polynomial

variable {F : Type} [Field F]

section
variable {G : Type} [AddCommGroup G] [Module F G]

theorem commit_eq (τ : F) (g : G) {n : ℕ} {p : F[X]} (hp : p.degree < n) : commit τ g n p = p.eval τ • g := by
  unfold commit powersOf
  by_cases h0 : p = 0
  · subst h0
    simp
  rw [eval_eq_sum_range' ((natDegree_lt_iff_degree_lt h0).mpr hp), Finset.sum_smul]
  exact Finset.sum_congr rfl fun i _ => by rw [smul_smul]

end

namespace Shplonk
open Classical

variable {L : Type}

theorem mem_firsts {A : Type} {l : List A} {a : A} : a ∈ firsts l ↔ a ∈ l := by simp [firsts]

theorem nodup_firsts {A : Type} (l : List A) : (firsts l).Nodup := by
  unfold firsts
  rw [List.nodup_reverse]
  exact List.nodup_dedup _

theorem length_firsts {A : Type} (l : List A) : (firsts l).length ≤ l.length := by
  unfold firsts
  rw [List.length_reverse]
  exact (List.Sublist.length_le (List.dedup_sublist _)).trans (by simp)

variable (qs : List (Query L F))

theorem mem_labels {l : L} : l ∈ labels qs ↔ ∃ q ∈ qs, q.label = l := by simp [labels, mem_firsts]

theorem mem_points {l : L} {x : F} : x ∈ points qs l ↔ ∃ q ∈ qs, q.label = l ∧ q.point = x := by
  simp [points, and_assoc]

theorem mem_superSet {x : F} : x ∈ superSet qs ↔ ∃ q ∈ qs, q.point = x := by simp [superSet]

theorem points_subset (l : L) : points qs l ⊆ superSet qs := fun x hx => by
  rw [mem_points] at hx
  obtain ⟨q, hq, -, h⟩ := hx
  exact (mem_superSet qs).mpr ⟨q, hq, h⟩

theorem set_subset {S : Finset F} (hS : S ∈ rotationSets qs) : S ⊆ superSet qs := by
  rw [rotationSets, mem_firsts, List.mem_map] at hS
  obtain ⟨l, -, rfl⟩ := hS
  exact points_subset qs l

theorem firstSet_subset : firstSet qs ⊆ superSet qs := by
  unfold firstSet
  cases h : rotationSets qs with
  | nil => simp
  | cons S T => exact set_subset qs (by rw [h]; exact List.mem_cons_self)

theorem vanish_eq_nodal (S : Finset F) (u : F) : vanish S u = (∏ s ∈ S, (X - C s)).eval u := by
  simp [vanish, eval_prod]

theorem vanish_sdiff {S T : Finset F} (h : S ⊆ T) (u : F) : vanish (T \ S) u * vanish S u = vanish T u :=
  Finset.prod_sdiff h

theorem vanish_ne {S : Finset F} {u : F} (h : u ∉ S) : vanish S u ≠ 0 :=
  Finset.prod_ne_zero_iff.mpr fun s hs e => h (by rw [sub_eq_zero.mp e]; exact hs)

theorem vanish_zero {S : Finset F} {u : F} (h : u ∈ S) : vanish S u = 0 := Finset.prod_eq_zero h (sub_self u)

/-- The factor of a set times that of the first one. -/
theorem factor_mul {u : F} (hu : vanish (superSet qs \ firstSet qs) u ≠ 0) (j : Fin (rotationSets qs).length) :
    factor qs u j ((rotationSets qs).get j) * vanish (superSet qs \ firstSet qs) u =
      vanish (superSet qs \ (rotationSets qs).get j) u := by
  unfold factor
  split_ifs with h
  · rw [one_mul]
    congr 2
    unfold firstSet
    obtain ⟨j, hj⟩ := j
    simp only at h
    subst h
    rw [List.headD_eq_head?_getD, List.head?_eq_getElem?, List.getElem?_eq_getElem hj]
    rfl
  · rw [mul_assoc, inv_mul_cancel₀ hu, mul_one]

/-! ### The check, as an identity of polynomials at the secret -/

/-- What the verifier checks to be zero at the secret, for polynomials `h` and `w` behind the commitments of the prover. -/
noncomputable def residue (p : L → F[X]) (h w : F[X]) (y v u : F) : F[X] := linear qs p h y v u - (X - C u) * w

variable {qs}

theorem accepts_iff {G G2 GT : Type} [AddCommGroup G] [Module F G] [AddCommGroup G2] [Module F G2] [AddCommGroup GT]
    [Module F GT] (E : Pairing F G G2 GT) (τ : F) {n : ℕ} {p : L → F[X]} (hp : ∀ l, (p l).degree < n) {h w : F[X]}
    (hh : h.degree < n) (hw : w.degree < n) (y v u : F) :
    Accepts E τ qs (fun l => commit τ E.g n (p l)) (commit τ E.g n h) (commit τ E.g n w) y v u ↔
      vanish (superSet qs \ firstSet qs) u ≠ 0 ∧ (residue qs p h w y v u).eval τ = 0 := by
  unfold Accepts
  refine and_congr_right fun _ => ?_
  have e1 : outer qs E.g (fun l => commit τ E.g n (p l)) (commit τ E.g n h) (commit τ E.g n w) y v u =
      ((linear qs p h y v u).eval τ + u * w.eval τ) • E.g := by
    unfold outer linear combined combinedLow
    rw [commit_eq τ E.g hh, commit_eq τ E.g hw]
    simp only [commit_eq τ E.g (hp _), eval_sub, eval_finsetSum, eval_mul, eval_C, smul_smul, ← Finset.sum_smul,
      ← sub_smul, ← add_smul, mul_sub, Finset.sum_sub_distrib]
  rw [e1, commit_eq τ E.g hw]
  simp only [map_smul, LinearMap.smul_apply, smul_smul]
  rw [← sub_eq_zero, ← sub_smul]
  have e2 : (residue qs p h w y v u).eval τ = (linear qs p h y v u).eval τ - (τ - u) * w.eval τ := by
    simp [residue]
  rw [e2]
  constructor
  · intro h0
    have := E.nondegenerate _ h0
    linear_combination -this
  · intro h0
    rw [show τ * w.eval τ - ((linear qs p h y v u).eval τ + u * w.eval τ) = 0 by linear_combination -h0, zero_smul]

/-! ### Wrong values -/

/-- The identity behind the check, for the challenges `y` and `v`. -/
noncomputable def cross (qs : List (Query L F)) (p : L → F[X]) (h : F[X]) (y v : F) : F[X] :=
  (∑ j : Fin (rotationSets qs).length, C (v ^ (j : ℕ)) * ((∏ s ∈ superSet qs \ (rotationSets qs).get j, (X - C s)) *
      (combined qs p y ((rotationSets qs).get j) - combinedLow qs y ((rotationSets qs).get j)))) -
    (∏ s ∈ superSet qs, (X - C s)) * h

theorem cross_eval {u : F} (hu : vanish (superSet qs \ firstSet qs) u ≠ 0) (p : L → F[X]) (h : F[X]) (y v : F) :
    (cross qs p h y v).eval u = vanish (superSet qs \ firstSet qs) u * (linear qs p h y v u).eval u := by
  unfold cross linear
  simp only [eval_sub, eval_finsetSum, eval_mul, eval_C, ← vanish_eq_nodal]
  rw [mul_sub, Finset.mul_sum, ← vanish_sdiff (firstSet_subset qs) u]
  congr 1
  · refine Finset.sum_congr rfl fun j _ => ?_
    rw [← factor_mul qs hu j]
    ring
  · ring

theorem degree_sum_lt {ι : Type} (s : Finset ι) {f : ι → F[X]} {n : ℕ} (h : ∀ i ∈ s, (f i).degree < n) :
    (∑ i ∈ s, f i).degree < n := by
  rw [degree_lt_iff_coeff_zero]
  intro m hm
  rw [finsetSum_coeff]
  exact Finset.sum_eq_zero fun i hi => (degree_lt_iff_coeff_zero _ _).mp (h i hi) m hm

theorem degree_sub_lt' {f g : F[X]} {n : ℕ} (hf : f.degree < n) (hg : g.degree < n) : (f - g).degree < n := by
  rw [degree_lt_iff_coeff_zero] at *
  intro m hm
  rw [coeff_sub, hf m hm, hg m hm, sub_zero]

theorem degree_C_mul_lt {f : F[X]} {n : ℕ} (hf : f.degree < n) (a : F) : (C a * f).degree < n := by
  rw [degree_lt_iff_coeff_zero] at *
  intro m hm
  rw [coeff_C_mul, hf m hm, mul_zero]

theorem degree_lt_mono {f : F[X]} {n m : ℕ} (hf : f.degree < n) (h : n ≤ m) : f.degree < m :=
  lt_of_lt_of_le hf (by exact_mod_cast h)

theorem nodal_degree (S : Finset F) : (∏ s ∈ S, (X - C s) : F[X]).degree = S.card := by
  have := Lagrange.degree_nodal (s := S) (v := id)
  simpa only [Lagrange.nodal_eq, id_eq] using this

theorem nodal_monic (S : Finset F) : (∏ s ∈ S, (X - C s) : F[X]).Monic := monic_prod_of_monic _ _ fun _ _ => monic_X_sub_C _

theorem degree_nodal_mul_lt (S : Finset F) {f : F[X]} {n : ℕ} (hf : f.degree < n) :
    ((∏ s ∈ S, (X - C s)) * f : F[X]).degree < (S.card + n : ℕ) := by
  by_cases h0 : f = 0
  · subst h0
    rw [mul_zero, degree_zero]
    exact WithBot.bot_lt_coe _
  · rw [degree_mul, nodal_degree, degree_eq_natDegree h0]
    rw [degree_eq_natDegree h0] at hf
    norm_cast at hf ⊢
    omega

theorem combined_degree {n : ℕ} {p : L → F[X]} (hp : ∀ l, (p l).degree < n) (y : F) (S : Finset F) :
    (combined qs p y S).degree < n := degree_sum_lt _ fun i _ => degree_C_mul_lt (hp _) _

theorem low_degree (S : Finset F) (l : L) : (low qs S l).degree < S.card :=
  Lagrange.degree_interpolate_lt _ (Set.injOn_id _)

theorem low_eval {S : Finset F} {s : F} (hs : s ∈ S) (l : L) : (low qs S l).eval s = evalOf qs l s :=
  Lagrange.eval_interpolate_at_node _ (Set.injOn_id _) hs

theorem combinedLow_degree (y : F) (S : Finset F) : (combinedLow qs y S).degree < S.card :=
  degree_sum_lt _ fun i _ => degree_C_mul_lt (low_degree _ _) _

theorem get_subset (j : Fin (rotationSets qs).length) : (rotationSets qs).get j ⊆ superSet qs :=
  set_subset qs (List.get_mem _ _)

theorem cross_degree {n : ℕ} {p : L → F[X]} (hp : ∀ l, (p l).degree < n) {h : F[X]} (hh : h.degree < n) (y v : F) :
    (cross qs p h y v).degree < ((superSet qs).card + n : ℕ) := by
  refine degree_sub_lt' (degree_sum_lt _ fun j _ => degree_C_mul_lt ?_ _) (degree_nodal_mul_lt _ hh)
  have hsub := Finset.card_sdiff_add_card_eq_card (get_subset (qs := qs) j)
  rw [mul_sub]
  refine degree_sub_lt' (degree_lt_mono (degree_nodal_mul_lt _ (combined_degree hp y _)) (by omega))
    (degree_lt_mono (degree_nodal_mul_lt _ (combinedLow_degree y _)) (by omega))

theorem difference_eval (p : L → F[X]) (y : F) {S : Finset F} {s : F} (hs : s ∈ S) :
    (combined qs p y S - combinedLow qs y S).eval s =
      ∑ i : Fin (members qs S).length, y ^ (i : ℕ) * ((p ((members qs S).get i)).eval s - evalOf qs ((members qs S).get i) s) := by
  unfold combined combinedLow
  simp only [eval_sub, eval_finsetSum, eval_mul, eval_C, low_eval hs, mul_sub, Finset.sum_sub_distrib]

variable [Fintype F]

/-- A sum with powers of a challenge is zero for few challenges. -/
theorem count_powers {m : ℕ} (c : Fin m → F) {i : Fin m} (hc : c i ≠ 0) :
    count (fun y : F => ∑ i : Fin m, y ^ (i : ℕ) * c i = 0) ≤ m - 1 := by
  have hco : (∑ i : Fin m, C (c i) * X ^ (i : ℕ) : F[X]).coeff i = c i := by
    rw [finsetSum_coeff]
    simp only [coeff_C_mul, coeff_X_pow]
    rw [Finset.sum_eq_single i]
    · simp
    · intro b _ hb
      rw [if_neg (fun h => hb (Fin.ext h.symm)), mul_zero]
    · simp
  refine le_trans (count_mono fun y hy => ?_) (count_roots (P := ∑ i : Fin m, C (c i) * X ^ (i : ℕ)) ?_ ?_)
  · simp only [eval_finsetSum, eval_mul, eval_C, eval_pow, eval_X]
    rw [← hy]
    exact Finset.sum_congr rfl fun i _ => mul_comm _ _
  · intro h0
    rw [h0, coeff_zero] at hco
    exact hc hco.symm
  · refine natDegree_sum_le_of_forall_le _ _ fun j _ => ?_
    refine (natDegree_C_mul_X_pow_le _ _).trans ?_
    omega

theorem members_length (S : Finset F) : (members qs S).length ≤ qs.length := by
  refine (List.length_filter_le _ _).trans ((length_firsts _).trans ?_)
  simp

theorem sets_length : (rotationSets qs).length ≤ qs.length := by
  refine (length_firsts _).trans ?_
  rw [List.length_map]
  exact (length_firsts _).trans (by simp)

theorem superSet_card : (superSet qs).card ≤ qs.length := by
  refine (List.toFinset_card_le _).trans ?_
  simp

/-- If a value is wrong, few challenges make the identity hold. -/
theorem count_wrong {n : ℕ} {p : L → F[X]} (hp : ∀ l, (p l).degree < n) {h : F → F → F[X]}
    (hh : ∀ y v, (h y v).degree < n) {w : F → F → F → F[X]} {q : Query L F} (hq : q ∈ qs)
    (hne : (p q.label).eval q.point ≠ evalOf qs q.label q.point) :
    count (fun c : F × F × F => vanish (superSet qs \ firstSet qs) c.2.2 ≠ 0 ∧
      residue qs p (h c.1 c.2.1) (w c.1 c.2.1 c.2.2) c.1 c.2.1 c.2.2 = 0) ≤ (3 * qs.length + n) * Fintype.card F ^ 2 := by
  have hs : q.point ∈ points qs q.label := (mem_points qs).mpr ⟨q, hq, rfl, rfl⟩
  have hl : q.label ∈ labels qs := (mem_labels qs).mpr ⟨q, hq, rfl⟩
  have hS : points qs q.label ∈ rotationSets qs := by
    rw [rotationSets, mem_firsts]
    exact List.mem_map_of_mem hl
  have hm : q.label ∈ members qs (points qs q.label) := by simp [members, hl]
  obtain ⟨i, hi⟩ := List.get_of_mem hm
  obtain ⟨j, hj⟩ := List.get_of_mem hS
  have hy := count_powers (fun i => (p ((members qs (points qs q.label)).get i)).eval q.point -
    evalOf qs ((members qs (points qs q.label)).get i) q.point) (i := i) (by
      rw [hi]
      exact sub_ne_zero.mpr hne)
  refine (count_fibre hy (N := (2 * qs.length + n) * Fintype.card F) fun y hy => ?_).trans ?_
  · have hv := count_powers (fun j => vanish (superSet qs \ (rotationSets qs).get j) q.point *
      (combined qs p y ((rotationSets qs).get j) - combinedLow qs y ((rotationSets qs).get j)).eval q.point) (i := j) (by
        rw [hj]
        refine mul_ne_zero (vanish_ne fun h => (Finset.mem_sdiff.mp h).2 hs) ?_
        rw [difference_eval p y hs]
        exact hy)
    refine (count_fibre hv (N := qs.length + n) fun v hv => ?_).trans ?_
    · have hc : cross qs p (h y v) y v ≠ 0 := by
        intro h0
        apply hv
        have := congrArg (fun f => f.eval q.point) h0
        simp only [cross, eval_sub, eval_finsetSum, eval_mul, eval_C, ← vanish_eq_nodal, eval_zero] at this
        rw [vanish_zero ((mem_superSet qs).mpr ⟨q, hq, rfl⟩), zero_mul, sub_zero] at this
        simpa only [eval_sub] using this
      refine le_trans (count_mono fun u hu => ?_) (count_roots hc (d := qs.length + n) ?_)
      · rw [cross_eval hu.1]
        have : (linear qs p (h y v) y v u).eval u = 0 := by
          have := congrArg (fun f => f.eval u) hu.2
          simpa [residue] using this
        rw [this, mul_zero]
      · have := (natDegree_lt_iff_degree_lt hc).mpr (cross_degree (qs := qs) hp (hh y v) y v)
        have := superSet_card (qs := qs)
        omega
    · have := sets_length (qs := qs)
      have h1 : (rotationSets qs).length - 1 ≤ qs.length := by omega
      nlinarith [Nat.mul_le_mul_right (Fintype.card F) h1]
  · have := members_length (qs := qs) (points qs q.label)
    have h1 : (members qs (points qs q.label)).length - 1 ≤ qs.length := by omega
    rw [Fintype.card_prod]
    nlinarith [Nat.mul_le_mul_right (Fintype.card F * Fintype.card F) h1]

omit [Fintype F] in
theorem residue_degree {n : ℕ} (hn : 0 < n) {p : L → F[X]} (hp : ∀ l, (p l).degree < n) {h w : F[X]} (hh : h.degree < n)
    (hw : w.degree < n) (y v u : F) : (residue qs p h w y v u).natDegree ≤ n := by
  have h0 : ∀ a : F, (C a).degree < n := fun a => lt_of_le_of_lt degree_C_le (by exact_mod_cast hn)
  have h1 : (linear qs p h y v u).degree < n := degree_sub_lt'
    (degree_sum_lt _ fun j _ => degree_C_mul_lt (degree_sub_lt' (combined_degree hp _ _) (h0 _)) _) (degree_C_mul_lt hh _)
  have h2 : ((X - C u) * w : F[X]).degree < (1 + n : ℕ) := by
    have := degree_nodal_mul_lt {u} hw
    rwa [Finset.prod_singleton, Finset.card_singleton] at this
  have := degree_sub_lt' (degree_lt_mono h1 (by omega : n ≤ 1 + n)) h2
  by_cases h3 : residue qs p h w y v u = 0
  · rw [h3]; simp
  · have := (natDegree_lt_iff_degree_lt h3).mpr this
    omega

omit [Fintype F] in
theorem evalOf_first {q : Query L F} (hq : q ∈ qs)
    (hfirst : ∀ q' ∈ qs, q'.label = q.label → q'.point = q.point → q' = q) : evalOf qs q.label q.point = q.eval := by
  unfold evalOf
  cases hf : qs.find? fun q' => decide (q'.label = q.label ∧ q'.point = q.point) with
  | none =>
    rw [List.find?_eq_none] at hf
    simpa using hf q hq
  | some q' =>
    have h3 := List.find?_some hf
    simp only [decide_eq_true_eq] at h3
    rw [hfirst q' (List.mem_of_find?_eq_some hf) h3.1 h3.2]

/-! ### Right values -/

omit [Fintype F] in
theorem evalOf_right {p : L → F[X]} (hr : ∀ q ∈ qs, q.eval = (p q.label).eval q.point) (l : L) (s : F)
    (hs : s ∈ points qs l) : evalOf qs l s = (p l).eval s := by
  rw [mem_points] at hs
  obtain ⟨q, hq, h1, h2⟩ := hs
  unfold evalOf
  cases hf : qs.find? fun q => decide (q.label = l ∧ q.point = s) with
  | none =>
    rw [List.find?_eq_none] at hf
    simpa [h1, h2] using hf q hq
  | some q' =>
    have h3 := List.find?_some hf
    simp only [decide_eq_true_eq] at h3
    rw [← h3.1, ← h3.2]
    exact hr q' (List.mem_of_find?_eq_some hf)

omit [Fintype F] in
/-- With right values every quotient is exact. -/
theorem exact_quotient {p : L → F[X]} (hr : ∀ l, ∀ s ∈ points qs l, evalOf qs l s = (p l).eval s) (y : F) (S : Finset F) :
    (∏ s ∈ S, (X - C s)) * ((combined qs p y S - combinedLow qs y S) /ₘ ∏ s ∈ S, (X - C s)) =
      combined qs p y S - combinedLow qs y S := by
  have h1 := modByMonic_add_div (combined qs p y S - combinedLow qs y S) (∏ s ∈ S, (X - C s))
  have h2 : (combined qs p y S - combinedLow qs y S) %ₘ (∏ s ∈ S, (X - C s)) = 0 := by
    refine eq_zero_of_degree_lt_of_eval_finset_eq_zero S ?_ fun s hs => ?_
    · rw [← nodal_degree S]
      exact degree_modByMonic_lt _ (nodal_monic S)
    · have h3 := congrArg (fun f => f.eval s) h1
      simp only [eval_add, eval_mul, ← vanish_eq_nodal, vanish_zero hs, zero_mul, add_zero] at h3
      rw [h3, difference_eval p y hs]
      refine Finset.sum_eq_zero fun i _ => ?_
      rw [hr, sub_self, mul_zero]
      have : (members qs S).get i ∈ members qs S := List.get_mem _ _
      simp only [members, List.mem_filter, decide_eq_true_eq] at this
      have h4 := this.2
      change points qs ((members qs S).get i) = S at h4
      rw [h4]
      exact hs
  rw [h2, zero_add] at h1
  exact h1

omit [Fintype F] in
theorem quotient_degree {n : ℕ} {p : L → F[X]} (hp : ∀ l, (p l).degree < n)
    (hr : ∀ l, ∀ s ∈ points qs l, evalOf qs l s = (p l).eval s) (y v : F) : (quotient qs p y v).degree < n := by
  refine degree_sum_lt _ fun j _ => degree_C_mul_lt ?_ _
  have h1 := exact_quotient hr y ((rotationSets qs).get j)
  obtain ⟨Q, hQ⟩ : ∃ Q, Q = (combined qs p y ((rotationSets qs).get j) - combinedLow qs y ((rotationSets qs).get j)) /ₘ
    ∏ s ∈ (rotationSets qs).get j, (X - C s) := ⟨_, rfl⟩
  rw [← hQ] at h1 ⊢
  by_cases h0 : Q = 0
  · rw [h0, degree_zero]
    exact WithBot.bot_lt_coe _
  have h2 := congrArg degree h1
  rw [degree_mul, nodal_degree, degree_eq_natDegree h0] at h2
  have h3 : combined qs p y ((rotationSets qs).get j) - combinedLow qs y ((rotationSets qs).get j) ≠ 0 := by
    intro h3
    rw [h3, degree_zero] at h2
    simp [← WithBot.coe_natCast, ← WithBot.coe_add] at h2
  rw [degree_eq_natDegree h0]
  have h4 := degree_sub_le (combined qs p y ((rotationSets qs).get j)) (combinedLow qs y ((rotationSets qs).get j))
  rw [← h2] at h4
  rcases le_max_iff.mp h4 with h4 | h4
  · have := lt_of_le_of_lt h4 (combined_degree hp y _)
    norm_cast at this ⊢
    omega
  · have := lt_of_le_of_lt h4 (combinedLow_degree y _)
    norm_cast at this
    omega

omit [Fintype F] in
theorem cross_right {p : L → F[X]} (hr : ∀ l, ∀ s ∈ points qs l, evalOf qs l s = (p l).eval s) (y v : F) :
    cross qs p (quotient qs p y v) y v = 0 := by
  unfold cross quotient
  rw [Finset.mul_sum, ← Finset.sum_sub_distrib]
  refine Finset.sum_eq_zero fun j _ => ?_
  rw [← Finset.prod_sdiff (get_subset (qs := qs) j)]
  linear_combination (-(C (v ^ (j : ℕ)) * ∏ s ∈ superSet qs \ (rotationSets qs).get j, (X - C s))) *
    exact_quotient hr y ((rotationSets qs).get j)

omit [Fintype F] in
theorem linear_degree {n : ℕ} (hn : 0 < n) {p : L → F[X]} (hp : ∀ l, (p l).degree < n) {h : F[X]} (hh : h.degree < n)
    (y v u : F) : (linear qs p h y v u).degree < n := by
  have h0 : ∀ a : F, (C a).degree < n := fun a => lt_of_le_of_lt degree_C_le (by exact_mod_cast hn)
  exact degree_sub_lt'
    (degree_sum_lt _ fun j _ => degree_C_mul_lt (degree_sub_lt' (combined_degree hp _ _) (h0 _)) _) (degree_C_mul_lt hh _)

end Shplonk
end Halo2

namespace Props
open Halo2 Shplonk Polynomial

variable {F : Type} [Field F] [Fintype F] {L G G2 GT : Type} [AddCommGroup G] [Module F G] [AddCommGroup G2] [Module F G2]
  [AddCommGroup GT] [Module F GT]

/-- **C101.** A prover that knows polynomials behind its commitments and claims a wrong value of one of them, whatever it
answers to the challenges: from its polynomials alone, and not from the secret of the parameters, follows for each list
of challenges a polynomial of degree at most `n` with the secret as root whenever the verifier accepts. It is zero, while
the verifier accepts, for at most `3 |qs| + n` in `q` of all challenges. -/
theorem C101_extract (E : Pairing F G G2 GT) {n : ℕ} (hn : 0 < n) (qs : List (Query L F)) {p : L → F[X]}
    (hp : ∀ l, (p l).degree < n) {h : F → F → F[X]} (hh : ∀ y v, (h y v).degree < n) {w : F → F → F → F[X]}
    (hw : ∀ y v u, (w y v u).degree < n) {q : Query L F} (hq : q ∈ qs)
    (hfirst : ∀ q' ∈ qs, q'.label = q.label → q'.point = q.point → q' = q) (hne : q.eval ≠ (p q.label).eval q.point) :
    ∃ R : F × F × F → F[X], (∀ c, (R c).natDegree ≤ n) ∧ ∀ τ,
      (∀ c, Accepts E τ qs (fun l => commit τ E.g n (p l)) (commit τ E.g n (h c.1 c.2.1))
        (commit τ E.g n (w c.1 c.2.1 c.2.2)) c.1 c.2.1 c.2.2 → (R c).eval τ = 0) ∧
      Nat.card {c : F × F × F // Accepts E τ qs (fun l => commit τ E.g n (p l)) (commit τ E.g n (h c.1 c.2.1))
        (commit τ E.g n (w c.1 c.2.1 c.2.2)) c.1 c.2.1 c.2.2 ∧ R c = 0} ≤ (3 * qs.length + n) * Fintype.card F ^ 2 := by
  refine ⟨fun c => residue qs p (h c.1 c.2.1) (w c.1 c.2.1 c.2.2) c.1 c.2.1 c.2.2,
    fun c => residue_degree hn hp (hh _ _) (hw _ _ _) _ _ _, fun τ => ⟨fun c hc => ?_, ?_⟩⟩
  · exact ((accepts_iff E τ hp (hh _ _) (hw _ _ _) _ _ _).mp hc).2
  · rw [nat_card_eq_count]
    refine le_trans (count_mono fun c hc => ?_) (count_wrong hp hh (w := w) hq ?_)
    · exact ⟨((accepts_iff E τ hp (hh _ _) (hw _ _ _) _ _ _).mp hc.1).1, hc.2⟩
    · rw [evalOf_first hq hfirst]
      exact hne.symm

/-- **C101.** Soundness: with a random secret the verifier believes the wrong value for at most `3 |qs| + 2n` in `q` of
all secrets and challenges. -/
theorem C101_sound (E : Pairing F G G2 GT) {n : ℕ} (hn : 0 < n) (qs : List (Query L F)) {p : L → F[X]}
    (hp : ∀ l, (p l).degree < n) {h : F → F → F[X]} (hh : ∀ y v, (h y v).degree < n) {w : F → F → F → F[X]}
    (hw : ∀ y v u, (w y v u).degree < n) {q : Query L F} (hq : q ∈ qs)
    (hfirst : ∀ q' ∈ qs, q'.label = q.label → q'.point = q.point → q' = q) (hne : q.eval ≠ (p q.label).eval q.point) :
    Nat.card {c : (F × F × F) × F // Accepts E c.2 qs (fun l => commit c.2 E.g n (p l)) (commit c.2 E.g n (h c.1.1 c.1.2.1))
        (commit c.2 E.g n (w c.1.1 c.1.2.1 c.1.2.2)) c.1.1 c.1.2.1 c.1.2.2} ≤
      (3 * qs.length + 2 * n) * Fintype.card F ^ 3 := by
  classical
  have h1 := count_wrong hp hh (w := w) hq (by rw [evalOf_first hq hfirst]; exact hne.symm)
  rw [nat_card_eq_count]
  refine (count_fibre h1 (N := n) fun c hc => ?_).trans (le_of_eq ?_)
  · by_cases hv : vanish (superSet qs \ firstSet qs) c.2.2 ≠ 0
    · have hR : residue qs p (h c.1 c.2.1) (w c.1 c.2.1 c.2.2) c.1 c.2.1 c.2.2 ≠ 0 := fun h0 => hc ⟨hv, h0⟩
      refine le_trans (count_mono fun τ hτ => ?_)
        (count_roots hR (residue_degree hn hp (hh _ _) (hw _ _ _) _ _ _))
      exact ((accepts_iff E τ hp (hh _ _) (hw _ _ _) _ _ _).mp hτ).2
    · rw [count_false fun τ hτ => hv hτ.1]
      exact Nat.zero_le _
  · simp only [Fintype.card_prod]
    ring

omit [Fintype F] in
theorem accepts_right (E : Pairing F G G2 GT) {n : ℕ} (hn : 0 < n) (qs : List (Query L F)) {p : L → F[X]}
    (hp : ∀ l, (p l).degree < n) (hr : ∀ l, ∀ s ∈ points qs l, evalOf qs l s = (p l).eval s) (τ y v : F) {u : F}
    (hu : ∀ q ∈ qs, q.point ≠ u) :
    (quotient qs p y v).degree < n ∧ (linear qs p (quotient qs p y v) y v u /ₘ (X - C u)).degree < n ∧
      Accepts E τ qs (fun l => commit τ E.g n (p l)) (commit τ E.g n (quotient qs p y v))
        (commit τ E.g n (linear qs p (quotient qs p y v) y v u /ₘ (X - C u))) y v u := by
  classical
  have h1 := quotient_degree hp hr y v
  have h2 := lt_of_le_of_lt (degree_divByMonic_le (linear qs p (quotient qs p y v) y v u) (X - C u))
    (linear_degree hn hp h1 y v u)
  have hv : vanish (superSet qs \ firstSet qs) u ≠ 0 := vanish_ne fun h => by
    obtain ⟨q, hq, h⟩ := (mem_superSet qs).mp (Finset.mem_sdiff.mp h).1
    exact hu q hq h
  refine ⟨h1, h2, (accepts_iff E τ hp h1 h2 y v u).mpr ⟨hv, ?_⟩⟩
  have h3 := cross_eval hv p (quotient qs p y v) y v
  rw [cross_right hr, eval_zero] at h3
  have h4 : (linear qs p (quotient qs p y v) y v u).IsRoot u := (mul_eq_zero.mp h3.symm).resolve_left hv
  rw [residue, mul_divByMonic_eq_iff_isRoot.mpr h4, sub_self, eval_zero]

omit [Fintype F] in
/-- **C101.** Completeness: a prover whose values are right convinces the verifier, for all secrets and challenges, except
for a challenge `u` among the points of the openings. -/
theorem C101_complete (E : Pairing F G G2 GT) {n : ℕ} (hn : 0 < n) (qs : List (Query L F)) {p : L → F[X]}
    (hp : ∀ l, (p l).degree < n) (hr : ∀ q ∈ qs, q.eval = (p q.label).eval q.point) (τ y v : F) {u : F}
    (hu : ∀ q ∈ qs, q.point ≠ u) :
    (quotient qs p y v).degree < n ∧ (linear qs p (quotient qs p y v) y v u /ₘ (X - C u)).degree < n ∧
      Accepts E τ qs (fun l => commit τ E.g n (p l)) (commit τ E.g n (quotient qs p y v))
        (commit τ E.g n (linear qs p (quotient qs p y v) y v u /ₘ (X - C u))) y v u :=
  accepts_right E hn qs hp (evalOf_right hr) τ y v hu

omit [Fintype F] in
/-- **C101.** Only the first of several values of the same polynomial at the same point is checked: after right values
others can claim anything. (`hfirst` of the theorems above cannot be left out.) -/
theorem C101_first (E : Pairing F G G2 GT) {n : ℕ} (hn : 0 < n) (qs more : List (Query L F)) {p : L → F[X]}
    (hp : ∀ l, (p l).degree < n) (hr : ∀ q ∈ qs, q.eval = (p q.label).eval q.point)
    (hm : ∀ q ∈ more, ∃ q' ∈ qs, q'.label = q.label ∧ q'.point = q.point) (τ y v : F) {u : F} (hu : ∀ q ∈ qs, q.point ≠ u) :
    ∃ h w : F[X], h.degree < n ∧ w.degree < n ∧
      Accepts E τ (qs ++ more) (fun l => commit τ E.g n (p l)) (commit τ E.g n h) (commit τ E.g n w) y v u := by
  classical
  have hr' : ∀ l, ∀ s ∈ points (qs ++ more) l, evalOf (qs ++ more) l s = (p l).eval s := by
    intro l s hs
    have hs' : s ∈ points qs l := by
      rw [mem_points] at hs ⊢
      obtain ⟨q, hq, h1, h2⟩ := hs
      rcases List.mem_append.mp hq with hq | hq
      · exact ⟨q, hq, h1, h2⟩
      · obtain ⟨q', hq', h3, h4⟩ := hm q hq
        exact ⟨q', hq', h3.trans h1, h4.trans h2⟩
    rw [← evalOf_right hr l s hs']
    rw [mem_points] at hs'
    obtain ⟨q, hq, h1, h2⟩ := hs'
    have : (qs.find? fun q => decide (q.label = l ∧ q.point = s)) ≠ none := fun h0 => by
      rw [List.find?_eq_none] at h0
      simpa [h1, h2] using h0 q hq
    obtain ⟨q', hq'⟩ := Option.ne_none_iff_exists'.mp this
    unfold evalOf
    rw [List.find?_append, hq']
    rfl
  have hu' : ∀ q ∈ qs ++ more, q.point ≠ u := by
    intro q hq
    rcases List.mem_append.mp hq with hq | hq
    · exact hu q hq
    · obtain ⟨q', hq', -, h4⟩ := hm q hq
      rw [← h4]
      exact hu q' hq'
  obtain ⟨h1, h2, h3⟩ := accepts_right E hn (qs ++ more) hp hr' τ y v hu'
  exact ⟨_, _, h1, h2, h3⟩

/-! The hypotheses can be met: a field is a pairing of itself, and the polynomial `X` opened at two points, once with a
wrong value. -/

/-- Multiplication as a pairing. -/
noncomputable def mulPairing (F : Type) [Field F] : Pairing F F F F :=
  ⟨LinearMap.mul F F, 1, 1, fun a h => by simpa using h⟩

/-- Openings of `X` at 0 and 1, and of `X + 1` at 0; the value at 1 is the argument. -/
def fewQueries (F : Type) [Field F] (a : F) : List (Query Bool F) := [⟨true, 0, 0⟩, ⟨true, 1, a⟩, ⟨false, 0, 1⟩]

/-- Both polynomials. -/
noncomputable def fewPolys (F : Type) [Field F] (b : Bool) : F[X] := if b then X else X + C 1

theorem few_degree (b : Bool) : (fewPolys F b).degree < (2 : ℕ) := by
  cases b
  · simp only [fewPolys, Bool.false_eq_true, if_false]
    rw [degree_X_add_C]
    norm_num
  · simp only [fewPolys, if_true]
    rw [degree_X]
    norm_num

example : Nat.card {c : (F × F × F) × F // Accepts (mulPairing F) c.2 (fewQueries F 0) (fun l => commit c.2 1 2 (fewPolys F l))
    (commit c.2 1 2 0) (commit c.2 1 2 0) c.1.1 c.1.2.1 c.1.2.2} ≤ 13 * Fintype.card F ^ 3 :=
  C101_sound (mulPairing F) (n := 2) (by norm_num) (fewQueries F 0) few_degree (h := fun _ _ => 0)
    (fun _ _ => by rw [degree_zero]; exact WithBot.bot_lt_coe _)
    (w := fun _ _ _ => 0) (fun _ _ _ => by rw [degree_zero]; exact WithBot.bot_lt_coe _) (q := ⟨true, 1, 0⟩) (by simp [fewQueries])
    (by intro q' hq'; simp only [fewQueries, List.mem_cons, List.not_mem_nil, or_false] at hq'
        rcases hq' with rfl | rfl | rfl <;> simp)
    (by simp [fewPolys])

example : ∃ R : F × F × F → F[X], (∀ c, (R c).natDegree ≤ 2) ∧ ∀ τ,
    (∀ c, Accepts (mulPairing F) τ (fewQueries F 0) (fun l => commit τ 1 2 (fewPolys F l)) (commit τ 1 2 0) (commit τ 1 2 0)
      c.1 c.2.1 c.2.2 → (R c).eval τ = 0) ∧
    Nat.card {c : F × F × F // Accepts (mulPairing F) τ (fewQueries F 0) (fun l => commit τ 1 2 (fewPolys F l))
      (commit τ 1 2 0) (commit τ 1 2 0) c.1 c.2.1 c.2.2 ∧ R c = 0} ≤ 11 * Fintype.card F ^ 2 :=
  C101_extract (mulPairing F) (n := 2) (by norm_num) (fewQueries F 0) few_degree (h := fun _ _ => 0)
    (fun _ _ => by rw [degree_zero]; exact WithBot.bot_lt_coe _)
    (w := fun _ _ _ => 0) (fun _ _ _ => by rw [degree_zero]; exact WithBot.bot_lt_coe _) (q := ⟨true, 1, 0⟩) (by simp [fewQueries])
    (by intro q' hq'; simp only [fewQueries, List.mem_cons, List.not_mem_nil, or_false] at hq'
        rcases hq' with rfl | rfl | rfl <;> simp)
    (by simp [fewPolys])

example (τ y v u : F) (h0 : u ≠ 0) (h1 : u ≠ 1) : ∃ h w : F[X], h.degree < 2 ∧ w.degree < 2 ∧
    Accepts (mulPairing F) τ (fewQueries F 1) (fun l => commit τ 1 2 (fewPolys F l)) (commit τ 1 2 h) (commit τ 1 2 w) y v u :=
  ⟨_, _, C101_complete (mulPairing F) (n := 2) (by norm_num) (fewQueries F 1) few_degree
    (by intro q hq; simp only [fewQueries, List.mem_cons, List.not_mem_nil, or_false] at hq
        rcases hq with rfl | rfl | rfl <;> simp [fewPolys]) τ y v
    (by intro q hq; simp only [fewQueries, List.mem_cons, List.not_mem_nil, or_false] at hq
        rcases hq with rfl | rfl | rfl <;> simp [h0.symm, h1.symm])⟩

example (τ y v u a : F) (h0 : u ≠ 0) (h1 : u ≠ 1) : ∃ h w : F[X], h.degree < 2 ∧ w.degree < 2 ∧
    Accepts (mulPairing F) τ (fewQueries F 1 ++ [⟨true, 1, a⟩]) (fun l => commit τ 1 2 (fewPolys F l)) (commit τ 1 2 h)
      (commit τ 1 2 w) y v u :=
  C101_first (mulPairing F) (n := 2) (by norm_num) (fewQueries F 1) [⟨true, 1, a⟩] few_degree
    (by intro q hq; simp only [fewQueries, List.mem_cons, List.not_mem_nil, or_false] at hq
        rcases hq with rfl | rfl | rfl <;> simp [fewPolys])
    (by simp [fewQueries]) τ y v
    (by intro q hq; simp only [fewQueries, List.mem_cons, List.not_mem_nil, or_false] at hq
        rcases hq with rfl | rfl | rfl <;> simp [h0.symm, h1.symm])

end Props
