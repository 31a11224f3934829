import Mathlib.Tactic.LinearCombination
import Verif.Props.ArgumentLemmas

/-!
# Counting challenges
-/

set_option linter.unusedSectionVars false
set_option linter.unusedDecidableInType false

namespace Halo2
open Polynomial

open Classical in
/-- Number of elements with a property. -/
noncomputable def count {A : Type} [Fintype A] (p : A → Prop) : ℕ := (Finset.univ.filter p).card

section
variable {A B : Type} [Fintype A] [Fintype B]

theorem count_mono {p q : A → Prop} (h : ∀ a, p a → q a) : count p ≤ count q := by
  classical
  exact Finset.card_le_card fun a ha => by
    simp only [Finset.mem_filter, Finset.mem_univ, true_and] at ha ⊢
    exact h a ha

theorem count_or (p q : A → Prop) : count (fun a => p a ∨ q a) ≤ count p + count q := by
  classical
  refine (Finset.card_le_card fun a ha => ?_).trans (Finset.card_union_le _ _)
  simp only [Finset.mem_filter, Finset.mem_univ, true_and, Finset.mem_union] at ha ⊢
  exact ha

theorem count_false {p : A → Prop} (h : ∀ a, ¬ p a) : count p = 0 := by
  classical
  unfold count
  rw [Finset.card_eq_zero, Finset.filter_eq_empty_iff]
  exact fun a _ => h a

theorem count_le_card (p : A → Prop) : count p ≤ Fintype.card A := Finset.card_le_univ _

theorem count_equiv (e : A ≃ B) {p : A → Prop} {q : B → Prop} (h : ∀ a, p a ↔ q (e a)) : count p = count q := by
  classical
  refine Finset.card_bij (fun a _ => e a) ?_ ?_ ?_
  · intro a ha
    simp only [Finset.mem_filter, Finset.mem_univ, true_and] at ha ⊢
    exact (h a).mp ha
  · intro a _ b _ h; exact e.injective h
  · intro b hb
    simp only [Finset.mem_filter, Finset.mem_univ, true_and] at hb
    exact ⟨e.symm b, by simp [h, hb], by simp⟩

theorem count_prod (p : A × B → Prop) : count p = ∑ a, count fun b => p (a, b) := by
  classical
  unfold count
  rw [← Finset.card_sigma]
  refine Finset.card_bij (fun a _ => ⟨a.1, a.2⟩) ?_ ?_ ?_
  · intro a ha
    simp only [Finset.mem_filter, Finset.mem_univ, true_and, Finset.mem_sigma] at ha ⊢
    exact ha
  · rintro ⟨a, b⟩ _ ⟨a', b'⟩ _ h
    simp only [Sigma.mk.injEq, heq_eq_eq] at h
    exact Prod.ext h.1 h.2
  · rintro ⟨a, b⟩ hb
    simp only [Finset.mem_filter, Finset.mem_univ, true_and, Finset.mem_sigma] at hb
    exact ⟨(a, b), by simpa using hb, rfl⟩

/-- Fibres of at most `N` elements outside `bad`. -/
theorem count_fibre {p : A × B → Prop} {bad : A → Prop} {T N : ℕ} (hT : count bad ≤ T)
    (h : ∀ a, ¬ bad a → (count fun b => p (a, b)) ≤ N) :
    count p ≤ T * Fintype.card B + Fintype.card A * N := by
  classical
  rw [count_prod]
  calc ∑ a, (count fun b => p (a, b)) ≤ ∑ a, ((if bad a then Fintype.card B else 0) + N) := by
        refine Finset.sum_le_sum fun a _ => ?_
        by_cases ha : bad a
        · rw [if_pos ha]; exact (count_le_card _).trans (Nat.le_add_right _ _)
        · rw [if_neg ha, zero_add]; exact h a ha
    _ = count bad * Fintype.card B + Fintype.card A * N := by
        rw [Finset.sum_add_distrib, Finset.sum_const, Finset.card_univ, smul_eq_mul, ← Finset.sum_filter,
          Finset.sum_const, smul_eq_mul]
        rfl
    _ ≤ _ := Nat.add_le_add_right (Nat.mul_le_mul_right _ hT) _

theorem count_swap (p : A × B → Prop) : count p = count fun ba : B × A => p (ba.2, ba.1) :=
  count_equiv (Equiv.prodComm A B) fun _ => Iff.rfl

theorem nat_card_eq_count (p : A → Prop) : Nat.card {a // p a} = count p := by
  classical
  rw [Nat.card_eq_fintype_card, Fintype.card_subtype]
  unfold count
  congr

end

section
variable {F : Type} [Field F] [Fintype F]

theorem count_roots {P : F[X]} (hP : P ≠ 0) {d : ℕ} (hd : P.natDegree ≤ d) : count (fun x => P.eval x = 0) ≤ d := by
  classical
  refine le_trans (Finset.card_le_card (t := P.roots.toFinset) fun x hx => ?_)
    ((Multiset.toFinset_card_le _).trans ((card_roots' P).trans hd))
  simp only [Finset.mem_filter, Finset.mem_univ, true_and] at hx
  rw [Multiset.mem_toFinset, mem_roots hP]
  exact hx

variable {ι : Type}

/-- `∏ (X + a i)`. -/
noncomputable def shifts (s : Finset ι) (a : ι → F) : F[X] := ∏ i ∈ s, (X + C (a i))

theorem shifts_eval (s : Finset ι) (a : ι → F) (x : F) : (shifts s a).eval x = ∏ i ∈ s, (a i + x) := by
  rw [shifts, eval_prod]
  exact Finset.prod_congr rfl fun i _ => by simp [add_comm]

theorem shifts_degree (s : Finset ι) (a : ι → F) : (shifts s a).natDegree ≤ s.card := by
  refine (natDegree_prod_le _ _).trans ?_
  simp

theorem shifts_ne (s : Finset ι) (a : ι → F) : shifts s a ≠ 0 :=
  (monic_prod_of_monic _ _ fun _ _ => monic_X_add_C _).ne_zero

theorem count_shifts (s : Finset ι) (a : ι → F) : count (fun x => ∏ i ∈ s, (a i + x) = 0) ≤ s.card := by
  simp only [← shifts_eval]
  exact count_roots (shifts_ne s a) (shifts_degree s a)

/-- `c * ∏ (x + a i) = c' * ∏ (x + b i)` for few `x`, unless the polynomials agree. -/
theorem count_shifts_eq (s : Finset ι) (a b : ι → F) (c c' : F) {x₀ : F}
    (h : c * ∏ i ∈ s, (a i + x₀) ≠ c' * ∏ i ∈ s, (b i + x₀)) :
    count (fun x => c * ∏ i ∈ s, (a i + x) = c' * ∏ i ∈ s, (b i + x)) ≤ s.card := by
  have e : ∀ x, (C c * shifts s a - C c' * shifts s b).eval x =
      c * ∏ i ∈ s, (a i + x) - c' * ∏ i ∈ s, (b i + x) := fun x => by
    simp [shifts_eval]
  refine le_trans (count_mono fun x hx => ?_) (count_roots (P := C c * shifts s a - C c' * shifts s b) ?_ ?_)
  · rw [e]; exact sub_eq_zero.mpr hx
  · intro h0
    have := e x₀
    rw [h0, eval_zero] at this
    exact h (sub_eq_zero.mp this.symm)
  · exact natDegree_sub_le' ((natDegree_C_mul_le _ _).trans (shifts_degree _ _))
      ((natDegree_C_mul_le _ _).trans (shifts_degree _ _))

/-- The permutation argument: if the cell `i₀` is not the image of a cell with the same value, few challenges pass. -/
theorem count_perm (s : Finset ι) (v nm im : ι → F) {i₀ : ι} (h₀ : i₀ ∈ s)
    (h : ∀ j ∈ s, ¬ (v j = v i₀ ∧ im j = nm i₀)) :
    count (fun c : F × F => ∏ i ∈ s, (v i + c.1 * nm i + c.2) = 0 ∨
        ∏ i ∈ s, (v i + c.1 * nm i + c.2) = ∏ i ∈ s, (v i + c.1 * im i + c.2)) ≤ 3 * s.card * Fintype.card F := by
  classical
  have hbad : count (fun β : F => ∏ j ∈ s, (v j - v i₀ + β * (im j - nm i₀)) = 0) ≤ s.card := by
    have : (∏ j ∈ s, (C (v j - v i₀) + X * C (im j - nm i₀)) : F[X]) ≠ 0 := by
      rw [Finset.prod_ne_zero_iff]
      intro j hj h0
      refine h j hj ⟨?_, ?_⟩
      · have := congrArg (fun p => p.coeff 0) h0
        simp only [coeff_add, coeff_C_zero, coeff_X_mul_zero, coeff_zero] at this
        rw [add_zero] at this
        exact sub_eq_zero.mp this
      · have := congrArg (fun p => p.coeff 1) h0
        simp only [coeff_add, coeff_C, coeff_zero, one_ne_zero, if_false, coeff_mul_C, coeff_X_one] at this
        rw [one_mul, zero_add] at this
        exact sub_eq_zero.mp this
    refine le_trans (count_mono fun β hβ => ?_) (count_roots this (d := s.card) ?_)
    · rw [eval_prod]
      simpa using hβ
    · refine (natDegree_prod_le _ _).trans ((Finset.sum_le_card_nsmul _ _ 1 fun j _ => ?_).trans (by simp))
      exact natDegree_add_le' (by simp) (natDegree_mul_le.trans (by simp))
  refine (count_fibre (p := fun c : F × F => _ ∨ _) (N := 2 * s.card) hbad fun β hβ => ?_).trans (le_of_eq (by ring))
  refine (count_or _ _).trans ?_
  have h1 := count_shifts s fun i => v i + β * nm i
  have h2 := count_shifts_eq s (fun i => v i + β * nm i) (fun i => v i + β * im i) 1 1 (x₀ := -(v i₀ + β * nm i₀)) (by
    rw [one_mul, one_mul, Finset.prod_eq_zero h₀ (by ring)]
    intro h0
    apply hβ
    rw [h0]
    exact Finset.prod_congr rfl fun j _ => by ring)
  simp only [one_mul] at h2
  calc _ ≤ s.card + s.card := Nat.add_le_add h1 h2
    _ = 2 * s.card := by ring

/-- The lookup argument: if some input is not among the permuted inputs, or some permuted table entry is not in the table,
few challenges pass. -/
theorem count_lookup (s : Finset ι) (a a' t t' : ι → F)
    (h : (∃ i ∈ s, ∀ j ∈ s, a' j ≠ a i) ∨ ∃ j ∈ s, ∀ i ∈ s, t i ≠ t' j) :
    count (fun c : F × F => (∏ i ∈ s, (a i + c.1)) * ∏ i ∈ s, (t i + c.2) = 0 ∨
        (∏ i ∈ s, (a i + c.1)) * ∏ i ∈ s, (t i + c.2) = (∏ i ∈ s, (a' i + c.1)) * ∏ i ∈ s, (t' i + c.2)) ≤
      4 * s.card * Fintype.card F := by
  classical
  rcases h with ⟨i₀, h₀, h⟩ | ⟨j₀, h₀, h⟩
  · rw [count_swap]
    refine (count_fibre (bad := fun γ => ∏ i ∈ s, (t i + γ) = 0 ∨ ∏ i ∈ s, (t' i + γ) = 0) (T := s.card + s.card)
      (N := s.card + s.card) ?_ fun γ hγ => ?_).trans (le_of_eq (by ring))
    · exact (count_or _ _).trans (Nat.add_le_add (count_shifts s t) (count_shifts s t'))
    · push Not at hγ
      refine (count_or _ _).trans (Nat.add_le_add ((count_mono fun β hβ => ?_).trans (count_shifts s a)) ?_)
      · exact (mul_eq_zero.mp hβ).resolve_right hγ.1
      · have := count_shifts_eq s a a' (∏ i ∈ s, (t i + γ)) (∏ i ∈ s, (t' i + γ)) (x₀ := -(a i₀)) (by
          rw [Finset.prod_eq_zero (s := s) (f := fun i => a i + -(a i₀)) h₀ (by ring), mul_zero]
          refine (mul_ne_zero hγ.2 (Finset.prod_ne_zero_iff.mpr fun j hj h0 => h j hj ?_)).symm
          linear_combination h0)
        simpa only [mul_comm] using this
  · refine (count_fibre (bad := fun β => ∏ i ∈ s, (a i + β) = 0) (T := s.card) (N := s.card + s.card) (count_shifts s a)
      fun β hβ => ?_).trans (by
        have : s.card * Fintype.card F + Fintype.card F * (s.card + s.card) = 3 * s.card * Fintype.card F := by ring
        rw [this]
        exact Nat.mul_le_mul_right _ (by omega))
    refine (count_or _ _).trans (Nat.add_le_add ((count_mono fun γ hγ => ?_).trans (count_shifts s t)) ?_)
    · exact (mul_eq_zero.mp hγ).resolve_left hβ
    · refine count_shifts_eq s t t' (∏ i ∈ s, (a i + β)) (∏ i ∈ s, (a' i + β)) (x₀ := -(t' j₀)) ?_
      rw [Finset.prod_eq_zero (s := s) (f := fun i => t' i + -(t' j₀)) h₀ (by ring), mul_zero]
      refine mul_ne_zero hβ (Finset.prod_ne_zero_iff.mpr fun j hj h0 => h j hj ?_)
      linear_combination h0

/-- Terms of which one is not zero are combined to zero by few `y`. -/
theorem count_combine {l : List F} (h : ∃ t ∈ l, t ≠ 0) :
    count (fun y => l.foldl (fun a t => a * y + t) 0 = 0) ≤ l.length - 1 := by
  have key : ∀ l : List F, ∃ P : F[X], (∀ y, P.eval y = l.foldl (fun a t => a * y + t) 0) ∧ P.natDegree ≤ l.length - 1 ∧
      (l = [] → P = 0) ∧ ((∃ t ∈ l, t ≠ 0) → P ≠ 0) := by
    intro l
    induction l using List.reverseRecOn with
    | nil => exact ⟨0, by simp, by simp, by simp, by simp⟩
    | append_singleton l t ih =>
      obtain ⟨P, h1, h2, h0, h3⟩ := ih
      refine ⟨P * X + C t, fun y => ?_, ?_, by simp, ?_⟩
      · rw [List.foldl_append, ← h1]; simp
      · rw [List.length_append, List.length_singleton, Nat.add_sub_cancel]
        refine natDegree_add_le' ?_ (by simp)
        rcases l with _ | ⟨u, l⟩
        · rw [h0 rfl]; simp
        · exact natDegree_mul_le' h2 natDegree_X_le (by simp)
      · rintro ⟨u, hu, hne⟩ h0
        have ht : t = 0 := by
          have := congrArg (fun p => p.coeff 0) h0
          simpa using this
        rcases List.mem_append.mp hu with hu | hu
        · refine h3 ⟨u, hu, hne⟩ ?_
          rw [ht, C_0, add_zero] at h0
          exact (mul_eq_zero.mp h0).resolve_right X_ne_zero
        · rw [List.mem_singleton] at hu
          exact hne (hu.trans ht)
  obtain ⟨P, h1, h2, -, h3⟩ := key l
  simp only [← h1]
  exact count_roots (h3 h) h2

end
end Halo2
