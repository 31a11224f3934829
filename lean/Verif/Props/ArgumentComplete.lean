import Verif.Props.ArgumentKey

/-!
# Completeness of the argument
-/

set_option linter.unusedSectionVars false
set_option linter.unusedDecidableInType false

namespace Halo2
open Polynomial
variable {F : Type} [Field F]

/-! ### Permuted columns of a lookup -/

/-- Adjacent rows of permuted columns. -/
def Follows (q p : F × F) : Prop := p.1 = p.2 ∨ p.1 = q.1

open Classical in
/-- Input `A` and table `S` can be permuted as the lookup argument asks. -/
theorem exists_permuted : ∀ (n : ℕ) (A S : Multiset F), Multiset.card A = n → Multiset.card S = n → (∀ a ∈ A, a ∈ S) →
    ∃ l : List (F × F), ((l.map Prod.fst : List F) : Multiset F) = A ∧ ((l.map Prod.snd : List F) : Multiset F) = S ∧
      l.IsChain Follows ∧ ∀ p ∈ l.head?, p.1 = p.2
  | 0, A, S, hA, hS, _ => by
    rw [Multiset.card_eq_zero] at hA hS
    subst hA hS
    exact ⟨[], rfl, rfl, by simp, by simp⟩
  | n + 1, A, S, hA, hS, h => by
    by_cases hd : A.Nodup
    · have e : A = S := Multiset.eq_of_le_of_card_le ((Multiset.le_iff_subset hd).mpr h) (by omega)
      subst e
      refine ⟨A.toList.map fun a => (a, a), by simp [Function.comp_def], by simp [Function.comp_def], ?_, ?_⟩
      · rw [List.isChain_map]
        exact (List.pairwise_of_forall fun _ _ => Or.inl rfl).isChain
      · intro p hp
        rw [List.head?_map] at hp
        obtain ⟨a, -, rfl⟩ := Option.map_eq_some_iff.mp hp
        rfl
    · obtain ⟨a, ha⟩ : ∃ a, 2 ≤ A.count a := by
        by_contra hc
        push Not at hc
        exact hd (Multiset.nodup_iff_count_le_one.mpr fun a => by have := hc a; omega)
      have hle : A.dedup ≤ S := (Multiset.le_iff_subset A.nodup_dedup).mpr fun x hx => h x (Multiset.mem_dedup.mp hx)
      have hlt : A.dedup < S := by
        refine lt_of_le_of_ne hle fun e => hd ?_
        have : A.dedup = A := Multiset.eq_of_le_of_card_le (Multiset.dedup_le A) (by rw [e, hS, hA])
        rw [← this]
        exact A.nodup_dedup
      obtain ⟨s, hs⟩ := Multiset.lt_iff_cons_le.mp hlt
      have hsS : s ∈ S := Multiset.mem_of_le hs (Multiset.mem_cons_self _ _)
      have haA : a ∈ A := Multiset.count_pos.mp (by omega)
      obtain ⟨l, h1, h2, h3, h4⟩ := exists_permuted n (A.erase a) (S.erase s)
        (by rw [Multiset.card_erase_of_mem haA, hA]; rfl) (by rw [Multiset.card_erase_of_mem hsS, hS]; rfl) (by
          intro b hb
          have hb' : b ∈ A.dedup := Multiset.mem_dedup.mpr (Multiset.mem_of_mem_erase hb)
          have := Multiset.erase_le_erase s hs
          rw [Multiset.erase_cons_head] at this
          exact Multiset.mem_of_le this hb')
      have ha2 : a ∈ l.map Prod.fst := by
        rw [← Multiset.mem_coe, h1, ← Multiset.count_pos, Multiset.count_erase_self]
        omega
      obtain ⟨⟨a', s'⟩, hm, rfl⟩ := List.mem_map.mp ha2
      obtain ⟨l1, l2, rfl⟩ := List.append_of_mem hm
      refine ⟨l1 ++ (a', s') :: (a', s) :: l2, ?_, ?_, ?_, ?_⟩
      · rw [← Multiset.cons_erase haA, ← h1]
        simp only [List.map_append, List.map_cons, Multiset.cons_coe, Multiset.coe_eq_coe]
        refine List.Perm.trans ?_ List.perm_middle
        exact List.Perm.append_left _ (List.Perm.refl _)
      · rw [← Multiset.cons_erase hsS, ← h2]
        simp only [List.map_append, List.map_cons, Multiset.cons_coe, Multiset.coe_eq_coe]
        refine List.Perm.trans ?_ List.perm_middle
        exact List.Perm.append_left _ (List.Perm.swap _ _ _)
      · rw [List.isChain_append] at h3 ⊢
        obtain ⟨c1, c2, c3⟩ := h3
        refine ⟨c1, ?_, by simpa using c3⟩
        rw [List.isChain_cons] at c2 ⊢
        refine ⟨by simp [Follows], ?_⟩
        rw [List.isChain_cons]
        exact ⟨c2.1, c2.2⟩
      · intro p hp
        refine h4 p ?_
        cases l1 <;> simpa using hp

/-- The permuted columns, by rows. -/
theorem exists_permuted_rows (u : ℕ) (A S : ℕ → F) (h : ∀ r < u, ∃ r' < u, A r = S r') :
    ∃ A' S' : ℕ → F, (∀ b : F, ∏ r ∈ Finset.range u, (A' r + b) = ∏ r ∈ Finset.range u, (A r + b)) ∧
      (∀ c : F, ∏ r ∈ Finset.range u, (S' r + c) = ∏ r ∈ Finset.range u, (S r + c)) ∧
      (∀ r < u, ∃ r' < u, A' r = A r') ∧ (∀ r < u, ∃ r' < u, S' r = S r') ∧
      (0 < u → A' 0 = S' 0) ∧ ∀ r, r + 1 < u → A' (r + 1) = S' (r + 1) ∨ A' (r + 1) = A' r := by
  obtain ⟨l, h1, h2, h3, h4⟩ := exists_permuted u ((Multiset.range u).map A) ((Multiset.range u).map S)
    (by simp) (by simp) (by
      intro a ha
      obtain ⟨r, hr, rfl⟩ := Multiset.mem_map.mp ha
      obtain ⟨r', hr', e⟩ := h r (Multiset.mem_range.mp hr)
      exact Multiset.mem_map.mpr ⟨r', Multiset.mem_range.mpr hr', e.symm⟩)
  have hlen : l.length = u := by
    have := congrArg Multiset.card h1
    simpa using this
  have hget : ∀ f : F × F → F, ((l.map f : List F) : Multiset F) = (Multiset.range u).map fun r => f (l.getD r (0, 0)) := by
    intro f
    have : l.map f = (List.range u).map fun r => f (l.getD r (0, 0)) := by
      refine List.ext_getElem (by simp [hlen]) fun r hr _ => ?_
      rw [List.length_map] at hr
      simp [List.getD_eq_getElem?_getD, List.getElem?_eq_getElem hr]
    rw [this]
    rfl
  rw [hget] at h1 h2
  have prods : ∀ B B' : ℕ → F, (Multiset.range u).map B' = (Multiset.range u).map B → ∀ b : F,
      ∏ r ∈ Finset.range u, (B' r + b) = ∏ r ∈ Finset.range u, (B r + b) := by
    intro B B' e b
    have := congrArg (fun s : Multiset F => (s.map fun x => x + b).prod) e
    simp only [Multiset.map_map] at this
    exact this
  have mems : ∀ B B' : ℕ → F, (Multiset.range u).map B' = (Multiset.range u).map B → ∀ r < u, ∃ r' < u, B' r = B r' := by
    intro B B' e r hr
    have : B' r ∈ (Multiset.range u).map B := by
      rw [← e]
      exact Multiset.mem_map_of_mem _ (Multiset.mem_range.mpr hr)
    obtain ⟨r', hr', e'⟩ := Multiset.mem_map.mp this
    exact ⟨r', Multiset.mem_range.mp hr', e'.symm⟩
  have hD : ∀ r, (hr : r < l.length) → l.getD r (0, 0) = l[r] := fun r hr => by
    simp [List.getD_eq_getElem?_getD, List.getElem?_eq_getElem hr]
  refine ⟨fun r => (l.getD r (0, 0)).1, fun r => (l.getD r (0, 0)).2, prods _ _ h1, prods _ _ h2, mems _ _ h1, mems _ _ h2,
    fun h0 => ?_, fun r hr => ?_⟩
  · refine h4 _ ?_
    rw [hD 0 (by omega), List.head?_eq_getElem?, List.getElem?_eq_getElem (by omega)]
    rfl
  · have := List.isChain_iff_getElem.mp h3 r (by omega)
    simp only
    rw [hD r (by omega), hD (r + 1) (by omega)]
    exact this

/-! ### Quotients -/

/-- What vanishes on the domain is a multiple of `X^n - 1`. -/
theorem vanishing_dvd {n : ℕ} {ω : F} (hω : IsPrimitiveRoot ω n) (hn : 0 < n) {A : F[X]} (h : ∀ r < n, A.eval (ω ^ r) = 0) :
    A = (A /ₘ (X ^ n - 1)) * (X ^ n - 1) := by
  have hm : (X ^ n - 1 : F[X]).Monic := monic_X_pow_sub_C 1 (by omega)
  have hd : (X ^ n - 1 : F[X]).degree = n := degree_X_pow_sub_C (by omega) 1
  have h0 : A %ₘ (X ^ n - 1) = 0 := by
    refine eq_zero_of_degree_lt_of_eval_index_eq_zero (s := Finset.range n) (v := fun r => ω ^ r)
      (fun a ha b hb h => hω.pow_inj (by simpa using ha) (by simpa using hb) h) ?_ fun r hr => ?_
    · rw [Finset.card_range, ← hd]
      exact degree_modByMonic_lt _ hm
    · have e := congrArg (eval (ω ^ r)) (modByMonic_add_div A (X ^ n - 1))
      rw [eval_add, eval_mul, h r (Finset.mem_range.mp hr)] at e
      have : eval (ω ^ r) (X ^ n - 1 : F[X]) = 0 := by
        rw [eval_sub, eval_pow, eval_X, eval_one, ← pow_mul, mul_comm, pow_mul, hω.pow_eq_one, one_pow, sub_self]
      rw [this, zero_mul, add_zero] at e
      exact e
  have := modByMonic_add_div A (X ^ n - 1)
  rw [h0, zero_add, mul_comm] at this
  exact this.symm

/-- Piece `i` of a polynomial cut into pieces of `n` coefficients. -/
noncomputable def piece (n : ℕ) (Q : F[X]) (i : ℕ) : F[X] := ∑ j ∈ Finset.range n, C (Q.coeff (i * n + j)) * X ^ j

theorem piece_degree (n : ℕ) (Q : F[X]) (i : ℕ) : (piece n Q i).degree < n := by
  unfold piece
  rw [degree_lt_iff_coeff_zero]
  intro m hm
  rw [finsetSum_coeff]
  refine Finset.sum_eq_zero fun j hj => ?_
  rw [coeff_C_mul, coeff_X_pow, if_neg (by have := Finset.mem_range.mp hj; omega), mul_zero]

theorem pieces_sum (n e : ℕ) (Q : F[X]) (h : Q.natDegree < e * n) :
    ∑ i ∈ Finset.range e, (X ^ n) ^ i * piece n Q i = Q := by
  have key : ∀ e, ∑ i ∈ Finset.range e, (X ^ n) ^ i * piece n Q i =
      ∑ k ∈ Finset.range (e * n), C (Q.coeff k) * X ^ k := by
    intro e
    induction e with
    | zero => simp
    | succ e ih =>
      rw [Finset.sum_range_succ, ih, Nat.succ_mul, Finset.sum_range_add, piece, Finset.mul_sum]
      congr 1
      refine Finset.sum_congr rfl fun j _ => ?_
      rw [← pow_mul, pow_add, mul_comm n e]
      ring
  rw [key]
  exact (as_sum_range_C_mul_X_pow' Q h).symm

/-! ### Products -/

namespace Key
variable {K : Key F}

/-- Numerators and denominators balance if the copy constraints hold. -/
theorem perm_balance {cs : CS F} {ws : List (Wide F)} {ops : List (Op F)} {n : ℕ} {ω δ : F} (hK : keygenWith cs ws ops n ω δ = .ok K)
    (hω : IsPrimitiveRoot ω n) {advice : ℕ → F[X]} (hc : CopiesHold (K.grid advice) ops) (β γ : F) :
    ∏ p ∈ K.cells, K.num advice β γ p = ∏ p ∈ K.cells, K.den advice β γ p := by
  have hwf := keygen_wf hK hω
  obtain ⟨σ, hσ, hcyc, -⟩ := keygen_perm hK
  have hcop := (copies_iff hK _).mp hc
  rw [hσ] at hcop
  have hu : ∀ x, ((σ x).2 : ℕ) < K.usable ↔ (x.2 : ℕ) < K.usable := by
    intro x
    rcases eqvGen_usable ((hcyc (σ x) x).mp
      (Equiv.Perm.sameCycle_apply_left.mpr (Equiv.Perm.SameCycle.refl _ _))) with h | h
    · rw [h]
    · exact ⟨fun _ => h.2, fun _ => h.1⟩
  have hlt := hwf.lt
  have row : ∀ p ∈ K.cells, p.1 < K.n := fun p hp => by
    have := Finset.mem_range.mp (Finset.mem_product.mp hp).1
    omega
  symm
  refine Finset.prod_bij (fun p hp => (((σ (p.2, ⟨p.1, row p hp⟩)).2 : ℕ), (σ (p.2, ⟨p.1, row p hp⟩)).1)) ?_ ?_ ?_ ?_
  · intro p hp
    refine Finset.mem_product.mpr ⟨Finset.mem_range.mpr ((hu _).mpr ?_), Finset.mem_univ _⟩
    exact Finset.mem_range.mp (Finset.mem_product.mp hp).1
  · rintro ⟨r, j⟩ hp ⟨r', j'⟩ hp' e
    have := σ.injective (Prod.ext (congrArg Prod.snd e) (Fin.ext (congrArg Prod.fst e)))
    exact Prod.ext (congrArg (fun x => (x.2 : ℕ)) this) (congrArg Prod.fst this)
  · rintro ⟨r, j⟩ hp
    have hr := row _ hp
    refine ⟨((σ.symm (j, ⟨r, hr⟩)).2, (σ.symm (j, ⟨r, hr⟩)).1), ?_, ?_⟩
    · refine Finset.mem_product.mpr ⟨Finset.mem_range.mpr ((hu _).mp ?_), Finset.mem_univ _⟩
      rw [Equiv.apply_symm_apply]
      exact Finset.mem_range.mp (Finset.mem_product.mp hp).1
    · simp
  · rintro ⟨r, j⟩ hp
    have hr := row _ hp
    have e := Key.image_eq hwf (j, ⟨r, hr⟩)
    rw [hσ] at e
    simp only at e
    unfold den num
    rw [e]
    congr 2
    exact (hcop (j, ⟨r, hr⟩)).symm

/-- Product `i` of the permutation argument on row `r` (`permutation::Argument::commit`): it starts where the previous one
ends and grows by the quotient of the factors of its columns. -/
noncomputable def zPermRow (K : Key F) (advice : ℕ → F[X]) (β γ : F) (i r : ℕ) : F :=
  (∏ i' ∈ Finset.range i, ∏ r' ∈ Finset.range K.usable,
    (∏ j ∈ K.chunk i', K.num advice β γ (r', j)) / ∏ j ∈ K.chunk i', K.den advice β γ (r', j)) *
  ∏ r' ∈ Finset.range r, (∏ j ∈ K.chunk i, K.num advice β γ (r', j)) / ∏ j ∈ K.chunk i, K.den advice β γ (r', j)

/-- With these products on the rows up to the last one that can be assigned, the terms of the permutation argument vanish. -/
theorem zPerm_terms (h : K.Wf) {advice : ℕ → F[X]} {β γ : F}
    (hbal : ∏ p ∈ K.cells, K.num advice β γ p = ∏ p ∈ K.cells, K.den advice β γ p)
    (hden : ∀ p ∈ K.cells, K.den advice β γ p ≠ 0) {m : Messages F} (ha : m.advice = advice)
    (ev : ∀ i < K.chunks, ∀ r ≤ K.usable, (m.zPerm i).eval (K.ω ^ r) = zPermRow K advice β γ i r) :
    ∀ r < K.n, ∀ t ∈ permTerms K β γ (K.opened m (K.ω ^ r)), t = 0 := by
  have hlt := h.lt
  have hpos := h.n_pos
  let N : ℕ → ℕ → F := fun i r => ∏ j ∈ K.chunk i, K.num advice β γ (r, j)
  let D : ℕ → ℕ → F := fun i r => ∏ j ∈ K.chunk i, K.den advice β γ (r, j)
  let T : ℕ → F := fun i => ∏ r ∈ Finset.range K.usable, N i r / D i r
  have hD : ∀ i, ∀ r < K.usable, D i r ≠ 0 := fun i r hr =>
    Finset.prod_ne_zero_iff.mpr fun j _ => hden (r, j) (Finset.mem_product.mpr ⟨Finset.mem_range.mpr hr, Finset.mem_univ _⟩)
  subst ha
  by_cases hc : K.chunks = 0
  · intro r _ t ht
    rw [permTerms, if_pos hc] at ht
    cases ht
  rw [permTerms_iff h β γ hc]
  have hT : ∏ i ∈ Finset.range K.chunks, T i = 1 := by
    have regroup : ∀ f : ℕ × Fin K.cols.length → F,
        ∏ i ∈ Finset.range K.chunks, ∏ r ∈ Finset.range K.usable, ∏ j ∈ K.chunk i, f (r, j) = ∏ p ∈ K.cells, f p := by
      intro f
      rw [Finset.prod_comm, cells, Finset.prod_product]
      exact Finset.prod_congr rfl fun r _ => K.prod_chunks fun j => f (r, j)
    simp only [T, N, D, Finset.prod_div_distrib]
    rw [regroup, regroup, hbal]
    exact div_self (Finset.prod_ne_zero_iff.mpr hden)
  refine ⟨?_, ?_, ?_, ?_⟩
  · rw [ev 0 (by omega) 0 (by omega)]
    simp [zPermRow]
  · rw [ev _ (by omega) _ le_rfl]
    have : zPermRow K m.advice β γ (K.chunks - 1) K.usable = 1 := by
      have e : zPermRow K m.advice β γ (K.chunks - 1) K.usable = ∏ i ∈ Finset.range (K.chunks - 1 + 1), T i := by
        rw [Finset.prod_range_succ]
        rfl
      rw [e, Nat.sub_add_cancel (by omega), hT]
    rw [this, one_pow]
  · intro i hi
    rw [ev _ (by omega) _ (by omega), ev _ (by omega) _ le_rfl]
    simp only [zPermRow, Finset.range_zero, Finset.prod_empty, mul_one]
    rw [Finset.prod_range_succ]
  · intro i hi r hr
    rw [ev _ hi _ (by omega), ev _ hi _ (by omega)]
    have := hD i r hr
    show zPermRow K m.advice β γ i (r + 1) * D i r = zPermRow K m.advice β γ i r * N i r
    have e : zPermRow K m.advice β γ i (r + 1) = zPermRow K m.advice β γ i r * (N i r / D i r) := by
      simp only [zPermRow, Finset.prod_range_succ, mul_assoc]
      rfl
    rw [e, mul_assoc, div_mul_cancel₀ _ this]

/-- The product polynomials of the permutation argument. -/
theorem exists_zPerm (h : K.Wf) {advice : ℕ → F[X]} {β γ : F}
    (hbal : ∏ p ∈ K.cells, K.num advice β γ p = ∏ p ∈ K.cells, K.den advice β γ p)
    (hden : ∀ p ∈ K.cells, K.den advice β γ p ≠ 0) :
    ∃ z : ℕ → F[X], (∀ i, (z i).degree < K.n) ∧ ∀ m : Messages F, m.advice = advice → m.zPerm = z →
      ∀ r < K.n, ∀ t ∈ permTerms K β γ (K.opened m (K.ω ^ r)), t = 0 := by
  refine ⟨fun i => interp K.n K.ω (zPermRow K advice β γ i), fun i => interp_degree h.root _, fun m ha hz => ?_⟩
  refine zPerm_terms h hbal hden ha fun i _ r hr => ?_
  rw [hz]
  exact interp_eval h.root _ (by have := h.lt; omega)

/-- The product of a lookup on row `r` (`lookup::Permuted::commit_product`), with permuted columns `A` and `S`. -/
noncomputable def zLookupRow (K : Key F) (advice : ℕ → F[X]) (q : Expr F × Expr F) (A S : ℕ → F) (β γ : F) (r : ℕ) : F :=
  ∏ r' ∈ Finset.range r, (q.1.eval (K.grid advice) r' + β) * (q.2.eval (K.grid advice) r' + γ) /
    ((A r' + β) * (S r' + γ))

/-- With these columns, on the rows up to the last one that can be assigned, the terms of a lookup vanish. -/
theorem lookup_terms (h : K.Wf) {advice : ℕ → F[X]} (q : Expr F × Expr F) {A S : ℕ → F}
    (hA : ∀ b : F, ∏ r ∈ Finset.range K.usable, (A r + b) = ∏ r ∈ Finset.range K.usable, (q.1.eval (K.grid advice) r + b))
    (hS : ∀ c : F, ∏ r ∈ Finset.range K.usable, (S r + c) = ∏ r ∈ Finset.range K.usable, (q.2.eval (K.grid advice) r + c))
    (mA : ∀ r < K.usable, ∃ r' < K.usable, A r = q.1.eval (K.grid advice) r')
    (mS : ∀ r < K.usable, ∃ r' < K.usable, S r = q.2.eval (K.grid advice) r')
    (h0 : 0 < K.usable → A 0 = S 0) (hs : ∀ r, r + 1 < K.usable → A (r + 1) = S (r + 1) ∨ A (r + 1) = A r) {β γ : F}
    (hne : ∀ r < K.usable, q.1.eval (K.grid advice) r + β ≠ 0 ∧ q.2.eval (K.grid advice) r + γ ≠ 0) {m : Messages F}
    (ha : m.advice = advice) {i : ℕ} (evA : ∀ r < K.usable, (m.permuted i).1.eval (K.ω ^ r) = A r)
    (evS : ∀ r < K.usable, (m.permuted i).2.eval (K.ω ^ r) = S r)
    (ev : ∀ r ≤ K.usable, (m.zLookup i).eval (K.ω ^ r) = zLookupRow K advice q A S β γ r) :
    ∀ r < K.n, ∀ t ∈ lookupTerms β γ i q (K.opened m (K.ω ^ r)), t = 0 := by
  have hlt := h.lt
  have hpos := h.pos
  subst ha
  let N : ℕ → F := fun r => (q.1.eval (K.grid m.advice) r + β) * (q.2.eval (K.grid m.advice) r + γ)
  let D : ℕ → F := fun r => (A r + β) * (S r + γ)
  have hD : ∀ r < K.usable, D r ≠ 0 := by
    intro r hr
    obtain ⟨r1, h1, e1⟩ := mA r hr
    obtain ⟨r2, h2, e2⟩ := mS r hr
    simp only [D]
    rw [e1, e2]
    exact mul_ne_zero (hne r1 h1).1 (hne r2 h2).2
  have hz : ∀ r, zLookupRow K m.advice q A S β γ r = ∏ r' ∈ Finset.range r, N r' / D r' := fun r => rfl
  rw [lookupTerms_iff h β γ i q]
  refine ⟨?_, ?_, ?_, ?_, ?_⟩
  · rw [ev 0 (by omega)]
    simp [zLookupRow]
  · rw [ev _ le_rfl]
    have : zLookupRow K m.advice q A S β γ K.usable = 1 := by
      rw [hz]
      simp only [Finset.prod_div_distrib, N, D, Finset.prod_mul_distrib]
      rw [← hA β, ← hS γ, ← Finset.prod_mul_distrib]
      exact div_self (Finset.prod_ne_zero_iff.mpr fun r hr => hD r (Finset.mem_range.mp hr))
    rw [this, one_pow]
  · intro r hr
    rw [ev _ (by omega), ev _ (by omega), evA _ (by omega), evS _ (by omega)]
    have := hD r hr
    have e : zLookupRow K m.advice q A S β γ (r + 1) * D r = zLookupRow K m.advice q A S β γ r * N r := by
      rw [hz, hz, Finset.prod_range_succ, mul_assoc, div_mul_cancel₀ _ this]
    simp only [N, D] at e
    linear_combination e
  · rw [evA _ hpos, evS _ hpos]
    exact h0 hpos
  · intro r hr
    rw [evA _ (by omega), evS _ (by omega), evA _ (by omega)]
    exact hs r hr

/-- The polynomials of a lookup. -/
theorem exists_zLookup (h : K.Wf) {advice : ℕ → F[X]} (q : Expr F × Expr F)
    (hl : ∀ r < K.usable, ∃ r' < K.usable, q.1.eval (K.grid advice) r = q.2.eval (K.grid advice) r') :
    ∃ p : F[X] × F[X], p.1.degree < K.n ∧ p.2.degree < K.n ∧ ∀ β γ : F,
      (∀ r < K.usable, q.1.eval (K.grid advice) r + β ≠ 0 ∧ q.2.eval (K.grid advice) r + γ ≠ 0) →
      ∃ z : F[X], z.degree < K.n ∧ ∀ (m : Messages F) (i : ℕ), m.advice = advice → m.permuted i = p → m.zLookup i = z →
        ∀ r < K.n, ∀ t ∈ lookupTerms β γ i q (K.opened m (K.ω ^ r)), t = 0 := by
  have hlt := h.lt
  obtain ⟨A, S, hA, hS, mA, mS, h0, hs⟩ := exists_permuted_rows K.usable (fun r => q.1.eval (K.grid advice) r)
    (fun r => q.2.eval (K.grid advice) r) hl
  refine ⟨(interp K.n K.ω A, interp K.n K.ω S), interp_degree h.root _, interp_degree h.root _, fun β γ hne => ?_⟩
  refine ⟨interp K.n K.ω (zLookupRow K advice q A S β γ), interp_degree h.root _, fun m i ha hp hz => ?_⟩
  refine lookup_terms h q hA hS mA mS h0 hs hne ha (fun r hr => ?_) (fun r hr => ?_) fun r hr => ?_
  · rw [hp]; exact interp_eval h.root _ (by omega)
  · rw [hp]; exact interp_eval h.root _ (by omega)
  · rw [hz]; exact interp_eval h.root _ (by omega)

/-- The combination of the terms, as a polynomial. -/
noncomputable def combined (K : Key F) (m : Messages F) (θ β γ y : F) : F[X] :=
  (terms K θ β γ (K.polys m)).foldl (fun a t => a * C y + t) 0

theorem combined_eval (K : Key F) (m : Messages F) (θ β γ y x : F) :
    (K.combined m θ β γ y).eval x = (terms K θ β γ (K.opened m x)).foldl (fun a t => a * y + t) 0 := by
  have := foldl_map_hom (aeval (R := F) x) (C y) (terms K θ β γ (K.polys m)) 0
  rw [map_zero] at this
  simp only [coe_aeval_eq_eval, eval_C] at this
  rw [combined, ← this, terms_eval]

theorem combined_degree (h : K.Wf) {m : Messages F} (hm : m.Short K.n) (θ β γ y : F) :
    (K.combined m θ β γ y).natDegree ≤ K.degree * (K.n - 1) := by
  have hn : 2 ≤ K.n := by have := h.pos; have := h.lt; omega
  have hd := terms_degree K θ β γ (K.polys_small h.root hn hm)
  have fold : ∀ l : List F[X], (∀ p ∈ l, p.natDegree ≤ K.degree * (K.n - 1)) → ∀ a : F[X],
      a.natDegree ≤ K.degree * (K.n - 1) →
        (l.foldl (fun a t => a * C y + t) a).natDegree ≤ K.degree * (K.n - 1) := by
    intro l
    induction l with
    | nil => intro _ a ha; exact ha
    | cons p l ih =>
      intro hl a ha
      exact ih (fun q hq => hl q (by simp [hq])) _ (natDegree_add_le' (natDegree_mul_le' (b := 0) ha (by simp) le_rfl)
        (hl p (by simp)))
  exact fold _ hd 0 (by simp)

/-- The quotient, cut into pieces. -/
noncomputable def pieces (K : Key F) (m : Messages F) (θ β γ y : F) : ℕ → F[X] :=
  piece K.n (K.combined m θ β γ y /ₘ (X ^ K.n - 1))

/-- If the terms vanish on all rows, the verifier accepts the pieces of the quotient. -/
theorem check_of_vanish (h : K.Wf) {m : Messages F} (hm : m.Short K.n) {θ β γ : F} (hv : K.Vanish m θ β γ) (y : F) {x : F}
    (hx : x ^ K.n ≠ 1) : K.Check m (K.pieces m θ β γ y) θ β γ y x := by
  have hn := h.n_pos
  have hz : ∀ r < K.n, (K.combined m θ β γ y).eval (K.ω ^ r) = 0 := by
    intro r hr
    rw [combined_eval]
    have : ∀ l : List F, (∀ t ∈ l, t = 0) → l.foldl (fun a t => a * y + t) 0 = 0 := by
      intro l
      induction l with
      | nil => intro _; rfl
      | cons t l ih =>
        intro hl
        rw [List.foldl_cons, hl t (by simp), zero_mul, add_zero]
        exact ih fun t ht => hl t (by simp [ht])
    exact this _ (hv r hr)
  have hq := vanishing_dvd h.root hn hz
  refine ⟨hx, ?_⟩
  have h3 := K.three_le_degree
  have hdeg : (K.combined m θ β γ y /ₘ (X ^ K.n - 1)).natDegree < (K.degree - 1) * K.n := by
    have hmon : (X ^ K.n - 1 : F[X]).Monic := monic_X_pow_sub_C 1 (by omega)
    rw [natDegree_divByMonic _ hmon]
    have e : (X ^ K.n - 1 : F[X]).natDegree = K.n := natDegree_X_pow_sub_C (r := 1)
    rw [e]
    have h1 := combined_degree h hm θ β γ y
    have h2 : K.degree * (K.n - 1) + K.degree = K.degree * K.n := by
      rw [← Nat.mul_succ, Nat.succ_eq_add_one, Nat.sub_add_cancel (by omega)]
    have h4 : (K.degree - 1) * K.n + K.n = K.degree * K.n := by
      rw [← Nat.succ_mul, Nat.succ_eq_add_one, Nat.sub_add_cancel (by omega)]
    have h5 : 1 * K.n ≤ (K.degree - 1) * K.n := Nat.mul_le_mul_right _ (by omega)
    omega
  have hs := congrArg (eval x) (pieces_sum K.n (K.degree - 1) _ hdeg)
  rw [eval_finsetSum] at hs
  simp only [eval_mul, eval_pow, eval_X] at hs
  have hq' := congrArg (eval x) hq
  rw [eval_mul, combined_eval] at hq'
  rw [hq', ← hs]
  simp only [pieces, eval_sub, eval_pow, eval_X, eval_one]

end Key

/-- No factor of a denominator is zero. -/
structure Invertible (K : Key F) (advice : ℕ → F[X]) (θ β γ : F) : Prop where
  perm : ∀ p ∈ K.cells, K.val advice p + β * K.image p + γ ≠ 0
  lookup : ∀ w ∈ K.lookups, ∀ r < K.usable, (w.compress θ).1.eval (K.grid advice) r + β ≠ 0 ∧
    (w.compress θ).2.eval (K.grid advice) r + γ ≠ 0

theorem Wide.compressed {K : Key F} {advice : ℕ → F[X]} {w : Wide F} (h : w.Holds (K.grid advice)) (θ : F) :
    K.Compressed advice θ w := by
  intro r hr
  obtain ⟨r', hr', e⟩ := h r hr
  refine ⟨r', hr', ?_⟩
  rw [Wide.compress, Key.compress_eval, Key.compress_eval, List.map_map, List.map_map]
  congr 1
  exact List.map_congr_left e

open Classical in
/-- Whoever commits to an assignment that meets all constraints can convince the verifier. -/
theorem exists_prover {cs : CS F} {ws : List (Wide F)} {ops : List (Op F)} {n : ℕ} {ω δ : F} {K : Key F}
    (hK : keygenWith cs ws ops n ω δ = .ok K) (hω : IsPrimitiveRoot ω n) {advice : ℕ → F[X]}
    (hs : ∀ c, (advice c).degree < n) (hcs : cs.Holds (K.grid advice)) (hws : ∀ w ∈ ws, w.Holds (K.grid advice))
    (hcop : CopiesHold (K.grid advice) ops) :
    ∃ P : Prover F, P.Short n ∧ P.advice = advice ∧ ∀ θ β γ y x, Invertible K advice θ β γ → x ^ n ≠ 1 →
      P.Convinces K (θ, β, γ, y, x) := by
  have hwf := keygen_wf hK hω
  obtain ⟨en, ecs, ews⟩ : K.n = n ∧ K.cs = cs ∧ K.wide = ws := by
    obtain ⟨-, -, s, -, rfl⟩ := keygen_ok hK
    exact ⟨rfl, rfl, rfl⟩
  rw [← ecs] at hcs
  rw [← ews] at hws
  rw [← en] at hs ⊢
  have hn := hwf.n_pos
  have hall : ∀ w ∈ K.lookups, w.Holds (K.grid advice) := by
    intro w hw
    rcases List.mem_append.mp hw with hw | hw
    · obtain ⟨l, hl, rfl⟩ := List.mem_map.mp hw
      exact (Lookup.wide_holds hwf.lt.le l).mpr (hcs.2 l hl)
    · exact hws w hw
  have hlk : ∀ θ i, ∃ p : F[X] × F[X], p.1.degree < K.n ∧ p.2.degree < K.n ∧ ∀ (hi : i < K.lookups.length) (β γ : F),
      (∀ r < K.usable, (K.lookups[i].compress θ).1.eval (K.grid advice) r + β ≠ 0 ∧
        (K.lookups[i].compress θ).2.eval (K.grid advice) r + γ ≠ 0) →
      ∃ z : F[X], z.degree < K.n ∧ ∀ (m : Messages F) (i' : ℕ), m.advice = advice → m.permuted i' = p → m.zLookup i' = z →
        ∀ r < K.n, ∀ t ∈ lookupTerms β γ i' (K.lookups[i].compress θ) (K.opened m (K.ω ^ r)), t = 0 := by
    intro θ i
    by_cases hi : i < K.lookups.length
    · obtain ⟨p, h1, h2, h3⟩ := Key.exists_zLookup hwf (K.lookups[i].compress θ)
        (Wide.compressed (hall _ (List.getElem_mem hi)) θ)
      exact ⟨p, h1, h2, fun _ => h3⟩
    · exact ⟨(0, 0), by rw [degree_zero]; exact WithBot.bot_lt_coe _, by rw [degree_zero]; exact WithBot.bot_lt_coe _,
        fun h => absurd h hi⟩
  choose perm hp1 hp2 hperm using hlk
  have hzl : ∀ θ β γ i, ∃ z : F[X], z.degree < K.n ∧ (Invertible K advice θ β γ → ∀ hi : i < K.lookups.length,
      ∀ (m : Messages F) (i' : ℕ), m.advice = advice → m.permuted i' = perm θ i → m.zLookup i' = z →
        ∀ r < K.n, ∀ t ∈ lookupTerms β γ i' (K.lookups[i].compress θ) (K.opened m (K.ω ^ r)), t = 0) := by
    intro θ β γ i
    by_cases h : Invertible K advice θ β γ ∧ i < K.lookups.length
    · obtain ⟨z, h1, h2⟩ := hperm θ i h.2 β γ (h.1.lookup _ (List.getElem_mem h.2))
      exact ⟨z, h1, fun _ _ => h2⟩
    · exact ⟨0, by rw [degree_zero]; exact WithBot.bot_lt_coe _, fun h1 h2 => absurd ⟨h1, h2⟩ h⟩
  choose zl hzl1 hzl2 using hzl
  have hzp : ∀ θ β γ, ∃ z : ℕ → F[X], (∀ i, (z i).degree < K.n) ∧ (Invertible K advice θ β γ → ∀ m : Messages F,
      m.advice = advice → m.zPerm = z → ∀ r < K.n, ∀ t ∈ permTerms K β γ (K.opened m (K.ω ^ r)), t = 0) := by
    intro θ β γ
    by_cases h : Invertible K advice θ β γ
    · obtain ⟨z, h1, h2⟩ := Key.exists_zPerm hwf (Key.perm_balance hK hω hcop β γ) h.perm
      exact ⟨z, h1, fun _ => h2⟩
    · exact ⟨0, fun i => by rw [Pi.zero_apply, degree_zero]; exact WithBot.bot_lt_coe _, fun h' => absurd h' h⟩
  choose zp hzp1 hzp2 using hzp
  let M : F → F → F → Messages F := fun θ β γ => ⟨advice, perm θ, zp θ β γ, zl θ β γ⟩
  refine ⟨⟨advice, perm, fun θ β γ => (zp θ β γ, zl θ β γ), fun θ β γ y => K.pieces (M θ β γ) θ β γ y⟩,
    ⟨hs, hp1, hp2, hzp1, hzl1, fun _ _ _ _ i => piece_degree _ _ _⟩, rfl, ?_⟩
  intro θ β γ y x hinv hx
  refine Key.check_of_vanish hwf (m := M θ β γ) ⟨hs, hp1 θ, hp2 θ, hzp1 θ β γ, hzl1 θ β γ⟩ ?_ y hx
  intro r hr t ht
  rcases List.mem_append.mp ht with ht | ht
  · rcases List.mem_append.mp ht with ht | ht
    · obtain ⟨p, hp, ht⟩ := List.mem_flatMap.mp ht
      obtain ⟨e, he, rfl⟩ := List.mem_map.mp ht
      rw [Key.expr_row hwf hr]
      exact hcs.1 p hp e he r hr
    · exact hzp2 θ β γ hinv (M θ β γ) rfl rfl r hr t ht
  · obtain ⟨⟨q, i⟩, hli, ht⟩ := List.mem_flatMap.mp ht
    obtain ⟨-, hi, e⟩ := List.mem_zipIdx hli
    simp only [Nat.zero_add, List.length_map, List.getElem_map] at hi e
    rw [e] at ht
    exact hzl2 θ β γ i hinv hi (M θ β γ) i rfl rfl rfl r hr t ht

end Halo2

namespace Halo2
variable {F : Type} [Field F]

/-- Challenges, of `q`, for which an honest prover may fail: a factor of a denominator is zero, or `x` is a row. -/
def Key.loss (K : Key F) : ℕ := K.cols.length * K.usable + 2 * (K.lookups.length * K.usable) + K.n

variable [Fintype F]

theorem count_add_not {A : Type} [Fintype A] (p : A → Prop) : count p + count (fun a => ¬ p a) = Fintype.card A := by
  classical
  unfold count
  have := Finset.card_filter_add_card_filter_not (s := (Finset.univ : Finset A)) p
  rw [Finset.card_univ] at this
  convert this

theorem Key.count_loss {K : Key F} (h : K.Wf) (advice : ℕ → Polynomial F) :
    count (fun c : F × F × F × F × F => ¬ (Invertible K advice c.1 c.2.1 c.2.2.1 ∧ c.2.2.2.2 ^ K.n ≠ 1)) ≤
      K.loss * Fintype.card F ^ 4 := by
  have hn := h.n_pos
  have hcells : K.cells.card = K.cols.length * K.usable := by
    rw [Key.cells, Finset.card_product, Finset.card_range, Finset.card_univ, Fintype.card_fin, mul_comm]
  let s : Finset (Fin K.lookups.length × ℕ) := Finset.univ ×ˢ Finset.range K.usable
  have hs : s.card = K.lookups.length * K.usable := by
    rw [Finset.card_product, Finset.card_range, Finset.card_univ, Fintype.card_fin]
  let B : F → F → Prop := fun θ β =>
    ∏ q ∈ s, (((K.lookups.get q.1).compress θ).1.eval (K.grid advice) q.2 + β) = 0
  let G : F → F → F → Prop := fun θ β γ => ∏ p ∈ K.cells, (K.val advice p + β * K.image p + γ) = 0 ∨
    ∏ q ∈ s, (((K.lookups.get q.1).compress θ).2.eval (K.grid advice) q.2 + γ) = 0
  have hB : ∀ θ, count (B θ) ≤ K.lookups.length * K.usable := fun θ => hs ▸ count_shifts s _
  have hG : ∀ θ β, count (G θ β) ≤ K.cols.length * K.usable + K.lookups.length * K.usable := by
    intro θ β
    refine (count_or _ _).trans (Nat.add_le_add ?_ ?_)
    · rw [← hcells]
      exact count_shifts K.cells fun p => K.val advice p + β * K.image p
    · rw [← hs]
      exact count_shifts s fun q => ((K.lookups.get q.1).compress θ).2.eval (K.grid advice) q.2
  have hX : count (fun x : F => x ^ K.n = 1) ≤ K.n := by
    refine (count_mono fun x hx => ?_).trans (count_roots (P := Polynomial.X ^ K.n - 1)
      (Polynomial.X_pow_sub_C_ne_zero hn 1) (Polynomial.natDegree_X_pow_sub_C (r := 1)).le)
    simp [hx]
  have inv : ∀ θ β γ, ¬ B θ β → ¬ G θ β γ → Invertible K advice θ β γ := by
    intro θ β γ h1 h2
    simp only [G, not_or] at h2
    refine ⟨Finset.prod_ne_zero_iff.mp h2.1, fun w hw r hr => ?_⟩
    obtain ⟨i, hi, rfl⟩ := List.mem_iff_getElem.mp hw
    have hm : (⟨⟨i, hi⟩, r⟩ : Fin K.lookups.length × ℕ) ∈ s :=
      Finset.mem_product.mpr ⟨Finset.mem_univ _, Finset.mem_range.mpr hr⟩
    exact ⟨Finset.prod_ne_zero_iff.mp h1 _ hm, Finset.prod_ne_zero_iff.mp h2.2 _ hm⟩
  let p4 : F → F → F → F → F → Prop := fun θ β γ y x => ¬ (Invertible K advice θ β γ ∧ x ^ K.n ≠ 1)
  have k1 : ∀ θ β γ, ¬ B θ β → ¬ G θ β γ → count (fun c : F × F => p4 θ β γ c.1 c.2) ≤ Fintype.card F * K.n := by
    intro θ β γ h1 h2
    have := count_fibre (p := fun c : F × F => p4 θ β γ c.1 c.2) (bad := fun _ => False) (T := 0) (N := K.n)
      (count_false fun _ h => h).le fun y _ => (count_mono fun x hx => by
        by_contra hc
        exact hx ⟨inv θ β γ h1 h2, hc⟩).trans hX
    simpa using this
  have k2 : ∀ θ β, ¬ B θ β → count (fun c : F × F × F => p4 θ β c.1 c.2.1 c.2.2) ≤
      (K.cols.length * K.usable + K.lookups.length * K.usable + K.n) * Fintype.card F ^ 2 := by
    intro θ β h1
    have := count_fibre (p := fun c : F × F × F => p4 θ β c.1 c.2.1 c.2.2) (bad := G θ β) (hG θ β)
      fun γ h2 => k1 θ β γ h1 h2
    refine this.trans (le_of_eq ?_)
    rw [Fintype.card_prod]
    ring
  have k3 : ∀ θ, count (fun c : F × F × F × F => p4 θ c.1 c.2.1 c.2.2.1 c.2.2.2) ≤ K.loss * Fintype.card F ^ 3 := by
    intro θ
    have := count_fibre (p := fun c : F × F × F × F => p4 θ c.1 c.2.1 c.2.2.1 c.2.2.2) (bad := B θ) (hB θ)
      fun β h1 => k2 θ β h1
    refine this.trans (le_of_eq ?_)
    rw [Fintype.card_prod, Fintype.card_prod, Key.loss]
    ring
  have := count_fibre (p := fun c : F × F × F × F × F => p4 c.1 c.2.1 c.2.2.1 c.2.2.2.1 c.2.2.2.2) (bad := fun _ => False)
    (T := 0) (count_false fun _ h => h).le fun θ _ => k3 θ
  refine this.trans (le_of_eq ?_)
  rw [zero_mul, zero_add]
  ring

end Halo2

namespace Props
open Halo2

/-- **C89.** Completeness: whoever commits to an assignment that meets all gates, lookups and copy constraints (with any
values in the rows kept for blinding) can answer all challenges but `K.loss` in `q`. -/
theorem C89_complete {F : Type} [Field F] [Fintype F] {cs : CS F} {ws : List (Wide F)} {ops : List (Op F)} {n : ℕ} {ω δ : F} {K : Key F}
    (hK : keygenWith cs ws ops n ω δ = .ok K) (hω : IsPrimitiveRoot ω n) {advice : ℕ → Polynomial F}
    (hs : ∀ c, (advice c).degree < n) (hcs : cs.Holds (K.grid advice)) (hws : ∀ w ∈ ws, w.Holds (K.grid advice))
    (hcop : CopiesHold (K.grid advice) ops) :
    ∃ P : Prover F, P.Short n ∧ P.advice = advice ∧
      Fintype.card F ^ 5 ≤ Nat.card {c // P.Convinces K c} + K.loss * Fintype.card F ^ 4 := by
  obtain ⟨P, hP, ha, h⟩ := exists_prover hK hω hs hcs hws hcop
  refine ⟨P, hP, ha, ?_⟩
  have en : K.n = n := by
    obtain ⟨-, -, s, -, rfl⟩ := keygen_ok hK
    rfl
  rw [nat_card_eq_count]
  have h1 := count_add_not fun c => P.Convinces K c
  have h2 : count (fun c => ¬ P.Convinces K c) ≤ K.loss * Fintype.card F ^ 4 := by
    refine (count_mono ?_).trans (Key.count_loss (keygen_wf hK hω) advice)
    rintro ⟨θ, β, γ, y, x⟩ hc ⟨hi, hx⟩
    exact hc (h θ β γ y x hi (by rw [← en]; exact hx))
  have h3 : Fintype.card (F × F × F × F × F) = Fintype.card F ^ 5 := by
    simp only [Fintype.card_prod]
    ring
  rw [← h3, ← h1]
  exact Nat.add_le_add_left h2 _

-- a column of ones can be proven
example {F : Type} [Field F] [Fintype F] {ω : F} (hω : IsPrimitiveRoot ω 16) :
    ∃ K, keygen (bitsCS F) (bitsOps F) 16 ω 1 = .ok K ∧ ∃ P : Prover F, P.Short 16 ∧
      Fintype.card F ^ 5 ≤ Nat.card {c // P.Convinces K c} + K.loss * Fintype.card F ^ 4 := by
  obtain ⟨K, hK⟩ := bits_keygen ω
  have h1 : (1 : Polynomial F).degree < (16 : ℕ) := by rw [Polynomial.degree_one]; norm_num
  obtain ⟨P, hP, -, h⟩ := C89_complete hK hω (advice := fun _ => 1) (fun _ => h1)
    (by
      obtain ⟨-, -, s, -, rfl⟩ := keygen_ok hK
      refine ⟨fun p hp e he r _ => ?_, by simp [bitsCS]⟩
      simp only [bitsCS, List.mem_singleton] at hp
      subst hp
      simp only [List.mem_singleton] at he
      subst he
      simp [Expr.eval, Key.grid]) (by simp)
    (by
      intro a b hm
      simp only [bitsOps, List.mem_singleton, Op.copy.injEq] at hm
      obtain ⟨rfl, rfl⟩ := hm
      simp [Grid.cell, Key.grid])
  exact ⟨K, hK, P, hP, h⟩

end Props
