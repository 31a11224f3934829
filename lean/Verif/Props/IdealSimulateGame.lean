import Verif.Props.IdealSimulateLemmas
import Mathlib.Data.Set.Card.Arithmetic

/-!
# Games with a simulated permutation

Every event that can happen with a simulated permutation and a random function happens almost as often with a random
permutation and the hash function. Used by C106.
-/

set_option linter.unusedVariables false
set_option linter.unusedSectionVars false

namespace Props
open Base Collide Ideal Game

namespace Simulate

/-! ### Counting -/

/-- Functions with given values at different places. -/
theorem agree_le {F I U : Type} [Fintype F] [DecidableEq F] [Fintype I] [DecidableEq I] [Fintype U] (ι : U → I)
    (hι : Function.Injective ι) (g₀ : I → F) :
    (Finset.univ.filter fun g : I → F => ∀ u, g (ι u) = g₀ (ι u)).card * Fintype.card F ^ Fintype.card U =
      Fintype.card F ^ Fintype.card I := by
  classical
  set K : Finset I := Finset.univ.image ι with hK
  have hKc : K.card = Fintype.card U := by rw [hK, Finset.card_image_of_injective _ hι, Finset.card_univ]
  have : (Finset.univ.filter fun g : I → F => ∀ u, g (ι u) = g₀ (ι u)) =
      Fintype.piFinset fun k => if k ∈ K then {g₀ k} else Finset.univ := by
    ext g
    simp only [Finset.mem_filter, Finset.mem_univ, true_and, Fintype.mem_piFinset]
    constructor
    · intro h k
      by_cases hk : k ∈ K
      · obtain ⟨u, -, rfl⟩ := Finset.mem_image.1 hk
        rw [if_pos hk, Finset.mem_singleton]
        exact h u
      · rw [if_neg hk]
        exact Finset.mem_univ _
    · intro h u
      have := h (ι u)
      rwa [if_pos (Finset.mem_image_of_mem _ (Finset.mem_univ u)), Finset.mem_singleton] at this
  rw [this, Fintype.card_piFinset, ← hKc]
  have e : ∀ k : I, (if k ∈ K then ({g₀ k} : Finset F) else Finset.univ).card = if k ∈ K then 1 else Fintype.card F := by
    intro k
    by_cases h : k ∈ K <;> simp [h]
  rw [Finset.prod_congr rfl fun k _ => e k, Finset.prod_ite, Finset.prod_const_one, one_mul, Finset.prod_const, ← pow_add]
  congr 1
  have h1 := Finset.card_filter_add_card_filter_not (s := (Finset.univ : Finset I)) (fun k => k ∈ K)
  have h2 : (Finset.univ.filter fun k => k ∈ K) = K := by ext; simp
  rw [h2, Finset.card_univ] at h1
  omega

/-- A random value in a set that does not depend on it. -/
theorem coord_le {X Y K : Type} [Fintype X] [Fintype Y] [Fintype K] [DecidableEq K] [DecidableEq Y] (k : K)
    (B : X × (K → Y) → Finset Y) (hB : ∀ ω y, B (ω.1, Function.update ω.2 k y) = B ω) (b : ℕ) (hb : ∀ ω, (B ω).card ≤ b) :
    {ω : X × (K → Y) | ω.2 k ∈ B ω}.ncard * Fintype.card Y ≤ b * Fintype.card (X × (K → Y)) := by
  classical
  set T : Finset (X × (K → Y)) := Finset.univ.filter fun ω => ω.2 k ∈ B ω with hT
  have e1 : {ω : X × (K → Y) | ω.2 k ∈ B ω}.ncard = T.card := by
    rw [← Set.ncard_coe_finset]
    congr 1
    ext ω
    simp [hT]
  rw [e1, ← Finset.card_univ (α := Y), ← Finset.card_product]
  have h2 : ((Finset.univ : Finset (X × (K → Y))).sigma B).card ≤ b * Fintype.card (X × (K → Y)) := by
    rw [Finset.card_sigma]
    refine (Finset.sum_le_card_nsmul _ _ _ fun ω _ => hb ω).trans (le_of_eq ?_)
    rw [Finset.card_univ, smul_eq_mul, Nat.mul_comm]
  refine le_trans (Finset.card_le_card_of_injOn (fun p => ⟨(p.1.1, Function.update p.1.2 k p.2), p.1.2 k⟩) ?_ ?_) h2
  · rintro ⟨ω, y⟩ h
    have h := (Finset.mem_filter.1 (Finset.mem_product.1 (Finset.mem_coe.1 h)).1).2
    refine Finset.mem_coe.2 (Finset.mem_sigma.2 ⟨Finset.mem_univ _, ?_⟩)
    rw [hB]
    exact h
  · rintro ⟨⟨x, c⟩, y⟩ h ⟨⟨x', c'⟩, y'⟩ h' e
    simp only [Sigma.mk.injEq, Prod.mk.injEq, heq_eq_eq] at e
    obtain ⟨⟨rfl, e2⟩, e3⟩ := e
    have hy : y = y' := by
      have := congrFun e2 k
      rwa [Function.update_self, Function.update_self] at this
    subst hy
    have hc : c = c' := by
      funext i
      by_cases hi : i = k
      · subst hi
        exact e3
      · have := congrFun e2 i
        rwa [Function.update_of_ne hi, Function.update_of_ne hi] at this
    rw [hc]

/-! ### Transcripts -/

section
variable {F : Type} [Field F] {C : Type} (O : Calls C F)
  (A : List (Event (State F 3) C (Except Panic F)) → Move (State F 3) C)

theorem simulated_length (f : C → F) (coins : ℕ → State F 3) (k : ℕ) : (simulated O A f coins k).length = k := by
  induction k with
  | zero => rfl
  | succ k ih => rw [simulated, List.length_cons, ih]

theorem asks_length_le {S C D : Type} (τ : List (Event S C D)) : (asks τ).length ≤ τ.length := by
  induction τ with
  | nil => exact le_rfl
  | cons e τ ih =>
    cases e with
    | asked e => simpa [asks] using ih
    | called x d => simpa [asks] using ih.trans (Nat.le_succ _)

/-- The coins of later steps do not matter. -/
theorem simulated_congr {f : C → F} {coins coins' : ℕ → State F 3} {k : ℕ} (h : ∀ j < k, coins j = coins' j) :
    simulated O A f coins k = simulated O A f coins' k := by
  induction k with
  | zero => rfl
  | succ k ih =>
    rw [simulated, simulated, ih fun j hj => h j (hj.trans (Nat.lt_succ_self k)), h k (Nat.lt_succ_self k)]

theorem simulated_tail {f f' : C → F} {coins coins' : ℕ → State F 3} {k m : ℕ} (hk : k ≤ m)
    (h : simulated O A f coins m = simulated O A f' coins' m) : simulated O A f coins k = simulated O A f' coins' k := by
  induction m with
  | zero => rw [Nat.le_zero.1 hk]; rfl
  | succ m ih =>
    rcases Nat.lt_or_ge m k with h' | h'
    · rw [show k = m + 1 by omega]; exact h
    · rw [simulated, simulated] at h
      exact ih h' (List.cons.inj h).2

theorem simulated_mono {f : C → F} {coins : ℕ → State F 3} {k m : ℕ} (hk : k ≤ m) :
    (∀ e ∈ asks (simulated O A f coins k), e ∈ asks (simulated O A f coins m)) ∧
      ∀ p ∈ calls (simulated O A f coins k), p ∈ calls (simulated O A f coins m) := by
  induction m, hk using Nat.le_induction with
  | base => exact ⟨fun e h => h, fun p h => h⟩
  | succ m _ ih =>
    rw [simulated]
    cases h : A (simulated O A f coins m) with
    | ask q => exact ⟨fun e he => List.mem_cons_of_mem _ (ih.1 e he), ih.2⟩
    | call x => exact ⟨ih.1, fun p hp => List.mem_cons_of_mem _ (ih.2 p hp)⟩

/-- The question was not asked before. -/
def New (H : List (Entry (State F 3))) : Bool × State F 3 → Prop
  | (true, s) => ¬ ∃ e ∈ H, e.2.1 = s
  | (false, t) => ¬ ∃ e ∈ H, e.2.2 = t

theorem simulate_old {f : C → F} {coin : State F 3} {H : List (Entry (State F 3))} {q : Bool × State F 3} (h : ¬ New H q) :
    ∃ e ∈ H, (simulate O f coin H q).2 = e.2 := by
  obtain ⟨d, s⟩ := q
  cases d with
  | false =>
    have h : ∃ e ∈ H, e.2.2 = s := not_not.1 h
    simp only [simulate, dif_pos h]
    exact ⟨_, h.choose_spec.1, Prod.ext rfl h.choose_spec.2.symm⟩
  | true =>
    have h : ∃ e ∈ H, e.2.1 = s := not_not.1 h
    simp only [simulate, dif_pos h]
    exact ⟨_, h.choose_spec.1, Prod.ext h.choose_spec.2.symm rfl⟩

/-- The direction of an entry and the point asked are those of the question. -/
theorem simulate_fst {f : C → F} {coin : State F 3} {H : List (Entry (State F 3))} (s : State F 3) :
    (∃ t, simulate O f coin H (true, s) = (true, s, t)) ∧ ∃ t, simulate O f coin H (false, s) = (false, t, s) := by
  constructor
  · by_cases h : ∃ e ∈ H, e.2.1 = s
    · exact ⟨_, by simp only [simulate, dif_pos h]; rfl⟩
    · by_cases h' : ∃ x, Completes O H s x
      · exact ⟨_, by simp only [simulate, dif_neg h, dif_pos h']; rfl⟩
      · exact ⟨_, by simp only [simulate, dif_neg h, dif_neg h']; rfl⟩
  · by_cases h : ∃ e ∈ H, e.2.2 = s
    · exact ⟨_, by simp only [simulate, dif_pos h]; rfl⟩
    · exact ⟨_, by simp only [simulate, dif_neg h]; rfl⟩

/-- Every pair in the table was new once. -/
theorem origin {f : C → F} {coins : ℕ → State F 3} (k : ℕ) : ∀ e ∈ asks (simulated O A f coins k), ∃ j < k, ∃ q,
    A (simulated O A f coins j) = .ask q ∧ New (asks (simulated O A f coins j)) q ∧
      (simulate O f (coins j) (asks (simulated O A f coins j)) q).2 = e.2 := by
  induction k with
  | zero => exact fun e he => absurd he List.not_mem_nil
  | succ k ih =>
    have old : ∀ e ∈ asks (simulated O A f coins k), ∃ j < k + 1, ∃ q,
        A (simulated O A f coins j) = .ask q ∧ New (asks (simulated O A f coins j)) q ∧
        (simulate O f (coins j) (asks (simulated O A f coins j)) q).2 = e.2 := fun e he => by
      obtain ⟨j, hj, h⟩ := ih e he
      exact ⟨j, hj.trans (Nat.lt_succ_self k), h⟩
    intro e he
    rw [simulated] at he
    cases h : A (simulated O A f coins k) with
    | call x =>
      rw [h] at he
      exact old e he
    | ask q =>
      rw [h] at he
      rcases List.mem_cons.1 he with rfl | he
      · by_cases hn : New (asks (simulated O A f coins k)) q
        · exact ⟨k, Nat.lt_succ_self k, q, h, hn, rfl⟩
        · obtain ⟨e', he', h'⟩ := simulate_old O (f := f) (coin := coins k) hn
          obtain ⟨j, hj, q', h1, h2, h3⟩ := old e' he'
          exact ⟨j, hj, q', h1, h2, h3.trans h'.symm⟩
      · exact old e he

variable [DecidableEq F]

/-- No coin used is bad. -/
def GoodRun (f : C → F) (coins : ℕ → State F 3) (m : ℕ) : Prop :=
  ∀ k < m, ∀ q, A (simulated O A f coins k) = .ask q → ¬ BadCoin O (asks (simulated O A f coins k)) q (coins k)

theorem GoodRun.inv (hv : ∀ x, O.valid x) {f : C → F} {coins : ℕ → State F 3} {m : ℕ} (h : GoodRun O A f coins m) :
    ∀ k ≤ m, Inv O f (asks (simulated O A f coins k)) := by
  intro k
  induction k with
  | zero => exact fun _ => Inv.empty O hv f
  | succ k ih =>
    intro hk
    have ih := ih (by omega)
    rw [simulated]
    cases hm : A (simulated O A f coins k) with
    | call x => exact ih
    | ask q => exact ih.step hv (h k (by omega) q hm)

end

section
variable {F : Type} [Field F] [Fintype F] [DecidableEq F] {C : Type} [Fintype C] [DecidableEq C]

/-- The digests of all calls and the random states of `m` steps. -/
abbrev Coins (C F : Type) (m : ℕ) : Type := (C → F) × (Fin m → State F 3)

/-- The random state of step `k`. -/
def coin {m : ℕ} (c : Fin m → State F 3) (k : ℕ) : State F 3 := if h : k < m then c ⟨k, h⟩ else 0

theorem card_coins {q : ℕ} (hq : Fintype.card F = q) (m : ℕ) : Fintype.card (Coins C F m) = q ^ Fintype.card C * (q ^ 3) ^ m := by
  rw [Fintype.card_prod, Fintype.card_fun, Fintype.card_fun, Fintype.card_fun, Fintype.card_fin, Fintype.card_fin, hq]

variable {q : ℕ} (hq : Fintype.card F = q) (O : Calls C F) (hv : ∀ x, O.valid x)
  (A : List (Event (State F 3) C (Except Panic F)) → Move (State F 3) C)

section
include hq

theorem card_word (i : Fin 3) (L : Finset F) : (Finset.univ.filter fun s : State F 3 => s i ∈ L).card ≤ L.card * q ^ 2 := by
  have := coord_le (X := Unit) (Y := F) (K := Fin 3) i (fun _ => L) (fun _ _ => rfl) L.card fun _ => le_rfl
  rw [hq, Fintype.card_prod, Fintype.card_unit, one_mul, Fintype.card_fun, Fintype.card_fin, hq] at this
  have hq0 : 0 < q := hq ▸ Fintype.card_pos
  refine Nat.le_of_mul_le_mul_right (le_trans (Nat.mul_le_mul_right _ ?_) (this.trans (le_of_eq ?_))) hq0
  · rw [← Set.ncard_coe_finset]
    refine Set.ncard_le_ncard_of_injOn (fun s => ((), s)) ?_ ?_ (Set.toFinite _)
    · intro s hs
      simpa using hs
    · intro s _ t _ h
      exact (Prod.mk.inj h).2
  · ring

omit hq in
theorem card_used (H : List (Entry (State F 3))) : (used O H).card ≤ O.roots.card + 2 * H.length := by
  refine (Finset.card_union_le _ _).trans (Nat.add_le_add_left ((List.toFinset_card_le _).trans (le_of_eq ?_)) _)
  rw [labels]
  simp [List.length_flatMap, Nat.mul_comm]

open Classical in
theorem card_bad (H : List (Entry (State F 3))) (a : Bool × State F 3) :
    (Finset.univ.filter fun s : State F 3 => BadCoin O H a s).card ≤ (O.roots.card + 2 * H.length) * q ^ 2 := by
  have h0 : (Finset.univ.filter fun s : State F 3 => s 0 ∈ used O H).card ≤ (O.roots.card + 2 * H.length) * q ^ 2 :=
    (card_word hq 0 _).trans (Nat.mul_le_mul_right _ (card_used O H))
  have h1 : (Finset.univ.filter fun s : State F 3 => s 1 ∈ rates H).card ≤ (O.roots.card + 2 * H.length) * q ^ 2 := by
    refine (card_word hq 1 _).trans (Nat.mul_le_mul_right _ ((List.toFinset_card_le _).trans ?_))
    rw [List.length_map]
    omega
  obtain ⟨d, s⟩ := a
  cases d with
  | false =>
    refine le_trans (Finset.card_le_card fun t ht => ?_) h0
    exact Finset.mem_filter.2 ⟨Finset.mem_univ _, (Finset.mem_filter.1 ht).2.2⟩
  | true =>
    by_cases hx : ∃ x, Completes O H s x
    · refine le_trans (Finset.card_le_card fun t ht => ?_) h1
      refine Finset.mem_filter.2 ⟨Finset.mem_univ _, ?_⟩
      rcases (Finset.mem_filter.1 ht).2.2 with h | h
      · exact h.2
      · exact absurd hx h.1
    · refine le_trans (Finset.card_le_card fun t ht => ?_) h0
      refine Finset.mem_filter.2 ⟨Finset.mem_univ _, ?_⟩
      rcases (Finset.mem_filter.1 ht).2.2 with h | h
      · exact absurd h.1 hx
      · exact h.2

/-- Bad coins are rare. -/
theorem bad_runs (m : ℕ) : {ω : Coins C F m | ¬ GoodRun O A ω.1 (coin ω.2) m}.ncard * q ≤
    m * (m + O.roots.card) * Fintype.card (Coins C F m) := by
  classical
  have hq0 : 0 < q := hq ▸ Fintype.card_pos
  let B : ℕ → Coins C F m → Finset (State F 3) := fun k ω => match A (simulated O A ω.1 (coin ω.2) k) with
    | .ask a => Finset.univ.filter fun s => BadCoin O (asks (simulated O A ω.1 (coin ω.2) k)) a s
    | .call _ => ∅
  have one : ∀ k : Fin m, {ω : Coins C F m | ω.2 k ∈ B k ω}.ncard * q ≤ (O.roots.card + 2 * k) * Fintype.card (Coins C F m) := by
    intro k
    have h := coord_le (X := C → F) k (B k) ?_ ((O.roots.card + 2 * k) * q ^ 2) ?_
    · rw [Fintype.card_fun, Fintype.card_fin, hq] at h
      refine Nat.le_of_mul_le_mul_right (le_trans (le_of_eq ?_) (h.trans (le_of_eq ?_))) (pow_pos hq0 2) <;> ring
    · intro ω y
      have e : simulated O A ω.1 (coin (Function.update ω.2 k y)) k = simulated O A ω.1 (coin ω.2) k := by
        refine simulated_congr O A fun j hj => ?_
        have hjm : j < m := hj.trans k.2
        rw [coin, coin, dif_pos hjm, dif_pos hjm, Function.update_of_ne]
        intro h
        have := congrArg Fin.val h
        simp at this
        omega
      simp only [B, e]
    · intro ω
      have hl : (asks (simulated O A ω.1 (coin ω.2) k)).length ≤ k :=
        (asks_length_le _).trans_eq (simulated_length O A _ _ _)
      simp only [B]
      cases A (simulated O A ω.1 (coin ω.2) k) with
      | ask a => exact (card_bad hq O _ a).trans (Nat.mul_le_mul_right _ (by omega))
      | call x => simp
  have sub : {ω : Coins C F m | ¬ GoodRun O A ω.1 (coin ω.2) m} ⊆ ⋃ k ∈ (Finset.univ : Finset (Fin m)), {ω : Coins C F m | ω.2 k ∈ B k ω} := by
    intro ω hω
    simp only [GoodRun, Set.mem_ofPred_eq] at hω
    push Not at hω
    obtain ⟨k, hk, a, ha, hb⟩ := hω
    simp only [Set.mem_iUnion, Set.mem_ofPred_eq, Finset.mem_univ, exists_true_left]
    refine ⟨⟨k, hk⟩, ?_⟩
    simp only [B, ha]
    refine Finset.mem_filter.2 ⟨Finset.mem_univ _, ?_⟩
    rw [coin, dif_pos hk] at hb
    exact hb
  have h1 : {ω : Coins C F m | ¬ GoodRun O A ω.1 (coin ω.2) m}.ncard ≤ ∑ k : Fin m, {ω : Coins C F m | ω.2 k ∈ B k ω}.ncard :=
    (Set.ncard_le_ncard sub (Set.toFinite _)).trans (Finset.set_ncard_biUnion_le _ _)
  refine (Nat.mul_le_mul_right _ h1).trans ?_
  rw [Finset.sum_mul]
  refine (Finset.sum_le_sum fun k _ => one k).trans ?_
  rw [← Finset.sum_mul]
  refine Nat.mul_le_mul_right _ ?_
  rw [Fin.sum_univ_eq_sum_range (fun k => O.roots.card + 2 * k) m, Finset.sum_add_distrib, Finset.sum_const, Finset.card_range,
    ← Finset.mul_sum, smul_eq_mul, Nat.mul_comm 2, Finset.sum_range_id_mul_two]
  have : m * (m - 1) ≤ m * m := Nat.mul_le_mul_left _ (Nat.sub_le _ _)
  rw [Nat.mul_add]
  omega

end

omit [Fintype F] [Fintype C] [DecidableEq C] in
/-- A simulated transcript whose calls are evaluated is that of every permutation with the values in it. -/
theorem play_eq (hv : ∀ x, O.valid x) {f : C → F} {coins : ℕ → State F 3} {m : ℕ} (hI : Inv O f (asks (simulated O A f coins m)))
    (hd : ∀ p ∈ calls (simulated O A f coins m), ∃ t, Reach (asks (simulated O A f coins m)) (O.enc p.1).1 (O.enc p.1).2 t)
    {π : Equiv.Perm (State F 3)} (hπ : Extends π (asks (simulated O A f coins m))) :
    play A π (fun x _ => O.run x π) m = simulated O A f coins m := by
  have : ∀ k ≤ m, play A π (fun x _ => O.run x π) k = simulated O A f coins k := by
    intro k
    induction k with
    | zero => exact fun _ => rfl
    | succ k ih =>
      intro hk
      have hmono := simulated_mono O A (f := f) (coins := coins) hk
      rw [play, ih (by omega)]
      rw [simulated] at hmono ⊢
      congr 1
      cases h : A (simulated O A f coins k) with
      | ask a =>
        rw [h] at hmono
        have he := hπ _ (hmono.1 _ List.mem_cons_self)
        obtain ⟨d, s⟩ := a
        simp only [Event.asked.injEq]
        cases d with
        | true =>
          obtain ⟨t, ht⟩ := (simulate_fst O (f := f) (coin := coins k) (H := asks (simulated O A f coins k)) s).1
          rw [ht] at he ⊢
          rw [answer, he]
        | false =>
          obtain ⟨t, ht⟩ := (simulate_fst O (f := f) (coin := coins k) (H := asks (simulated O A f coins k)) s).2
          rw [ht] at he ⊢
          have he : π t = s := he
          rw [answer, ← he, Equiv.symm_apply_apply]
      | call x =>
        rw [h] at hmono
        obtain ⟨t, ht⟩ := hd _ (hmono.2 _ List.mem_cons_self)
        simp only [Event.called.injEq, true_and]
        rw [O.run_eq x (hv x), ht.absorb hπ, hI.digest x t ht]
  exact this m le_rfl

/-- The pairs in a table. -/
def pairsOf (H : List (Entry (State F 3))) : Finset (State F 3 × State F 3) := (H.map Prod.snd).toFinset

omit [Fintype F] [Fintype C] [DecidableEq C] in
theorem mem_pairsOf {H : List (Entry (State F 3))} {p : State F 3 × State F 3} : p ∈ pairsOf H ↔ ∃ e ∈ H, e.2 = p := by
  rw [pairsOf, List.mem_toFinset, List.mem_map]

include hq hv in
/-- How many permutations have a transcript. -/
theorem real_count {f : C → F} {coins : ℕ → State F 3} {m : ℕ} (hI : Inv O f (asks (simulated O A f coins m)))
    (hd : ∀ p ∈ calls (simulated O A f coins m), ∃ t, Reach (asks (simulated O A f coins m)) (O.enc p.1).1 (O.enc p.1).2 t) :
    (q ^ 3).factorial ≤ {π : Equiv.Perm (State F 3) | play A π (fun x _ => O.run x π) m = simulated O A f coins m}.ncard *
      (q ^ 3) ^ (pairsOf (asks (simulated O A f coins m))).card := by
  set H := asks (simulated O A f coins m) with hH
  have hS : Fintype.card (State F 3) = q ^ 3 := by rw [card_state, hq]; ring
  have hinj : ∀ p ∈ pairsOf H, ∀ p' ∈ pairsOf H, p.1 = p'.1 ↔ p.2 = p'.2 := by
    intro p hp p' hp'
    obtain ⟨e, he, rfl⟩ := mem_pairsOf.1 hp
    obtain ⟨e', he', rfl⟩ := mem_pairsOf.1 hp'
    exact hI.perm e he e' he'
  have h := count_values (S := State F 3) [] (pairsOf H) Prod.fst Prod.snd (fun u _ e he => absurd he List.not_mem_nil)
    (fun u _ e he => absurd he List.not_mem_nil)
    (fun p hp p' hp' h => Prod.ext h ((hinj p hp p' hp').1 h)) (fun p hp p' hp' h => Prod.ext ((hinj p hp p' hp').2 h) h)
  have h0 : {π : Equiv.Perm (State F 3) | Extends π []}.ncard = (q ^ 3).factorial := by
    have : {π : Equiv.Perm (State F 3) | Extends π []} = Set.univ := by
      ext π
      simp [Extends]
    rw [this, Set.ncard_univ, Nat.card_eq_fintype_card, Fintype.card_perm, hS]
  rw [h0, hS] at h
  refine h.trans (Nat.mul_le_mul_right _ (Set.ncard_le_ncard ?_ (Set.toFinite _)))
  rintro π ⟨-, hπ⟩
  exact play_eq O A hv hI hd fun e he => hπ e.2 (mem_pairsOf.2 ⟨e, he, rfl⟩)

open Classical in
/-- What a new answer says about the coins. -/
theorem simulate_new {f f' : C → F} {c c' : State F 3} {H : List (Entry (State F 3))} {a : Bool × State F 3} (hn : New H a)
    (h : simulate O f c H a = simulate O f' c' H a) (j : Fin 3) :
    if h : a.1 = true ∧ j = 0 ∧ ∃ x, Completes O H a.2 x then f h.2.2.choose = f' h.2.2.choose else c j = c' j := by
  obtain ⟨d, s⟩ := a
  cases d with
  | false =>
    rw [dif_neg (by simp)]
    have hn : ¬ ∃ e ∈ H, e.2.2 = s := hn
    simp only [simulate, dif_neg hn, Prod.mk.injEq, true_and, and_true] at h
    rw [h]
  | true =>
    have hn : ¬ ∃ e ∈ H, e.2.1 = s := hn
    by_cases hx : ∃ x, Completes O H s x
    · simp only [simulate, dif_neg hn, dif_pos hx, Prod.mk.injEq, true_and] at h
      by_cases hj : j = 0
      · rw [dif_pos ⟨rfl, hj, hx⟩]
        exact congrFun h 0
      · rw [dif_neg fun h' => hj h'.2.1]
        fin_cases j
        · exact absurd rfl hj
        · exact congrFun h 1
        · exact congrFun h 2
    · rw [dif_neg fun h' => hx h'.2.2]
      simp only [simulate, dif_neg hn, dif_neg hx, Prod.mk.injEq, true_and] at h
      rw [h]

include hq hv in
/-- How many coins have a transcript. -/
theorem ideal_count {m : ℕ} (ω₀ : Coins C F m) (hI : Inv O ω₀.1 (asks (simulated O A ω₀.1 (coin ω₀.2) m))) :
    {ω : Coins C F m | simulated O A ω.1 (coin ω.2) m = simulated O A ω₀.1 (coin ω₀.2) m}.ncard *
      (q ^ 3) ^ (pairsOf (asks (simulated O A ω₀.1 (coin ω₀.2) m))).card ≤ Fintype.card (Coins C F m) := by
  classical
  set τ : ℕ → List (Event (State F 3) C (Except Panic F)) := fun k => simulated O A ω₀.1 (coin ω₀.2) k with hτ
  have ho : ∀ p : pairsOf (asks (τ m)), ∃ j : Fin m, ∃ a, A (τ j) = .ask a ∧ New (asks (τ j)) a ∧
      (simulate O ω₀.1 (coin ω₀.2 j) (asks (τ j)) a).2 = p.1 := by
    rintro ⟨p, hp⟩
    obtain ⟨e, he, rfl⟩ := mem_pairsOf.1 hp
    obtain ⟨j, hj, h⟩ := origin O A m e he
    exact ⟨⟨j, hj⟩, h⟩
  choose k a hk hn hp using ho
  let ι : pairsOf (asks (τ m)) × Fin 3 → C ⊕ Fin m × Fin 3 := fun u =>
    if h : (a u.1).1 = true ∧ u.2 = 0 ∧ ∃ x, Completes O (asks (τ (k u.1))) (a u.1).2 x then .inl h.2.2.choose else .inr (k u.1, u.2)
  have hmono : ∀ j : Fin m, ∀ e ∈ asks (τ j), e ∈ asks (τ m) := fun j => (simulated_mono O A j.2.le).1
  have hι : Function.Injective ι := by
    rintro ⟨p, i⟩ ⟨p', i'⟩ h
    simp only [ι] at h
    by_cases h1 : (a p).1 = true ∧ i = 0 ∧ ∃ x, Completes O (asks (τ (k p))) (a p).2 x <;>
      by_cases h2 : (a p').1 = true ∧ i' = 0 ∧ ∃ x, Completes O (asks (τ (k p'))) (a p').2 x
    · rw [dif_pos h1, dif_pos h2] at h
      have h := Sum.inl.inj h
      have c1 := h1.2.2.choose_spec
      have c2 := h2.2.2.choose_spec
      rw [← h] at c2
      set x := h1.2.2.choose
      obtain ⟨bs, b, t, d1, d2, d3⟩ := c1
      obtain ⟨bs', b', t', d1', d2', d3'⟩ := c2
      obtain ⟨rfl, e⟩ := List.append_inj' (d1.symm.trans d1') rfl
      obtain rfl : b = b' := by simpa using e
      obtain rfl := hI.unique (d2.mono (hmono _)) (d2'.mono (hmono _))
      have e1 : p.1.1 = (a p).2 := by
        obtain ⟨v, hv'⟩ := (simulate_fst O (f := ω₀.1) (coin := coin ω₀.2 (k p)) (H := asks (τ (k p))) (a p).2).1
        rw [← hp p, show a p = (true, (a p).2) from Prod.ext h1.1 rfl, hv']
      have e2 : p'.1.1 = (a p').2 := by
        obtain ⟨v, hv'⟩ := (simulate_fst O (f := ω₀.1) (coin := coin ω₀.2 (k p')) (H := asks (τ (k p'))) (a p').2).1
        rw [← hp p', show a p' = (true, (a p').2) from Prod.ext h2.1 rfl, hv']
      have e3 : p.1.1 = p'.1.1 := by rw [e1, e2, d3, d3']
      have e4 : p.1.2 = p'.1.2 := by
        obtain ⟨e, he, f1⟩ := mem_pairsOf.1 p.2
        obtain ⟨e', he', f2⟩ := mem_pairsOf.1 p'.2
        have := (hI.perm e he e' he').1 (by rw [f1, f2, e3])
        rwa [f1, f2] at this
      exact Prod.ext (Subtype.ext (Prod.ext e3 e4)) (h1.2.1.trans h2.2.1.symm)
    · rw [dif_pos h1, dif_neg h2] at h
      exact absurd h (by simp)
    · rw [dif_neg h1, dif_pos h2] at h
      exact absurd h (by simp)
    · rw [dif_neg h1, dif_neg h2] at h
      obtain ⟨e1, e2⟩ := Prod.mk.inj (Sum.inr.inj h)
      have e3 : a p = a p' := by
        have := (hk p).symm.trans ((by rw [e1] : A (τ (k p)) = A (τ (k p'))).trans (hk p'))
        injection this
      have e4 : p.1 = p'.1 := by rw [← hp p, ← hp p', e1, e3]
      exact Prod.ext (Subtype.ext e4) e2
  let Φ : Coins C F m → (C ⊕ Fin m × Fin 3 → F) := fun ω => Sum.elim ω.1 fun u => ω.2 u.1 u.2
  have hΦ : Function.Injective Φ := by
    intro ω ω' h
    refine Prod.ext (funext fun x => congrFun h (.inl x)) ?_
    funext j i
    exact congrFun h (.inr (j, i))
  have hle : {ω : Coins C F m | simulated O A ω.1 (coin ω.2) m = τ m}.ncard ≤
      (Finset.univ.filter fun g : C ⊕ Fin m × Fin 3 → F => ∀ u, g (ι u) = Φ ω₀ (ι u)).card := by
    rw [← Set.ncard_coe_finset]
    refine Set.ncard_le_ncard_of_injOn Φ ?_ hΦ.injOn (Set.toFinite _)
    intro ω hω
    have hω : simulated O A ω.1 (coin ω.2) m = simulated O A ω₀.1 (coin ω₀.2) m := hω
    refine Finset.mem_coe.2 (Finset.mem_filter.2 ⟨Finset.mem_univ _, ?_⟩)
    rintro ⟨p, i⟩
    have t0 := simulated_tail O A (k := k p) (k p).2.le hω
    have t1 := simulated_tail O A (k := k p + 1) (k p).2 hω
    rw [simulated, simulated, t0, List.cons.injEq] at t1
    have t1 := t1.1
    have hkp : A (simulated O A ω₀.1 (coin ω₀.2) (k p)) = .ask (a p) := hk p
    rw [hkp] at t1
    simp only [Event.asked.injEq] at t1
    have t2 := simulate_new O (hn p) t1 i
    simp only [ι]
    by_cases h1 : (a p).1 = true ∧ i = 0 ∧ ∃ x, Completes O (asks (τ (k p))) (a p).2 x
    · rw [dif_pos h1] at t2 ⊢
      exact t2
    · rw [dif_neg h1] at t2 ⊢
      rw [coin, coin, dif_pos (k p).2, dif_pos (k p).2] at t2
      exact t2
  have hag := agree_le ι hι (Φ ω₀)
  rw [Fintype.card_prod, Fintype.card_coe, Fintype.card_fin, Fintype.card_sum, Fintype.card_prod, Fintype.card_fin, Fintype.card_fin, hq] at hag
  rw [card_coins hq]
  calc _ ≤ _ * (q ^ 3) ^ (pairsOf (asks (τ m))).card := Nat.mul_le_mul_right _ hle
    _ = _ * q ^ ((pairsOf (asks (τ m))).card * 3) := by rw [← pow_mul, Nat.mul_comm 3]
    _ = q ^ (Fintype.card C + m * 3) := hag
    _ = _ := by rw [pow_add, ← pow_mul, Nat.mul_comm m]

/-- Every call in the transcript is evaluated. -/
def Done (τ : List (Event (State F 3) C (Except Panic F))) : Prop :=
  ∀ p ∈ calls τ, ∃ t, Reach (asks τ) (O.enc p.1).1 (O.enc p.1).2 t

include hq hv in
/-- Whatever happens in the simulated game happens in the real game almost as often, if the calls are evaluated in the end. -/
theorem done_le (m : ℕ) (hd : ∀ ω : Coins C F m, GoodRun O A ω.1 (coin ω.2) m → Done O (simulated O A ω.1 (coin ω.2) m))
    (E : List (Event (State F 3) C (Except Panic F)) → Prop) :
    {ω : Coins C F m | E (simulated O A ω.1 (coin ω.2) m)}.ncard * (q ^ 3).factorial * q ≤
      {π : Equiv.Perm (State F 3) | E (play A π (fun x _ => O.run x π) m)}.ncard * Fintype.card (Coins C F m) * q +
      m * (m + O.roots.card) * Fintype.card (Coins C F m) * (q ^ 3).factorial := by
  classical
  let pl : Coins C F m → List (Event (State F 3) C (Except Panic F)) := fun ω => simulated O A ω.1 (coin ω.2) m
  set P : Finset (Coins C F m) := Finset.univ.filter fun ω => E (pl ω) ∧ GoodRun O A ω.1 (coin ω.2) m with hP
  set T := P.image pl with hT
  set R : Finset (Equiv.Perm (State F 3)) := Finset.univ.filter fun π => E (play A π (fun x _ => O.run x π) m) with hR
  have hRc : {π : Equiv.Perm (State F 3) | E (play A π (fun x _ => O.run x π) m)}.ncard = R.card := by
    rw [← Set.ncard_coe_finset]
    congr 1
    ext π
    simp [hR]
  have hPs : P.card ≤ ∑ τ ∈ T, {ω | pl ω = τ}.ncard := by
    rw [Finset.card_eq_sum_card_fiberwise (t := T) (f := pl) fun p hp => Finset.mem_coe.2 (Finset.mem_image_of_mem _ hp)]
    refine Finset.sum_le_sum fun τ _ => ?_
    rw [← Set.ncard_coe_finset]
    exact Set.ncard_le_ncard (fun ω h => (Finset.mem_filter.1 h).2) (Set.toFinite _)
  have hRs : ∑ τ ∈ T, {π : Equiv.Perm (State F 3) | play A π (fun x _ => O.run x π) m = τ}.ncard ≤ R.card := by
    have : ∀ τ ∈ T, {π : Equiv.Perm (State F 3) | play A π (fun x _ => O.run x π) m = τ}.ncard =
        (R.filter fun π => play A π (fun x _ => O.run x π) m = τ).card := by
      intro τ hτ
      obtain ⟨p₀, hp₀, rfl⟩ := Finset.mem_image.1 hτ
      rw [← Set.ncard_coe_finset]
      congr 1
      ext π
      simp only [Finset.coe_filter, Set.mem_ofPred_eq, hR, Finset.mem_filter, Finset.mem_univ, true_and]
      refine ⟨fun h => ⟨?_, h⟩, fun h => h.2⟩
      rw [h]
      exact (Finset.mem_filter.1 hp₀).2.1
    rw [Finset.sum_congr rfl this, ← Finset.card_biUnion fun τ _ τ' _ h => ?_]
    · exact Finset.card_le_card fun π hπ => by
        obtain ⟨τ, -, h⟩ := Finset.mem_biUnion.1 hπ
        exact (Finset.mem_filter.1 h).1
    · change Disjoint _ _
      rw [Finset.disjoint_left]
      intro π h1 h2
      exact h ((Finset.mem_filter.1 h1).2.symm.trans (Finset.mem_filter.1 h2).2)
  have hgood : P.card * (q ^ 3).factorial ≤ R.card * Fintype.card (Coins C F m) := by
    refine le_trans (Nat.mul_le_mul_right _ hPs) (le_trans ?_ (Nat.mul_le_mul_right _ hRs))
    rw [Finset.sum_mul, Finset.sum_mul]
    refine Finset.sum_le_sum fun τ hτ => ?_
    obtain ⟨ω₀, hω₀, rfl⟩ := Finset.mem_image.1 hτ
    have hI := (Finset.mem_filter.1 hω₀).2.2.inv O A hv m le_rfl
    have h1 := ideal_count hq O hv A ω₀ hI
    have h2 := real_count hq O hv A hI (hd ω₀ (Finset.mem_filter.1 hω₀).2.2)
    calc _ ≤ {ω | pl ω = pl ω₀}.ncard * ({π : Equiv.Perm (State F 3) | play A π (fun x _ => O.run x π) m = pl ω₀}.ncard *
          (q ^ 3) ^ (pairsOf (asks (pl ω₀))).card) := Nat.mul_le_mul_left _ h2
      _ = {π : Equiv.Perm (State F 3) | play A π (fun x _ => O.run x π) m = pl ω₀}.ncard * ({ω | pl ω = pl ω₀}.ncard *
          (q ^ 3) ^ (pairsOf (asks (pl ω₀))).card) := by ring
      _ ≤ _ := Nat.mul_le_mul_left _ h1
  have hsplit : {ω : Coins C F m | E (simulated O A ω.1 (coin ω.2) m)}.ncard ≤
      P.card + {ω : Coins C F m | ¬ GoodRun O A ω.1 (coin ω.2) m}.ncard := by
    rw [← Set.ncard_coe_finset]
    refine (Set.ncard_le_ncard ?_ (Set.toFinite _)).trans (Set.ncard_union_le _ _)
    intro ω hω
    by_cases h : GoodRun O A ω.1 (coin ω.2) m
    · exact .inl (Finset.mem_coe.2 (Finset.mem_filter.2 ⟨Finset.mem_univ _, hω, h⟩))
    · exact .inr h
  have hbad := bad_runs (C := C) hq O A m
  rw [hRc]
  calc _ ≤ (P.card + {ω : Coins C F m | ¬ GoodRun O A ω.1 (coin ω.2) m}.ncard) * (q ^ 3).factorial * q :=
        Nat.mul_le_mul_right _ (Nat.mul_le_mul_right _ hsplit)
    _ = P.card * (q ^ 3).factorial * q + {ω : Coins C F m | ¬ GoodRun O A ω.1 (coin ω.2) m}.ncard * q * (q ^ 3).factorial := by
        ring
    _ ≤ _ := Nat.add_le_add (Nat.mul_le_mul_right _ hgood) (Nat.mul_le_mul_right _ hbad)

end

/-! ### Evaluating the calls in the end -/

section
variable {F : Type} [Field F] {C : Type} (O : Calls C F)

/-- The next point of a call that was not asked. -/
def Missing (τ : List (Event (State F 3) C (Except Panic F))) (s : State F 3) : Prop :=
  ∃ p ∈ calls τ, ∃ bs b t, bs ++ [b] <+: (O.enc p.1).2 ∧ Reach (asks τ) (O.enc p.1).1 bs t ∧ s = vec (add t b) ∧
    ∀ e ∈ asks τ, e.2.1 ≠ s

open Classical in
/-- The adversary who after `N` steps asks for the evaluations of the calls. -/
noncomputable def finish (A : List (Event (State F 3) C (Except Panic F)) → Move (State F 3) C) (N : ℕ) :
    List (Event (State F 3) C (Except Panic F)) → Move (State F 3) C := fun τ =>
  if τ.length < N then A τ else if h : ∃ s, Missing O τ s then .ask (true, h.choose) else .ask (true, 0)

variable (A : List (Event (State F 3) C (Except Panic F)) → Move (State F 3) C) (N : ℕ)

theorem simulated_finish (f : C → F) (coins : ℕ → State F 3) {k : ℕ} (hk : k ≤ N) :
    simulated O (finish O A N) f coins k = simulated O A f coins k := by
  induction k with
  | zero => rfl
  | succ k ih =>
    rw [simulated, simulated, ih (by omega), finish, simulated_length, if_pos (by omega)]

theorem play_finish (π : Equiv.Perm (State F 3)) (ans : C → ℕ → Except Panic F) {k : ℕ} (hk : k ≤ N) :
    play (finish O A N) π ans k = play A π ans k := by
  induction k with
  | zero => rfl
  | succ k ih =>
    rw [play, play, ih (by omega), finish, play_length, if_pos (by omega)]

theorem finish_ask {τ : List (Event (State F 3) C (Except Panic F))} (h : N ≤ τ.length) : ∃ s, finish O A N τ = .ask (true, s) := by
  by_cases h' : ∃ s, Missing O τ s
  · exact ⟨_, by rw [finish, if_neg (by omega), dif_pos h']⟩
  · exact ⟨_, by rw [finish, if_neg (by omega), dif_neg h']⟩

theorem calls_finish (f : C → F) (coins : ℕ → State F 3) (j : ℕ) :
    calls (simulated O (finish O A N) f coins (N + j)) = calls (simulated O A f coins N) := by
  induction j with
  | zero => rw [Nat.add_zero, simulated_finish O A N f coins le_rfl]
  | succ j ih =>
    rw [← Nat.add_assoc, simulated]
    obtain ⟨s, hs⟩ := finish_ask O A N (τ := simulated O (finish O A N) f coins (N + j)) (by rw [simulated_length]; omega)
    rw [hs]
    exact ih

theorem simulated_drop (f : C → F) (coins : ℕ → State F 3) (j : ℕ) :
    (simulated O A f coins (N + j)).drop j = simulated O A f coins N := by
  induction j with
  | zero => rfl
  | succ j ih => rw [← Nat.add_assoc, simulated, List.drop_succ_cons, ih]

theorem play_drop (π : Equiv.Perm (State F 3)) (ans : C → ℕ → Except Panic F) (j : ℕ) :
    (play A π ans (N + j)).drop j = play A π ans N := by
  induction j with
  | zero => rfl
  | succ j ih => rw [← Nat.add_assoc, play, List.drop_succ_cons, ih]

variable [DecidableEq F]

theorem sum_toFinset_le (l : List (F × List (F × F))) : ∑ x ∈ l.toFinset, x.2.length ≤ (l.map fun x => x.2.length).sum := by
  induction l with
  | nil => simp
  | cons a l ih =>
    rw [List.toFinset_cons, List.map_cons, List.sum_cons]
    by_cases h : a ∈ l.toFinset
    · rw [Finset.insert_eq_of_mem h]
      omega
    · rw [Finset.sum_insert h]
      omega

open Classical in
/-- After as many steps as there are blocks all calls are evaluated. -/
theorem finish_done (hv : ∀ x, O.valid x) {f : C → F} {coins : ℕ → State F 3} {σ : ℕ}
    (hσ : ((calls (simulated O A f coins N)).map fun p => (O.enc p.1).2.length).sum ≤ σ)
    (hg : GoodRun O (finish O A N) f coins (N + σ)) : Done O (simulated O (finish O A N) f coins (N + σ)) := by
  set xs : Finset (F × List (F × F)) := ((calls (simulated O A f coins N)).map fun p => O.enc p.1).toFinset with hxs
  have hxs' : ∀ x ∈ xs, ∃ p ∈ calls (simulated O A f coins N), O.enc p.1 = x := fun x hx => List.mem_map.1 (List.mem_toFinset.1 hx)
  let τ : ℕ → List (Event (State F 3) C (Except Panic F)) := fun j => simulated O (finish O A N) f coins (N + j)
  let U : ℕ → Finset (F × List (F × F)) := fun j => (beginnings xs).filter fun p => ¬ ∃ t, Reach (asks (τ j)) p.1 p.2 t
  have hsub : ∀ j, U (j + 1) ⊆ U j := by
    intro j p hp
    obtain ⟨h1, h2⟩ := Finset.mem_filter.1 hp
    refine Finset.mem_filter.2 ⟨h1, ?_⟩
    rintro ⟨t, ht⟩
    exact h2 ⟨t, ht.mono (simulated_mono O _ (by omega)).1⟩
  have hstep : ∀ j < σ, U j ≠ ∅ → U (j + 1) ⊂ U j := by
    intro j hj hne
    have hI : Inv O f (asks (τ j)) := hg.inv O _ hv (N + j) (by omega)
    have hcalls : calls (τ j) = calls (simulated O A f coins N) := calls_finish O A N f coins j
    have hM : ∃ s, Missing O (τ j) s := by
      obtain ⟨⟨c, ds⟩, hu, hmin⟩ := Finset.exists_min_image (U j) (fun p => p.2.length) (Finset.nonempty_of_ne_empty hne)
      obtain ⟨hb, hr⟩ := Finset.mem_filter.1 hu
      obtain ⟨x, hx, h1, h2, h3⟩ := mem_beginnings.1 hb
      obtain ⟨p, hp, rfl⟩ := hxs' x hx
      rcases List.eq_nil_or_concat' ds with rfl | ⟨bs, b, rfl⟩
      · exact absurd rfl h2
      have hreach : ∃ t, Reach (asks (τ j)) c bs t := by
        by_cases hbs : bs = []
        · subst hbs
          exact ⟨_, .nil⟩
        · by_contra hno
          have := hmin (c, bs) (Finset.mem_filter.2 ⟨parent_mem_beginnings hb hbs, hno⟩)
          simp at this
      obtain ⟨t, ht⟩ := hreach
      simp only at h1
      subst h1
      refine ⟨vec (add t b), p, hcalls ▸ hp, bs, b, t, h3, ht, rfl, ?_⟩
      intro e he h
      refine hr ⟨(e.2.2 0, e.2.2 1, e.2.2 2), .snoc b _ ht ⟨e, he, h, ?_⟩⟩
      funext i
      fin_cases i <;> rfl
    refine Finset.ssubset_iff_subset_ne.2 ⟨hsub j, fun heq => ?_⟩
    have hs := hM.choose_spec
    have hA : finish O A N (τ j) = .ask (true, hM.choose) := by
      rw [finish, if_neg (by rw [show (τ j).length = N + j from simulated_length O _ _ _ _]; omega), dif_pos hM]
    obtain ⟨p, hp, bs, b, t, h1, h2, h3, h4⟩ := hs
    have hmem : (O.enc p.1).1 = (O.enc p.1).1 ∧ ((O.enc p.1).1, bs ++ [b]) ∈ beginnings xs := ⟨rfl, mem_beginnings.2
      ⟨O.enc p.1, List.mem_toFinset.2 (List.mem_map.2 ⟨p, hcalls ▸ hp, rfl⟩), rfl, by simp, h1⟩⟩
    have hin : ((O.enc p.1).1, bs ++ [b]) ∈ U j := by
      refine Finset.mem_filter.2 ⟨hmem.2, ?_⟩
      rintro ⟨t', ht'⟩
      obtain ⟨t'', k1, e, he, k2, -⟩ := ht'.of_snoc
      rw [← hI.unique h2 k1] at k2
      exact h4 e he (k2.trans h3.symm)
    rw [← heq] at hin
    refine (Finset.mem_filter.1 hin).2 ?_
    have hτ : asks (τ (j + 1)) = simulate O f (coins (N + j)) (asks (τ j)) (true, hM.choose) :: asks (τ j) := by
      show asks (simulated O (finish O A N) f coins (N + j + 1)) = _
      rw [simulated, show finish O A N (simulated O (finish O A N) f coins (N + j)) = .ask (true, hM.choose) from hA]
      rfl
    obtain ⟨v, hv'⟩ := (simulate_fst O (f := f) (coin := coins (N + j)) (H := asks (τ j)) hM.choose).1
    refine ⟨(v 0, v 1, v 2), .snoc b _ (h2.mono fun e he => ?_) ⟨(true, hM.choose, v), ?_, h3, ?_⟩⟩
    · rw [hτ]
      exact List.mem_cons_of_mem _ he
    · rw [hτ, hv']
      exact List.mem_cons_self
    · funext i
      fin_cases i <;> rfl
  have hcard : ∀ j ≤ σ, (U j).card ≤ σ - j := by
    intro j
    induction j with
    | zero =>
      intro _
      refine (Finset.card_filter_le _ _).trans ((card_beginnings xs).trans ((sum_toFinset_le _).trans ?_))
      rw [List.map_map]
      exact hσ
    | succ j ih =>
      intro hj
      have ih := ih (by omega)
      by_cases hne : U j = ∅
      · have := hsub j
        rw [hne, Finset.subset_empty] at this
        rw [this]
        simp
      · have := Finset.card_lt_card (hstep j (by omega) hne)
        omega
  have hU : U σ = ∅ := by
    have := hcard σ le_rfl
    rw [Nat.sub_self, Nat.le_zero, Finset.card_eq_zero] at this
    exact this
  intro p hp
  rw [calls_finish] at hp
  by_contra hno
  have : O.enc p.1 ∈ U σ := Finset.mem_filter.2 ⟨self_mem_beginnings
    (List.mem_toFinset.2 (List.mem_map.2 ⟨p, hp, rfl⟩)) (O.ne_nil _ (hv _)), hno⟩
  rw [hU] at this
  exact absurd this (Finset.notMem_empty _)

end

section
variable {F : Type} [Field F] [Fintype F] [DecidableEq F] {C : Type} [Fintype C] [DecidableEq C]
variable {q : ℕ} (hq : Fintype.card F = q) (O : Calls C F) (hv : ∀ x, O.valid x)
  (A : List (Event (State F 3) C (Except Panic F)) → Move (State F 3) C)
include hq hv

/-- Whatever happens in the simulated game happens in the real game almost as often. -/
theorem simulated_le (N σ : ℕ)
    (hσ : ∀ (f : C → F) (coins : ℕ → State F 3), ((calls (simulated O A f coins N)).map fun p => (O.enc p.1).2.length).sum ≤ σ)
    (E : List (Event (State F 3) C (Except Panic F)) → Prop) :
    {ω : Coins C F N | E (simulated O A ω.1 (coin ω.2) N)}.ncard * (q ^ 3).factorial * q ≤
      {π : Equiv.Perm (State F 3) | E (play A π (fun x _ => O.run x π) N)}.ncard * Fintype.card (Coins C F N) * q +
      (N + σ) * (N + σ + O.roots.card) * Fintype.card (Coins C F N) * (q ^ 3).factorial := by
  have hq0 : 0 < q := hq ▸ Fintype.card_pos
  have h := done_le hq O hv (finish O A N) (N + σ) (fun ω hg => finish_done O A N hv (hσ _ _) hg) fun τ => E (τ.drop σ)
  have e1 : {ω : Coins C F (N + σ) | E ((simulated O (finish O A N) ω.1 (coin ω.2) (N + σ)).drop σ)} =
      {ω : Coins C F (N + σ) | E (simulated O A ω.1 (coin ω.2) N)} := by
    ext ω
    simp only [Set.mem_ofPred_eq, simulated_drop, simulated_finish O A N _ _ le_rfl]
  have e2 : {π : Equiv.Perm (State F 3) | E ((play (finish O A N) π (fun x _ => O.run x π) (N + σ)).drop σ)} =
      {π : Equiv.Perm (State F 3) | E (play A π (fun x _ => O.run x π) N)} := by
    ext π
    simp only [Set.mem_ofPred_eq, play_drop, play_finish O A N _ _ le_rfl]
  have e3 : Fintype.card (Coins C F (N + σ)) = Fintype.card (Coins C F N) * (q ^ 3) ^ σ := by
    rw [card_coins hq, card_coins hq, pow_add, Nat.mul_assoc]
  have e4 : {ω : Coins C F N | E (simulated O A ω.1 (coin ω.2) N)}.ncard * (q ^ 3) ^ σ ≤
      {ω : Coins C F (N + σ) | E (simulated O A ω.1 (coin ω.2) N)}.ncard := by
    have hc : (q ^ 3) ^ σ = (Set.univ : Set (Fin σ → State F 3)).ncard := by
      rw [Set.ncard_univ, Nat.card_eq_fintype_card, Fintype.card_fun, card_state, hq, Fintype.card_fin]
      ring
    rw [hc, ← Set.ncard_prod]
    refine Set.ncard_le_ncard_of_injOn (fun u => (u.1.1, Fin.append u.1.2 u.2)) ?_ ?_ (Set.toFinite _)
    · rintro ⟨ω, c⟩ ⟨hω, -⟩
      have hω : E (simulated O A ω.1 (coin ω.2) N) := hω
      show E (simulated O A ω.1 (coin (Fin.append ω.2 c)) N)
      rw [simulated_congr O A (coins' := coin ω.2)]
      · exact hω
      · intro j hj
        rw [coin, coin, dif_pos hj, dif_pos (by omega : j < N + σ)]
        exact Fin.append_left ω.2 c ⟨j, hj⟩
    · rintro ⟨⟨f, c⟩, d⟩ _ ⟨⟨f', c'⟩, d'⟩ _ h
      obtain ⟨h1, h2⟩ := Prod.mk.inj h
      simp only at h1 h2
      subst h1
      have h3 : c = c' := by
        funext i
        have := congrFun h2 (Fin.castAdd σ i)
        rwa [Fin.append_left, Fin.append_left] at this
      have h4 : d = d' := by
        funext i
        have := congrFun h2 (Fin.natAdd N i)
        rwa [Fin.append_right, Fin.append_right] at this
      rw [h3, h4]
  rw [e1, e2, e3] at h
  refine Nat.le_of_mul_le_mul_right (c := (q ^ 3) ^ σ) ?_ (by positivity)
  set X := {ω : Coins C F N | E (simulated O A ω.1 (coin ω.2) N)}.ncard
  set Y := {ω : Coins C F (N + σ) | E (simulated O A ω.1 (coin ω.2) N)}.ncard
  set K := Fintype.card (Coins C F N)
  set Z := {π : Equiv.Perm (State F 3) | E (play A π (fun x _ => O.run x π) N)}.ncard
  calc X * (q ^ 3).factorial * q * (q ^ 3) ^ σ = X * (q ^ 3) ^ σ * (q ^ 3).factorial * q := by ring
    _ ≤ Y * (q ^ 3).factorial * q := Nat.mul_le_mul_right _ (Nat.mul_le_mul_right _ e4)
    _ ≤ _ := h
    _ = _ := by ring

end

/-! ### Values of the random function -/

section
variable {F : Type} [Field F] {C : Type} (O : Calls C F)
  (A : List (Event (State F 3) C (Except Panic F)) → Move (State F 3) C)

open Classical in
/-- The call at which the function is evaluated in a step, by the adversary or by the simulator. -/
noncomputable def touch (τ : List (Event (State F 3) C (Except Panic F))) : Option C :=
  match A τ with
  | .call x => some x
  | .ask (true, s) =>
    if ∃ e ∈ asks τ, e.2.1 = s then none else if h : ∃ x, Completes O (asks τ) s x then some h.choose else none
  | .ask (false, _) => none

/-- Other values of the function do not matter for a step. -/
theorem step_congr {f f' : C → F} {c : State F 3} {τ : List (Event (State F 3) C (Except Panic F))}
    (h : ∀ x, touch O A τ = some x → f x = f' x) :
    (match A τ with
    | .ask q => .asked (simulate O f c (asks τ) q)
    | .call x => .called x (.ok (f x)) : Event (State F 3) C (Except Panic F)) = match A τ with
    | .ask q => .asked (simulate O f' c (asks τ) q)
    | .call x => .called x (.ok (f' x)) := by
  simp only [touch] at h
  cases hA : A τ with
  | call x =>
    rw [hA] at h
    simp only [Event.called.injEq, true_and]
    rw [h x rfl]
  | ask a =>
    rw [hA] at h
    obtain ⟨d, s⟩ := a
    cases d with
    | false => rfl
    | true =>
      simp only [Event.asked.injEq]
      by_cases h1 : ∃ e ∈ asks τ, e.2.1 = s
      · simp only [simulate, dif_pos h1]
      · by_cases h2 : ∃ x, Completes O (asks τ) s x
        · simp only [if_neg h1, dif_pos h2] at h
          simp only [simulate, dif_neg h1, dif_pos h2]
          rw [h _ rfl]
        · simp only [simulate, dif_neg h1, dif_neg h2]

theorem simulated_update [DecidableEq C] {f : C → F} {coins : ℕ → State F 3} {k : ℕ} {x : C} (y : F)
    (h : ∀ j < k, touch O A (simulated O A f coins j) ≠ some x) :
    simulated O A (Function.update f x y) coins k = simulated O A f coins k := by
  induction k with
  | zero => rfl
  | succ k ih =>
    rw [simulated, simulated, ih fun j hj => h j (hj.trans (Nat.lt_succ_self k))]
    congr 1
    refine step_congr O A fun x' hx' => ?_
    rw [Function.update_of_ne]
    rintro rfl
    exact h k (Nat.lt_succ_self k) hx'

/-- The calls are answered by the function, in steps that evaluate it. -/
theorem simulated_calls {f : C → F} {coins : ℕ → State F 3} (k : ℕ) : ∀ p ∈ calls (simulated O A f coins k),
    p.2.2 = .ok (f p.1) ∧ ∃ j < k, touch O A (simulated O A f coins j) = some p.1 := by
  induction k with
  | zero => exact fun p hp => absurd hp List.not_mem_nil
  | succ k ih =>
    have old : ∀ p ∈ calls (simulated O A f coins k), p.2.2 = .ok (f p.1) ∧
        ∃ j < k + 1, touch O A (simulated O A f coins j) = some p.1 := fun p hp => by
      obtain ⟨h1, j, hj, h2⟩ := ih p hp
      exact ⟨h1, j, hj.trans (Nat.lt_succ_self k), h2⟩
    intro p hp
    rw [simulated] at hp
    cases h : A (simulated O A f coins k) with
    | ask q =>
      rw [h] at hp
      exact old p hp
    | call x =>
      rw [h] at hp
      rcases List.mem_cons.1 hp with rfl | hp
      · exact ⟨rfl, k, Nat.lt_succ_self k, by simp only [touch, h]⟩
      · exact old p hp

variable [Fintype F] [DecidableEq F] [Fintype C] [DecidableEq C]

/-- Values of the function in given sets are rare among those that were evaluated. -/
theorem touch_le {q : ℕ} (hq : Fintype.card F = q) (N s : ℕ) (S : C → Finset F) (hS : ∀ x, (S x).card ≤ s) :
    {ω : Coins C F N | ∃ j < N, ∃ x, touch O A (simulated O A ω.1 (coin ω.2) j) = some x ∧ ω.1 x ∈ S x}.ncard * q ≤
      N * s * Fintype.card (Coins C F N) := by
  classical
  let g : ℕ → Coins C F N → Option C := fun j ω => touch O A (simulated O A ω.1 (coin ω.2) j)
  let T : ℕ → Finset (Coins C F N) := fun j => Finset.univ.filter fun ω =>
    ∃ x, g j ω = some x ∧ (∀ i < j, g i ω ≠ some x) ∧ ω.1 x ∈ S x
  have one : ∀ j, (T j).card * q ≤ s * Fintype.card (Coins C F N) := by
    intro j
    let B : Coins C F N → Finset F := fun ω => match g j ω with
      | some x => S x
      | none => ∅
    have hB : ∀ ω, (B ω).card ≤ s := by
      intro ω
      simp only [B]
      cases g j ω with
      | none => exact Nat.zero_le _
      | some x => exact hS x
    have h2 : ((Finset.univ : Finset (Coins C F N)).sigma B).card ≤ s * Fintype.card (Coins C F N) := by
      rw [Finset.card_sigma]
      refine (Finset.sum_le_card_nsmul _ _ _ fun ω _ => hB ω).trans (le_of_eq ?_)
      rw [Finset.card_univ, smul_eq_mul, Nat.mul_comm]
    have upd : ∀ ω x y, (∀ i < j, g i ω ≠ some x) → ∀ i ≤ j, g i (Function.update ω.1 x y, ω.2) = g i ω := by
      intro ω x y h i hi
      simp only [g]
      rw [simulated_update O A y fun k hk => h k (by omega)]
    rw [← hq, ← Finset.card_univ (α := F), ← Finset.card_product]
    refine le_trans (Finset.card_le_card_of_injOn (fun u => match g j u.1 with
      | some x => (⟨(Function.update u.1.1 x u.2, u.1.2), u.1.1 x⟩ : (_ : Coins C F N) × F)
      | none => ⟨u.1, 0⟩) ?_ ?_) h2
    · rintro ⟨ω, y⟩ hu
      obtain ⟨x, h1, h3, h4⟩ := (Finset.mem_filter.1 (Finset.mem_product.1 (Finset.mem_coe.1 hu)).1).2
      simp only at h1 h3 h4
      simp only [h1]
      refine Finset.mem_coe.2 (Finset.mem_sigma.2 ⟨Finset.mem_univ _, ?_⟩)
      simp only [B, upd ω x y h3 j le_rfl, h1]
      exact h4
    · rintro ⟨ω, y⟩ hu ⟨ω', y'⟩ hu' h
      obtain ⟨x, h1, h3, -⟩ := (Finset.mem_filter.1 (Finset.mem_product.1 (Finset.mem_coe.1 hu)).1).2
      obtain ⟨x', h1', h3', -⟩ := (Finset.mem_filter.1 (Finset.mem_product.1 (Finset.mem_coe.1 hu')).1).2
      simp only at h1 h3 h1' h3'
      simp only [h1, h1', Sigma.mk.injEq, Prod.mk.injEq, heq_eq_eq] at h
      obtain ⟨⟨e1, e2⟩, e3⟩ := h
      have hx : x = x' := by
        have k1 := upd ω x y h3 j le_rfl
        have k2 := upd ω' x' y' h3' j le_rfl
        rw [e1, e2, k2, h1, h1'] at k1
        exact (Option.some.inj k1).symm
      subst hx
      have hy : y = y' := by
        have := congrFun e1 x
        rwa [Function.update_self, Function.update_self] at this
      subst hy
      have hf : ω.1 = ω'.1 := by
        funext z
        by_cases hz : z = x
        · subst hz
          exact e3
        · have := congrFun e1 z
          rwa [Function.update_of_ne hz, Function.update_of_ne hz] at this
      exact Prod.ext (Prod.ext hf e2) rfl
  have hsub : {ω : Coins C F N | ∃ j < N, ∃ x, touch O A (simulated O A ω.1 (coin ω.2) j) = some x ∧ ω.1 x ∈ S x}.ncard ≤
      ((Finset.range N).biUnion T).card := by
    rw [← Set.ncard_coe_finset]
    refine Set.ncard_le_ncard ?_ (Set.toFinite _)
    rintro ω ⟨j, hj, x, h1, h2⟩
    have hex : ∃ j, g j ω = some x := ⟨j, h1⟩
    have hle := Nat.find_min' hex h1
    refine Finset.mem_coe.2 (Finset.mem_biUnion.2 ⟨Nat.find hex, Finset.mem_range.2 (by omega),
      Finset.mem_filter.2 ⟨Finset.mem_univ _, x, Nat.find_spec hex, fun i hi => Nat.find_min hex hi, h2⟩⟩)
  refine (Nat.mul_le_mul_right _ (hsub.trans Finset.card_biUnion_le)).trans ?_
  rw [Finset.sum_mul]
  refine (Finset.sum_le_card_nsmul _ _ _ fun j _ => one j).trans (le_of_eq ?_)
  rw [Finset.card_range, smul_eq_mul, Nat.mul_assoc]

end

end Simulate
end Props
