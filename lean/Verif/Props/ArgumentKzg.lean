import Verif.Halo2.ArgumentKzg
import Verif.Props.Opening
import Verif.Props.ArgumentProves
import Verif.Props.ArgumentHiding

/-!
# Proofs with commitments
-/

set_option linter.unusedSectionVars false
set_option linter.unusedVariables false

namespace Halo2
open Polynomial

variable {F : Type} [Field F]

namespace Key

/-- The values are those of the polynomials. -/
def RightValues (K : Key F) (m : Messages F) (h : ℕ → F[X]) (ev : Values F) (x : F) : Prop :=
  ∀ q ∈ K.queries, q.1 ≠ .quotient → ev q.1 q.2 = (K.polynomials m h x q.1).eval (K.ω ^ q.2 * x)

/-- No polynomial is opened twice at the same point: rotations of one polynomial are different modulo the number of rows. -/
def Apart (K : Key F) : Prop :=
  ∀ l k k', (l, k) ∈ K.queries → (l, k') ∈ K.queries → (K.n : ℤ) ∣ k - k' → k = k'

theorem mem_queries_col {K : Key F} {c : Col} {k : ℤ} : (Label.col c, k) ∈ K.queries ↔
    (∃ e ∈ K.exprs, (c, k) ∈ e.queries) ∨ (c ∈ K.cols ∧ k = 0) := by
  simp only [queries, List.mem_append, List.mem_map, List.mem_dedup, List.mem_flatMap, List.mem_cons,
    List.mem_range, List.not_mem_nil, Prod.mk.injEq, Label.col.injEq, reduceCtorEq, false_and, and_false, exists_false,
    or_false]
  constructor
  · rintro ((⟨⟨c', k'⟩, h, rfl, rfl⟩ | ⟨i, -, h⟩))
    · rcases h with h | ⟨c, hc, h⟩
      · exact Or.inl h
      · rw [Prod.mk.injEq] at h
        exact Or.inr ⟨h.1 ▸ hc, h.2.symm⟩
    · split_ifs at h <;> simp at h
  · intro h
    refine Or.inl ⟨(c, k), ?_, rfl, rfl⟩
    rcases h with h | ⟨h, rfl⟩
    · exact Or.inl h
    · exact Or.inr ⟨c, h, rfl⟩

theorem mem_queries_selector {K : Key F} {s : ℕ} (h : ∃ e ∈ K.exprs, s ∈ e.sels) : (Label.selector s, 0) ∈ K.queries := by
  simp only [queries, List.mem_append]
  refine Or.inl (Or.inl (Or.inr ?_))
  rw [List.mem_map]
  refine ⟨s, ?_, rfl⟩
  rw [List.mem_dedup, List.mem_flatMap]
  exact h

theorem mem_queries_sigma {K : Key F} {j : ℕ} (h : j < K.cols.length) : (Label.sigma j, 0) ∈ K.queries := by
  simp only [queries, List.mem_append]
  refine Or.inl (Or.inr ?_)
  rw [List.mem_map]
  exact ⟨j, List.mem_range.mpr h, rfl⟩

theorem mem_queries_zPerm {K : Key F} {i : ℕ} (h : i < K.chunks) :
    (Label.zPerm i, 0) ∈ K.queries ∧ (Label.zPerm i, 1) ∈ K.queries ∧
      (i + 1 < K.chunks → (Label.zPerm i, K.lastRot) ∈ K.queries) := by
  have key : ∀ k, k ∈ ([0, 1] ++ if i + 1 < K.chunks then [K.lastRot] else []) → (Label.zPerm i, k) ∈ K.queries := by
    intro k hk
    simp only [queries, List.mem_append]
    refine Or.inl (Or.inl (Or.inl (Or.inl (Or.inr ?_))))
    rw [List.mem_flatMap]
    refine ⟨i, List.mem_range.mpr h, ?_⟩
    split_ifs at hk ⊢ <;> simpa using hk
  exact ⟨key 0 (by simp), key 1 (by simp), fun h' => key _ (by simp [h'])⟩

theorem mem_queries_lookup {K : Key F} {i : ℕ} (h : i < K.lookups.length) :
    (Label.zLookup i, 0) ∈ K.queries ∧ (Label.zLookup i, 1) ∈ K.queries ∧ (Label.input i, 0) ∈ K.queries ∧
      (Label.input i, -1) ∈ K.queries ∧ (Label.table i, 0) ∈ K.queries := by
  have key : ∀ q : Label × ℤ, q ∈ [(Label.zLookup i, 0), (.input i, 0), (.table i, 0), (.input i, -1), (.zLookup i, 1)] →
      q ∈ K.queries := by
    intro q hq
    simp only [queries, List.mem_append]
    refine Or.inl (Or.inl (Or.inl (Or.inr ?_)))
    rw [List.mem_flatMap]
    exact ⟨i, List.mem_range.mpr h, hq⟩
  exact ⟨key _ (by simp), key _ (by simp), key _ (by simp), key _ (by simp), key _ (by simp)⟩

theorem mem_queries_quotient {K : Key F} : (Label.quotient, 0) ∈ K.queries := by
  simp [queries]

/-- Expressions depend on what they query. -/
theorem evalAt_same {o o' : Opened F} : ∀ {e : Expr F},
    (∀ i k, (Col.advice i, k) ∈ e.queries → o.advice i k = o'.advice i k) →
    (∀ i k, (Col.fixed i, k) ∈ e.queries → o.fixed i k = o'.fixed i k) →
    (∀ i ∈ e.sels, o.selector i = o'.selector i) → e.evalAt o = e.evalAt o'
  | .const _, _, _, _ => rfl
  | .selector i, _, _, h => h i (List.mem_singleton_self _)
  | .fixed i k, _, h, _ => h i k (List.mem_singleton_self _)
  | .advice i k, h, _, _ => h i k (List.mem_singleton_self _)
  | .neg e, h, h', h'' => congrArg (fun a => -a) (evalAt_same (e := e) h h' h'')
  | .add _ _, h, h', h'' => congrArg₂ (· + ·)
      (evalAt_same (fun i k hq => h i k (List.mem_append_left _ hq)) (fun i k hq => h' i k (List.mem_append_left _ hq))
        fun i hq => h'' i (List.mem_append_left _ hq))
      (evalAt_same (fun i k hq => h i k (List.mem_append_right _ hq)) (fun i k hq => h' i k (List.mem_append_right _ hq))
        fun i hq => h'' i (List.mem_append_right _ hq))
  | .mul _ _, h, h', h'' => congrArg₂ (· * ·)
      (evalAt_same (fun i k hq => h i k (List.mem_append_left _ hq)) (fun i k hq => h' i k (List.mem_append_left _ hq))
        fun i hq => h'' i (List.mem_append_left _ hq))
      (evalAt_same (fun i k hq => h i k (List.mem_append_right _ hq)) (fun i k hq => h' i k (List.mem_append_right _ hq))
        fun i hq => h'' i (List.mem_append_right _ hq))
  | .scaled a c, h, h', h'' => congrArg (· * c) (evalAt_same (e := a) h h' h'')

theorem compress_sels (θ : F) (es : List (Expr F)) {q : ℕ} (h : q ∈ (compress θ es).sels) : ∃ e ∈ es, q ∈ e.sels := by
  have key : ∀ (es : List (Expr F)) (a : Expr F), q ∈ (es.foldl (fun acc e => .add (.scaled acc θ) e) a).sels →
      q ∈ a.sels ∨ ∃ e ∈ es, q ∈ e.sels := by
    intro es
    induction es with
    | nil => intro a h; exact Or.inl h
    | cons e es ih =>
      intro a h
      rcases ih _ h with h | ⟨e', he', h⟩
      · rcases List.mem_append.mp h with h | h
        · exact Or.inl h
        · exact Or.inr ⟨e, List.mem_cons_self, h⟩
      · exact Or.inr ⟨e', List.mem_cons_of_mem _ he', h⟩
  rcases key es (.const 0) h with h | h
  · cases h
  · exact h

/-- With right values the verifier computes the terms of the argument. -/
theorem terms_claimed {K : Key F} {m : Messages F} {h : ℕ → F[X]} {ev : Values F} {x : F} (hr : K.RightValues m h ev x)
    (θ β γ : F) : terms K θ β γ (K.claimed ev x) = terms K θ β γ (K.opened m x) := by
  have hcol : ∀ c k, (∃ e ∈ K.exprs, (c, k) ∈ e.queries) ∨ (c ∈ K.cols ∧ k = 0) →
      ev (.col c) k = (K.polynomials m h x (.col c)).eval (K.ω ^ k * x) :=
    fun c k hc => hr _ (mem_queries_col.mpr hc) (by simp)
  have hsel : ∀ s, (∃ e ∈ K.exprs, s ∈ e.sels) → (K.claimed ev x).selector s = (K.opened m x).selector s := by
    intro s hs
    have := hr _ (mem_queries_selector hs) (by simp)
    simpa [polynomials, claimed, opened] using this
  have hex : ∀ e : Expr F, (∀ q ∈ e.queries, ∃ e' ∈ K.exprs, q ∈ e'.queries) → (∀ s ∈ e.sels, ∃ e' ∈ K.exprs, s ∈ e'.sels) →
      e.evalAt (K.claimed ev x) = e.evalAt (K.opened m x) := fun e h1 h2 =>
    evalAt_same (fun i k hk => hcol (.advice i) k (Or.inl (h1 _ hk))) (fun i k hk => hcol (.fixed i) k (Or.inl (h1 _ hk)))
      fun s hs => hsel s (h2 s hs)
  have hcols : ∀ j : Fin K.cols.length, (K.claimed ev x).col (K.cols.get j) = (K.opened m x).col (K.cols.get j) := by
    intro j
    have hmem : K.cols.get j ∈ K.cols := List.get_mem _ _
    cases hj : K.cols.get j with
    | fixed i => exact hcol (.fixed i) 0 (Or.inr ⟨hj ▸ hmem, rfl⟩)
    | advice i => exact hcol (.advice i) 0 (Or.inr ⟨hj ▸ hmem, rfl⟩)
  have hsig : ∀ j : Fin K.cols.length, (K.claimed ev x).sigma j = (K.opened m x).sigma j := by
    intro j
    have := hr _ (mem_queries_sigma j.2) (by simp)
    simpa [polynomials, claimed, opened] using this
  unfold terms
  congr 1
  · congr 1
    · unfold gateTerms
      refine List.flatMap_congr fun p hp => List.map_congr_left fun e he => ?_
      have : e ∈ K.exprs := List.mem_append_left _ (List.mem_flatMap.mpr ⟨p, hp, he⟩)
      exact hex e (fun q hq => ⟨e, this, hq⟩) fun s hs => ⟨e, this, hs⟩
    · unfold permTerms
      split_ifs with hc
      · rfl
      · have z : ∀ i < K.chunks, (K.claimed ev x).zPerm i = (K.opened m x).zPerm i ∧
            (K.claimed ev x).zPermNext i = (K.opened m x).zPermNext i ∧
            (i + 1 < K.chunks → (K.claimed ev x).zPermLast i = (K.opened m x).zPermLast i) := by
          intro i hi
          obtain ⟨h1, h2, h3⟩ := mem_queries_zPerm hi
          refine ⟨?_, hr _ h2 (by simp), fun h' => hr _ (h3 h') (by simp)⟩
          have := hr _ h1 (by simp)
          simpa [polynomials, claimed, opened] using this
        congr 1
        · congr 1
          · rw [(z 0 (by omega)).1, (z (K.chunks - 1) (by omega)).1]
            rfl
          · refine List.map_congr_left fun i hi => ?_
            rw [List.mem_range] at hi
            rw [(z (i + 1) (by omega)).1, (z i (by omega)).2.2 (by omega)]
            rfl
        · refine List.map_congr_left fun i hi => ?_
          rw [List.mem_range] at hi
          rw [(z i hi).1, (z i hi).2.1]
          simp only [hcols, hsig]
          rfl
  · refine List.flatMap_congr fun li hli => ?_
    obtain ⟨q, i⟩ := li
    obtain ⟨-, hi, e⟩ := List.mem_zipIdx hli
    simp only [Nat.zero_add, List.length_map, List.getElem_map] at hi e
    have hall : ∀ p ∈ K.lookups[i].pairs, p.1 ∈ K.exprs ∧ p.2 ∈ K.exprs := by
      intro p hp
      have : K.lookups[i] ∈ K.lookups := List.getElem_mem hi
      constructor <;> refine List.mem_append_right _ (List.mem_flatMap.mpr ⟨_, this, List.mem_flatMap.mpr ⟨p, hp, ?_⟩⟩) <;>
        simp
    have h1 : q.1.evalAt (K.claimed ev x) = q.1.evalAt (K.opened m x) := by
      rw [e]
      refine hex _ (fun q hq => ?_) fun s hs => ?_
      · obtain ⟨e', he', hq⟩ := compress_queries _ _ hq
        obtain ⟨p, hp, rfl⟩ := List.mem_map.mp he'
        exact ⟨_, (hall p hp).1, hq⟩
      · obtain ⟨e', he', hq⟩ := compress_sels _ _ hs
        obtain ⟨p, hp, rfl⟩ := List.mem_map.mp he'
        exact ⟨_, (hall p hp).1, hq⟩
    have h2 : q.2.evalAt (K.claimed ev x) = q.2.evalAt (K.opened m x) := by
      rw [e]
      refine hex _ (fun q hq => ?_) fun s hs => ?_
      · obtain ⟨e', he', hq⟩ := compress_queries _ _ hq
        obtain ⟨p, hp, rfl⟩ := List.mem_map.mp he'
        exact ⟨_, (hall p hp).2, hq⟩
      · obtain ⟨e', he', hq⟩ := compress_sels _ _ hs
        obtain ⟨p, hp, rfl⟩ := List.mem_map.mp he'
        exact ⟨_, (hall p hp).2, hq⟩
    obtain ⟨g1, g2, g3, g4, g5⟩ := mem_queries_lookup hi
    have k1 : (K.claimed ev x).zLookup i = (K.opened m x).zLookup i := by
      have := hr _ g1 (by simp)
      simpa [polynomials, claimed, opened] using this
    have k2 : (K.claimed ev x).zLookupNext i = (K.opened m x).zLookupNext i := hr _ g2 (by simp)
    have k3 : (K.claimed ev x).pInput i = (K.opened m x).pInput i := by
      have := hr _ g3 (by simp)
      simpa [polynomials, claimed, opened] using this
    have k4 : (K.claimed ev x).pInputPrev i = (K.opened m x).pInputPrev i := hr _ g4 (by simp)
    have k5 : (K.claimed ev x).pTable i = (K.opened m x).pTable i := by
      have := hr _ g5 (by simp)
      simpa [polynomials, claimed, opened] using this
    unfold lookupTerms
    simp only [h1, h2, k1, k2, k3, k4, k5]
    rfl

theorem polynomials_degree {K : Key F} (hω : IsPrimitiveRoot K.ω K.n) {m : Messages F} (hm : m.Short K.n) {h : ℕ → F[X]}
    (hh : ∀ i, (h i).degree < K.n) (x : F) (l : Label) : (K.polynomials m h x l).degree < K.n := by
  cases l with
  | col c => cases c with
    | advice c => exact hm.advice c
    | fixed c => exact interp_degree hω _
  | selector s => exact interp_degree hω _
  | sigma j => exact interp_degree hω _
  | input i => exact hm.input i
  | table i => exact hm.table i
  | zPerm i => exact hm.zPerm i
  | zLookup i => exact hm.zLookup i
  | quotient => exact Shplonk.degree_sum_lt _ fun i _ => Shplonk.degree_C_mul_lt (hh i) _

theorem commitments_eq {G : Type} [AddCommGroup G] [Module F G] {K : Key F} (hω : IsPrimitiveRoot K.ω K.n) (τ : F) (g : G)
    {m : Messages F} (hm : m.Short K.n) {h : ℕ → F[X]} (hh : ∀ i, (h i).degree < K.n) (x : F) :
    K.commitments τ g m h x = fun l => commit τ g K.n (K.polynomials m h x l) := by
  funext l
  cases l with
  | quotient =>
    rw [commit_eq τ g (polynomials_degree hω hm hh x .quotient)]
    simp only [commitments, polynomials, eval_finsetSum, eval_mul, eval_C, Finset.sum_smul]
    refine Finset.sum_congr rfl fun i _ => ?_
    rw [commit_eq τ g (hh i), smul_smul]
  | _ => rfl

/-- Right values and the expected quotient are what the verifier of the argument checks. -/
theorem check_of_right {K : Key F} {m : Messages F} {h : ℕ → F[X]} {ev : Values F} {θ β γ y x : F} (hx : x ^ K.n ≠ 1)
    (hr : ∀ q ∈ K.claims ev θ β γ y x, q.eval = (K.polynomials m h x q.label).eval q.point) :
    K.Check m h θ β γ y x := by
  have h1 : K.RightValues m h ev x := by
    intro q hq hne
    have := hr _ (List.mem_map_of_mem hq)
    simpa [hne] using this
  have h2 := hr _ (List.mem_map_of_mem (mem_queries_quotient (K := K)))
  simp only [if_true, expectedQuotient, polynomials, eval_finsetSum, eval_mul, eval_C, zpow_zero, one_mul] at h2
  refine ⟨hx, ?_⟩
  rw [← terms_claimed h1, ← h2, div_mul_cancel₀ _ (sub_ne_zero.mpr hx)]

/-- Conversely, claims are right if the values are and the check passes. -/
theorem right_of_check {K : Key F} {m : Messages F} {h : ℕ → F[X]} {ev : Values F} {θ β γ y x : F}
    (hr : K.RightValues m h ev x) (hc : K.Check m h θ β γ y x) :
    ∀ q ∈ K.claims ev θ β γ y x, q.eval = (K.polynomials m h x q.label).eval q.point := by
  intro q hq
  obtain ⟨⟨l, k⟩, hm, rfl⟩ := List.mem_map.mp hq
  by_cases hl : l = .quotient
  · subst hl
    have hk : k = 0 := by
      simp only [queries, List.mem_append, List.mem_map, List.mem_flatMap, List.mem_cons,
        List.not_mem_nil, Prod.mk.injEq, reduceCtorEq, false_and, and_false, exists_false, false_or, or_false] at hm
      rcases hm with ⟨i, -, hm⟩ | hm
      · split_ifs at hm <;> simp at hm
      · exact hm.2
    subst hk
    simp only [if_true, expectedQuotient, polynomials, eval_finsetSum, eval_mul, eval_C, zpow_zero, one_mul]
    rw [terms_claimed hr, hc.2, mul_div_cancel_right₀ _ (sub_ne_zero.mpr hc.1)]
  · simp only [if_neg hl]
    exact hr _ hm hl

theorem claims_first {K : Key F} (hn : K.n ≠ 0) (hω : IsPrimitiveRoot K.ω K.n) (ha : K.Apart) {ev : Values F} {θ β γ y x : F} (hx : x ≠ 0)
    {q q' : Query Label F} (hq : q ∈ K.claims ev θ β γ y x) (hq' : q' ∈ K.claims ev θ β γ y x) (hl : q'.label = q.label)
    (hp : q'.point = q.point) : q' = q := by
  obtain ⟨⟨l, k⟩, hm, rfl⟩ := List.mem_map.mp hq
  obtain ⟨⟨l', k'⟩, hm', rfl⟩ := List.mem_map.mp hq'
  simp only at hl hp
  subst hl
  have h1 := mul_right_cancel₀ hx hp
  have hk : k' = k := by
    refine ha l' k' k hm' hm ?_
    have hω0 : K.ω ≠ 0 := hω.ne_zero hn
    rw [← hω.zpow_eq_one_iff_dvd, zpow_sub₀ hω0, h1, div_self (zpow_ne_zero _ hω0)]
  rw [hk]

theorem claims_length (K : Key F) (ev : Values F) (θ β γ y x : F) :
    (K.claims ev θ β γ y x).length = K.queries.length := List.length_map _

end Key

variable [Fintype F] {G G2 GT : Type} [AddCommGroup G] [Module F G] [AddCommGroup G2] [Module F G2] [AddCommGroup GT]
  [Module F GT]

/-- Proofs with commitments show `good`. A prover that knows the polynomials behind its commitments either has committed
to an assignment with `good`, or for all challenges but a few the verifier does not accept unless the secret of the
parameters is a root of a polynomial of degree at most `n`, not zero, that is computed from the polynomials of the prover. -/
def Key.ProvesKzg (K : Key F) (E : Pairing F G G2 GT) (good : Grid F → Prop) : Prop :=
  ∀ P : KzgProver F, P.Short K.n → good (K.grid P.advice) ∨
    ∃ R : (F × F × F × F × F) × F × F × F → F[X], (∀ c, (R c).natDegree ≤ K.n) ∧ ∀ τ,
      (∀ c, P.Accepts K E τ c → (R c).eval τ = 0) ∧
      Nat.card {c // P.Accepts K E τ c ∧ R c = 0} ≤
        (K.slack + 3 * K.queries.length + K.n + 1) * Fintype.card F ^ 7

namespace KzgProver

/-- What the verifier checks to be zero at the secret. -/
noncomputable def residue (P : KzgProver F) (K : Key F) (c : (F × F × F × F × F) × F × F × F) : F[X] :=
  Shplonk.residue (K.claims (P.values c.1) c.1.1 c.1.2.1 c.1.2.2.1 c.1.2.2.2.1 c.1.2.2.2.2)
    (K.polynomials (P.messages c.1.1 c.1.2.1 c.1.2.2.1) (P.quotient c.1.1 c.1.2.1 c.1.2.2.1 c.1.2.2.2.1) c.1.2.2.2.2)
    (P.first c.1 c.2.1 c.2.2.1) (P.second c.1 c.2.1 c.2.2.1 c.2.2.2) c.2.1 c.2.2.1 c.2.2.2

theorem messages_short {P : KzgProver F} {n : ℕ} (hP : P.Short n) (θ β γ : F) : (P.messages θ β γ).Short n :=
  ⟨hP.prover.advice, hP.prover.input θ, hP.prover.table θ, hP.prover.zPerm θ β γ, hP.prover.zLookup θ β γ⟩

open Classical in
theorem accepts_residue {P : KzgProver F} {K : Key F} (hω : IsPrimitiveRoot K.ω K.n) (hP : P.Short K.n)
    (E : Pairing F G G2 GT) (τ : F) (c : (F × F × F × F × F) × F × F × F) : P.Accepts K E τ c ↔
      c.1.2.2.2.2 ^ K.n ≠ 1 ∧
      Shplonk.vanish (Shplonk.superSet (K.claims (P.values c.1) c.1.1 c.1.2.1 c.1.2.2.1 c.1.2.2.2.1 c.1.2.2.2.2) \
        Shplonk.firstSet (K.claims (P.values c.1) c.1.1 c.1.2.1 c.1.2.2.1 c.1.2.2.2.1 c.1.2.2.2.2)) c.2.2.2 ≠ 0 ∧
      (P.residue K c).eval τ = 0 := by
  unfold Accepts
  rw [Key.commitments_eq hω τ E.g (messages_short hP _ _ _) (hP.prover.quotient _ _ _ _),
    Shplonk.accepts_iff E τ (Key.polynomials_degree hω (messages_short hP _ _ _) (hP.prover.quotient _ _ _ _) _)
      (hP.first _ _ _) (hP.second _ _ _ _)]
  rfl

/-- If the prover has not committed to a good assignment, the check is an identity of polynomials for few challenges. -/
theorem count_identity {P : KzgProver F} {K : Key F} (hn : K.n ≠ 0) (hω : IsPrimitiveRoot K.ω K.n) (ha : K.Apart)
    (hP : P.Short K.n) (hc : Nat.card {c // P.Convinces K c} ≤ K.slack * Fintype.card F ^ 4) (E : Pairing F G G2 GT) (τ : F) :
    count (fun c => P.Accepts K E τ c ∧ P.residue K c = 0) ≤
      (K.slack + 3 * K.queries.length + K.n + 1) * Fintype.card F ^ 7 := by
  classical
  rw [nat_card_eq_count] at hc
  have hx : count (fun c : F × F × F × F × F => c.2.2.2.2 = 0) ≤ Fintype.card F ^ 4 := by
    have h1 : count (fun x : F => x = 0) ≤ 1 := by
      have := count_roots (P := (X : F[X])) X_ne_zero (d := 1) natDegree_X_le
      simpa using this
    have h4 := fun a : F => h1
    have e : ∀ {A : Type} [Fintype A] (p : A → Prop) {N : ℕ}, count p ≤ N →
        count (fun c : F × A => p c.2) ≤ Fintype.card F * N := by
      intro A _ p N hN
      have := count_fibre (p := fun c : F × A => p c.2) (bad := fun _ => False) (T := 0) (N := N)
        (le_of_eq (count_false fun _ h => h)) fun a _ => hN
      simpa using this
    have := e _ (e _ (e _ (e _ h1)))
    refine this.trans (le_of_eq (by ring))
  have hbad := (count_or (fun c => P.Convinces K c) fun c : F × F × F × F × F => c.2.2.2.2 = 0).trans (Nat.add_le_add hc hx)
  refine (count_fibre hbad (N := (3 * K.queries.length + K.n) * Fintype.card F ^ 2) fun c hbad => ?_).trans (le_of_eq ?_)
  · push Not at hbad
    by_cases hx1 : c.2.2.2.2 ^ K.n = 1
    · rw [count_false fun b hb => hb.1.1 hx1]
      exact Nat.zero_le _
    have hw : ∃ q ∈ K.claims (P.values c) c.1 c.2.1 c.2.2.1 c.2.2.2.1 c.2.2.2.2, q.eval ≠ (K.polynomials
        (P.messages c.1 c.2.1 c.2.2.1) (P.quotient c.1 c.2.1 c.2.2.1 c.2.2.2.1) c.2.2.2.2 q.label).eval q.point := by
      by_contra hr
      push Not at hr
      exact hbad.1 (Key.check_of_right hx1 hr)
    obtain ⟨q, hq, hne⟩ := hw
    have := Shplonk.count_wrong (w := P.second c)
      (Key.polynomials_degree hω (messages_short hP c.1 c.2.1 c.2.2.1) (hP.prover.quotient _ _ _ c.2.2.2.1) c.2.2.2.2)
      (hP.first c) hq
      (by
        rw [Shplonk.evalOf_first hq fun q' hq' h1 h2 => Key.claims_first hn hω ha hbad.2 hq hq' h1 h2]
        exact hne.symm)
    rw [Key.claims_length] at this
    refine (count_mono fun b hb => ?_).trans this
    exact ⟨((accepts_residue hω hP E τ _).mp hb.1).2.1, hb.2⟩
  · simp only [Fintype.card_prod]
    ring

end KzgProver
end Halo2

namespace Props
open Halo2 Polynomial

variable {F : Type} [Field F] [Fintype F] {G G2 GT : Type} [AddCommGroup G] [Module F G] [AddCommGroup G2] [Module F G2]
  [AddCommGroup GT] [Module F GT]

/-- **C102.** What proofs with ideal commitments show is shown by proofs with the commitments and openings of the tests, for
a prover that knows the polynomials behind its commitments. -/
theorem C102_extract {K : Key F} {good : Grid F → Prop} (h : K.Proves good) (hn : K.n ≠ 0) (hω : IsPrimitiveRoot K.ω K.n)
    (ha : K.Apart) (E : Pairing F G G2 GT) : K.ProvesKzg E good := by
  intro P hP
  refine (h.1 P.toProver hP.prover).imp_right fun hc => ⟨P.residue K, fun c => ?_, fun τ => ⟨fun c hc => ?_, ?_⟩⟩
  · exact Shplonk.residue_degree (Nat.pos_of_ne_zero hn) (Key.polynomials_degree hω (KzgProver.messages_short hP _ _ _)
      (hP.prover.quotient _ _ _ _) _) (hP.first _ _ _) (hP.second _ _ _ _) _ _ _
  · exact ((KzgProver.accepts_residue hω hP E τ c).mp hc).2.2
  · rw [nat_card_eq_count]
    exact KzgProver.count_identity hn hω ha hP hc E τ

/-- **C102.** With a random secret the verifier accepts an assignment without `good` for few secrets and challenges. -/
theorem C102_sound {K : Key F} {E : Pairing F G G2 GT} {good : Grid F → Prop} (h : K.ProvesKzg E good) {P : KzgProver F}
    (hP : P.Short K.n) : good (K.grid P.advice) ∨
      Nat.card {c : F × (F × F × F × F × F) × F × F × F // P.Accepts K E c.1 c.2} ≤
        (K.slack + 3 * K.queries.length + 2 * K.n + 1) * Fintype.card F ^ 8 := by
  refine (h P hP).imp_right fun ⟨R, hd, hR⟩ => ?_
  rw [nat_card_eq_count]
  have h1 : count (fun c : F × (F × F × F × F × F) × F × F × F => P.Accepts K E c.1 c.2 ∧ R c.2 = 0) ≤
      Fintype.card F * ((K.slack + 3 * K.queries.length + K.n + 1) * Fintype.card F ^ 7) := by
    have := count_fibre (p := fun c : F × (F × F × F × F × F) × F × F × F => P.Accepts K E c.1 c.2 ∧ R c.2 = 0)
      (bad := fun _ => False) (T := 0) (le_of_eq (count_false fun _ h => h)) fun τ _ => by
        have := (hR τ).2
        rw [nat_card_eq_count] at this
        exact this
    simpa using this
  have h2 : count (fun c : F × (F × F × F × F × F) × F × F × F => R c.2 ≠ 0 ∧ (R c.2).eval c.1 = 0) ≤
      Fintype.card ((F × F × F × F × F) × F × F × F) * K.n := by
    rw [count_swap]
    have := count_fibre (p := fun c : ((F × F × F × F × F) × F × F × F) × F => R c.1 ≠ 0 ∧ (R c.1).eval c.2 = 0)
      (bad := fun _ => False) (T := 0) (N := K.n) (le_of_eq (count_false fun _ h => h)) fun c _ => by
        by_cases h0 : R c = 0
        · rw [count_false fun τ hτ => hτ.1 h0]
          exact Nat.zero_le _
        · exact (count_mono fun τ hτ => hτ.2).trans (count_roots h0 (hd c))
    simpa using this
  refine (count_mono fun c hc => ?_).trans ((count_or _ _).trans ((Nat.add_le_add h1 h2).trans (le_of_eq ?_)))
  · by_cases h0 : R c.2 = 0
    · exact Or.inl ⟨hc, h0⟩
    · exact Or.inr ⟨h0, (hR c.1).1 c.2 hc⟩
  · simp only [Fintype.card_prod]
    ring

open Classical in
/-- The prover that opens its commitments honestly. -/
noncomputable def honestOpenings (K : Key F) (P : Prover F) : KzgProver F :=
  let ev : F × F × F × F × F → Values F := fun c l k =>
    (K.polynomials (P.messages c.1 c.2.1 c.2.2.1) (P.quotient c.1 c.2.1 c.2.2.1 c.2.2.2.1) c.2.2.2.2 l).eval
      (K.ω ^ k * c.2.2.2.2)
  let qs := fun c => K.claims (ev c) c.1 c.2.1 c.2.2.1 c.2.2.2.1 c.2.2.2.2
  let p := fun c => K.polynomials (P.messages c.1 c.2.1 c.2.2.1) (P.quotient c.1 c.2.1 c.2.2.1 c.2.2.2.1) c.2.2.2.2
  { P with
    values := ev
    first := fun c y v => if P.Convinces K c then Shplonk.quotient (qs c) (p c) y v else 0
    second := fun c y v u => if P.Convinces K c then
      Shplonk.linear (qs c) (p c) (Shplonk.quotient (qs c) (p c) y v) y v u /ₘ (X - C u) else 0 }

/-- A convincing prover with honest openings is accepted. -/
theorem honest_accepted {K : Key F} {P : Prover F} {l : ℕ} (hP : P.Short K.n)
    (hc : Fintype.card F ^ 5 ≤ Nat.card {c // P.Convinces K c} + l * Fintype.card F ^ 4) (hn : K.n ≠ 0)
    (hω : IsPrimitiveRoot K.ω K.n) (E : Pairing F G G2 GT) : (honestOpenings K P).Short K.n ∧
      ∀ τ, Fintype.card F ^ 8 ≤ Nat.card {c // (honestOpenings K P).Accepts K E τ c} +
        (l + K.queries.length) * Fintype.card F ^ 7 := by
  classical
  have hm : ∀ θ β γ, (P.messages θ β γ).Short K.n := fun θ β γ =>
    ⟨hP.advice, hP.input θ, hP.table θ, hP.zPerm θ β γ, hP.zLookup θ β γ⟩
  have hp := fun c : F × F × F × F × F => Key.polynomials_degree hω (hm c.1 c.2.1 c.2.2.1)
    (hP.quotient c.1 c.2.1 c.2.2.1 c.2.2.2.1) c.2.2.2.2
  have hr : ∀ c, P.Convinces K c → ∀ q ∈ K.claims ((honestOpenings K P).values c) c.1 c.2.1 c.2.2.1 c.2.2.2.1 c.2.2.2.2,
      q.eval = (K.polynomials (P.messages c.1 c.2.1 c.2.2.1) (P.quotient c.1 c.2.1 c.2.2.1 c.2.2.2.1) c.2.2.2.2
        q.label).eval q.point := fun c hc => Key.right_of_check (fun q _ _ => rfl) hc
  have hpos := Nat.pos_of_ne_zero hn
  refine ⟨⟨hP, fun c y v => ?_, fun c y v u => ?_⟩, fun τ => ?_⟩
  · by_cases hcc : P.Convinces K c
    · simp only [honestOpenings, if_pos hcc]
      exact Shplonk.quotient_degree (hp c) (Shplonk.evalOf_right (hr c hcc)) y v
    · simp only [honestOpenings, if_neg hcc, degree_zero]
      exact WithBot.bot_lt_coe _
  · by_cases hcc : P.Convinces K c
    · simp only [honestOpenings, if_pos hcc]
      exact lt_of_le_of_lt (degree_divByMonic_le _ _) (Shplonk.linear_degree hpos (hp c)
        (Shplonk.quotient_degree (hp c) (Shplonk.evalOf_right (hr c hcc)) y v) y v u)
    · simp only [honestOpenings, if_neg hcc, degree_zero]
      exact WithBot.bot_lt_coe _
  · rw [nat_card_eq_count] at hc ⊢
    have h1 := count_add_not (P.Convinces K)
    have h2 := count_add_not ((honestOpenings K P).Accepts K E τ)
    have h3 : count (fun c => ¬ P.Convinces K c) ≤ l * Fintype.card F ^ 4 := by
      have : Fintype.card (F × F × F × F × F) = Fintype.card F ^ 5 := by simp only [Fintype.card_prod]; ring
      omega
    have h4 := count_fibre (p := fun c => ¬ (honestOpenings K P).Accepts K E τ c) h3
      (N := K.queries.length * Fintype.card F ^ 2) fun c hcc => by
        push Not at hcc
        have key : ∀ b : F × F × F, (∀ q ∈ K.claims ((honestOpenings K P).values c) c.1 c.2.1 c.2.2.1 c.2.2.2.1 c.2.2.2.2,
            q.point ≠ b.2.2) → (honestOpenings K P).Accepts K E τ (c, b) := by
          intro b hb
          obtain ⟨g1, g2, g3⟩ := C101_complete E hpos _ (hp c) (hr c hcc) τ b.1 b.2.1 hb
          refine ⟨hcc.1, ?_⟩
          change Shplonk.Accepts E τ _ (K.commitments τ E.g (P.messages c.1 c.2.1 c.2.2.1)
            (P.quotient c.1 c.2.1 c.2.2.1 c.2.2.2.1) c.2.2.2.2) _ _ _ _ _
          rw [Key.commitments_eq hω τ E.g (hm c.1 c.2.1 c.2.2.1) (hP.quotient c.1 c.2.1 c.2.2.1 c.2.2.2.1)]
          have e1 : (honestOpenings K P).first c b.1 b.2.1 = Shplonk.quotient (K.claims ((honestOpenings K P).values c)
            c.1 c.2.1 c.2.2.1 c.2.2.2.1 c.2.2.2.2) (K.polynomials (P.messages c.1 c.2.1 c.2.2.1)
              (P.quotient c.1 c.2.1 c.2.2.1 c.2.2.2.1) c.2.2.2.2) b.1 b.2.1 := if_pos hcc
          have e2 : (honestOpenings K P).second c b.1 b.2.1 b.2.2 = Shplonk.linear (K.claims ((honestOpenings K P).values c)
            c.1 c.2.1 c.2.2.1 c.2.2.2.1 c.2.2.2.2) (K.polynomials (P.messages c.1 c.2.1 c.2.2.1)
              (P.quotient c.1 c.2.1 c.2.2.1 c.2.2.2.1) c.2.2.2.2) ((honestOpenings K P).first c b.1 b.2.1)
              b.1 b.2.1 b.2.2 /ₘ (X - C b.2.2) := by
            rw [e1]
            exact if_pos hcc
          rw [e2, e1]
          exact g3
        have hu : count (fun u : F => ¬ ∀ q ∈ K.claims ((honestOpenings K P).values c) c.1 c.2.1 c.2.2.1 c.2.2.2.1 c.2.2.2.2,
            q.point ≠ u) ≤ K.queries.length := by
          rw [← Key.claims_length K ((honestOpenings K P).values c) c.1 c.2.1 c.2.2.1 c.2.2.2.1 c.2.2.2.2]
          refine le_trans (Finset.card_le_card (t := Shplonk.superSet (K.claims ((honestOpenings K P).values c) c.1 c.2.1
            c.2.2.1 c.2.2.2.1 c.2.2.2.2)) fun u hu => ?_) Shplonk.superSet_card
          simp only [Finset.mem_filter, Finset.mem_univ, true_and] at hu
          push Not at hu
          rw [Shplonk.mem_superSet]
          exact hu
        have e : ∀ {A : Type} [Fintype A] (p : A → Prop) {N : ℕ}, count p ≤ N →
            count (fun c : F × A => p c.2) ≤ Fintype.card F * N := by
          intro A _ p N hN
          have := count_fibre (p := fun c : F × A => p c.2) (bad := fun _ => False) (T := 0) (N := N)
            (le_of_eq (count_false fun _ h => h)) fun a _ => hN
          simpa using this
        refine (count_mono fun b hb => ?_).trans ((e _ (e _ hu)).trans (le_of_eq (by ring)))
        exact fun hq => hb (key b hq)
    have h5 : Fintype.card ((F × F × F × F × F) × F × F × F) = Fintype.card F ^ 8 := by
      simp only [Fintype.card_prod]; ring
    have h6 : l * Fintype.card F ^ 4 * Fintype.card (F × F × F) +
        Fintype.card (F × F × F × F × F) * (K.queries.length * Fintype.card F ^ 2) =
        (l + K.queries.length) * Fintype.card F ^ 7 := by
      simp only [Fintype.card_prod]; ring
    omega

/-- **C102.** An honest prover convinces the verifier also with commitments and openings, whatever the secret, for all
challenges but a few. -/
theorem C102_complete {K : Key F} {good : Grid F → Prop} (h : K.Shows good) (hn : K.n ≠ 0)
    (hω : IsPrimitiveRoot K.ω K.n) (E : Pairing F G G2 GT) : ∃ P : KzgProver F, P.Short K.n ∧ good (K.grid P.advice) ∧
      ∀ τ, Fintype.card F ^ 8 ≤ Nat.card {c // P.Accepts K E τ c} +
        (K.loss + K.queries.length) * Fintype.card F ^ 7 := by
  obtain ⟨P, hP, hg, hc⟩ := h
  obtain ⟨h1, h2⟩ := honest_accepted hP hc hn hω E
  exact ⟨honestOpenings K P, h1, hg, h2⟩

end Props
