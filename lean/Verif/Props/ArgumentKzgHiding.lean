import Verif.Props.ArgumentKzg

/-!
# What commitments show of the assignment

`create_proof` (used in `/repo/poseidon-circuit/tests/hash_proving.rs`, lines 154-165) sends commitments to the columns
besides values of them. `ParamsKZG` has no random value for a commitment: what hides a column is the random values in its
last rows, which also have to hide the values. This file shows that there are enough of them for both.
-/

set_option linter.unusedSectionVars false
set_option linter.unusedDecidableInType false

namespace Halo2
open Polynomial
variable {F : Type} [Field F]

/-! ### What the verifier receives -/

/-- The commitments to the polynomials that depend on the assignment, but for those of the quotient. -/
structure Key.Sealed (K : Key F) (G : Type) where
  advice : Fin K.cs.numAdvice → G
  input : Fin K.lookups.length → G
  table : Fin K.lookups.length → G
  zPerm : Fin K.chunks → G
  zLookup : Fin K.lookups.length → G

section
variable {G : Type} [AddCommGroup G] [Module F G]

/-- The commitments to the messages `m`, if `τ` is the secret of the parameters. -/
noncomputable def Key.seal (K : Key F) (τ : F) (g : G) (m : Messages F) : K.Sealed G where
  advice i := commit τ g K.n (m.advice i)
  input i := commit τ g K.n (m.permuted i).1
  table i := commit τ g K.n (m.permuted i).2
  zPerm i := commit τ g K.n (m.zPerm i)
  zLookup i := commit τ g K.n (m.zLookup i)

/-! ### One polynomial -/

/-- Random values in the last `m` rows make a polynomial that is zero on the other rows take any values at `m` points off
the domain. -/
theorem exists_coin_at {n m u : ℕ} {ω : F} (hω : IsPrimitiveRoot ω n) (hu : u + m = n) (pts : Finset F)
    (hoff : ∀ p ∈ pts, p ^ n ≠ 1) (hpts : pts.card ≤ m) (D : F[X]) :
    ∃ d : Fin m → F, ∀ p ∈ pts, (interp n ω (blind u 0 d)).eval p = D.eval p := by
  classical
  let Z : F[X] := ∏ r ∈ Finset.range u, (X - C (ω ^ r))
  let s : F[X] := Lagrange.interpolate pts id fun p => D.eval p / Z.eval p
  have hZ : ∀ p ∈ pts, Z.eval p ≠ 0 := by
    intro p hp
    rw [eval_prod, Finset.prod_ne_zero_iff]
    intro r _
    rw [eval_sub, eval_X, eval_C, sub_ne_zero]
    intro h
    refine hoff p hp ?_
    rw [h, ← pow_mul, mul_comm, pow_mul, hω.pow_eq_one, one_pow]
  have hs : ∀ p ∈ pts, s.eval p = D.eval p / Z.eval p := fun p hp =>
    Lagrange.eval_interpolate_at_node _ (Function.injective_id.injOn) hp
  have hdeg : (Z * s).degree < n := by
    have h1 : Z.degree = u := by
      simp only [Z]
      rw [degree_prod, Finset.sum_congr rfl fun r _ => degree_X_sub_C (ω ^ r)]
      simp
    have h2 : s.degree < pts.card := Lagrange.degree_interpolate_lt _ (Function.injective_id.injOn)
    rw [degree_mul, h1, ← hu, Nat.cast_add]
    refine WithBot.add_lt_add_left (WithBot.natCast_ne_bot u) (lt_of_lt_of_le h2 ?_)
    exact_mod_cast hpts
  refine ⟨fun j => (Z * s).eval (ω ^ (u + j)), fun p hp => ?_⟩
  rw [interp_self hω hdeg]
  · rw [eval_mul, hs _ hp, mul_div_cancel₀ _ (hZ _ hp)]
  · intro r hr
    unfold blind
    split_ifs with h
    · change eval (ω ^ (u + (r - u))) (Z * s) = _
      rw [show u + (r - u) = r by omega]
    · have hr' : r < u := by omega
      rw [eval_mul, eval_prod, Finset.prod_eq_zero (Finset.mem_range.mpr hr') (by simp), zero_mul]
      rfl

theorem rotated_pow {n : ℕ} {ω : F} (hω : IsPrimitiveRoot ω n) (k : ℤ) (x : F) : (ω ^ k * x) ^ n = x ^ n := by
  rw [mul_pow, ← zpow_natCast (ω ^ k) n, ← zpow_mul, mul_comm k, zpow_mul, zpow_natCast, hω.pow_eq_one, one_zpow, one_mul]

/-- What is read of a polynomial with `m` random values, at fewer than `m` points, together with the commitment to it, does
not depend on the other values. -/
theorem card_coin_commit {n m u : ℕ} {ω x τ : F} (g : G) (hω : IsPrimitiveRoot ω n) (hx : x ^ n ≠ 1) (hτ : τ ^ n ≠ 1)
    (hu : u + m = n) (Q : Finset ℤ) (hQ : Q.card < m) (f f' : ℕ → F) (v : ℤ → F) (s : G) :
    Nat.card {c : Fin m → F // (∀ k ∈ Q, rotEval ω (interp n ω (blind u f c)) k x = v k) ∧
        commit τ g n (interp n ω (blind u f c)) = s} =
      Nat.card {c : Fin m → F // (∀ k ∈ Q, rotEval ω (interp n ω (blind u f' c)) k x = v k) ∧
        commit τ g n (interp n ω (blind u f' c)) = s} := by
  classical
  obtain ⟨d, hd⟩ := exists_coin_at hω hu (insert τ (Q.image fun k => ω ^ k * x))
    (by
      intro p hp
      rcases Finset.mem_insert.mp hp with rfl | hp
      · exact hτ
      · obtain ⟨k, -, rfl⟩ := Finset.mem_image.mp hp
        rw [rotated_pow hω]
        exact hx)
    ((Finset.card_insert_le _ _).trans (Nat.succ_le_of_lt (lt_of_le_of_lt Finset.card_image_le hQ)))
    (interp n ω (blind u f (0 : Fin m → F)) - interp n ω (blind u f' (0 : Fin m → F)))
  have split : ∀ (f : ℕ → F) (c : Fin m → F), interp n ω (blind u f c) =
      interp n ω (blind u f (0 : Fin m → F)) + interp n ω (blind u 0 c) := by
    intro f c
    rw [← interp_add]
    congr 1
    funext r
    unfold blind
    split_ifs <;> simp
  have add : ∀ c c' : Fin m → F, interp n ω (blind u 0 (c + c')) =
      interp n ω (blind u 0 c) + interp n ω (blind u 0 c') := by
    intro c c'
    rw [← interp_add]
    congr 1
    funext r
    unfold blind
    split_ifs <;> simp
  have key : ∀ (c : Fin m → F) (p : F), p ∈ insert τ (Q.image fun k => ω ^ k * x) →
      (interp n ω (blind u f c)).eval p = (interp n ω (blind u f' (c + d))).eval p := by
    intro c p hp
    have e := hd p hp
    rw [split f c, split f' (c + d), add]
    simp only [eval_add, eval_sub] at e ⊢
    rw [e]
    ring
  refine Nat.card_congr ((Equiv.addRight d).subtypeEquiv fun c => ?_)
  rw [Equiv.coe_addRight]
  refine and_congr (forall₂_congr fun k hk => ?_) ?_
  · unfold rotEval
    rw [key c _ (Finset.mem_insert_of_mem (Finset.mem_image_of_mem _ hk))]
  · rw [commit_eq τ g (interp_degree hω _), commit_eq τ g (interp_degree hω _), key c _ (Finset.mem_insert_self _ _)]

/-! ### All polynomials -/

namespace Key

/-- The commitments to polynomials with values `f` on the first `u` rows and random values `c` beyond are `s`. -/
def Seals (K : Key F) (τ : F) (g : G) (u : ℕ) {N m : ℕ} (s : Fin N → G) (f : Fin N → ℕ → F) (c : Fin N → Fin m → F) : Prop :=
  ∀ i, commit τ g K.n (interp K.n K.ω (blind u (f i) (c i))) = s i

theorem card_both_reads {K : Key F} (g : G) (hω : IsPrimitiveRoot K.ω K.n) {x τ : F} (hx : x ^ K.n ≠ 1) (hτ : τ ^ K.n ≠ 1)
    {u N m : ℕ} (hu : u + m = K.n) {Q : Fin N → Finset ℤ} (hQ : ∀ i, (Q i).card < m) (v : Fin N → ℤ → F) (s : Fin N → G)
    (f f' : Fin N → ℕ → F) :
    Nat.card {c : Fin N → Fin m → F // K.Reads x u Q v f c ∧ K.Seals τ g u s f c} =
      Nat.card {c : Fin N → Fin m → F // K.Reads x u Q v f' c ∧ K.Seals τ g u s f' c} := by
  unfold Reads Seals
  simp only [← forall_and]
  exact card_pi fun i => card_coin_commit g hω hx hτ hu (Q i) (hQ i) (f i) (f' i) (v i) (s i)

/-- The commitments, column by column. -/
theorem seal_iff {K : Key F} (τ : F) (g : G) (w : ℕ → ℕ → F) (c : K.Coins) (θ β γ : F) (s : K.Sealed G) :
    K.seal τ g ((K.honest w c).messages θ β γ) = s ↔
      K.Seals τ g K.usable s.advice (fun i => w i) c.advice ∧
      K.Seals τ g K.usable s.input (K.inputRows θ (K.honestAdvice w c.advice)) c.input ∧
      K.Seals τ g K.usable s.table (K.tableRows θ (K.honestAdvice w c.advice)) c.table ∧
      K.Seals τ g (K.usable + 1) s.zPerm (K.permRows β γ (K.honestAdvice w c.advice)) c.zPerm ∧
      K.Seals τ g (K.usable + 1) s.zLookup (K.lookupRows θ β γ (K.honestAdvice w c.advice)) c.zLookup := by
  obtain ⟨sa, si, st, sp, sl⟩ := s
  simp only [Seals, inputRows, tableRows, permRows, lookupRows, Key.seal, Sealed.mk.injEq, funext_iff]
  refine and_congr ?_ (and_congr ?_ (and_congr ?_ (and_congr ?_ ?_)))
  · refine forall_congr' fun i => ?_
    simp only [Prover.messages, honest, honestAdvice, dif_pos i.isLt]
  all_goals
    refine forall_congr' fun i => ?_
    simp only [Prover.messages, honest, dif_pos i.isLt, Fin.getElem_fin]

/-- There are enough random values for commitments too. -/
structure Hides (K : Key F) : Prop where
  lt : K.usable + 6 ≤ K.n
  advice : ∀ i < K.cs.numAdvice, (K.rots i).card < K.n - K.usable

/-- As many random values give the view and the commitments for one assignment as for another. -/
theorem card_sealed [Finite F] {K : Key F} (g : G) (hω : IsPrimitiveRoot K.ω K.n) (hb : K.Hides) (w w' : ℕ → ℕ → F)
    (θ β γ : F) {x τ : F} (hx : x ^ K.n ≠ 1) (hτ : τ ^ K.n ≠ 1) (v : K.View) (s : K.Sealed G) :
    Nat.card {c : K.Coins // K.view ((K.honest w c).messages θ β γ) x = v ∧
        K.seal τ g ((K.honest w c).messages θ β γ) = s} =
      Nat.card {c : K.Coins // K.view ((K.honest w' c).messages θ β γ) x = v ∧
        K.seal τ g ((K.honest w' c).messages θ β γ) = s} := by
  have hlt := hb.lt
  have hu : K.usable + (K.n - K.usable) = K.n := by omega
  have hu' : K.usable + 1 + (K.n - (K.usable + 1)) = K.n := by omega
  have swap : ∀ {a b c d e a' b' c' d' e' : Prop}, (a ∧ b ∧ c ∧ d ∧ e) ∧ a' ∧ b' ∧ c' ∧ d' ∧ e' ↔
      (a ∧ a') ∧ (b ∧ b') ∧ (c ∧ c') ∧ (d ∧ d') ∧ e ∧ e' := by
    intros
    tauto
  simp only [view_iff (show 1 < K.n - K.usable by omega), seal_iff, swap]
  rw [Nat.card_congr ((Coins.equiv K).subtypeEquivOfSubtype'), Nat.card_congr ((Coins.equiv K).subtypeEquivOfSubtype')]
  have h1 := card_both_reads g hω hx hτ hu (Q := fun i : Fin K.cs.numAdvice => K.rots i) (fun i => hb.advice i i.isLt)
    v.adviceAt s.advice (fun i => w i) fun i => w' i
  have h2 := fun a a' => card_both_reads g hω hx hτ hu (Q := fun _ : Fin K.lookups.length => {0, -1})
    (fun _ => lt_of_le_of_lt Finset.card_le_two (by omega))
    (fun i k => if k = 0 then (v.input i).1 else (v.input i).2) s.input
    (K.inputRows θ (K.honestAdvice w a)) (K.inputRows θ (K.honestAdvice w' a'))
  have h3 := fun a a' => card_both_reads g hω hx hτ hu (Q := fun _ : Fin K.lookups.length => {0})
    (fun _ => by rw [Finset.card_singleton]; omega) (fun i _ => v.table i) s.table
    (K.tableRows θ (K.honestAdvice w a)) (K.tableRows θ (K.honestAdvice w' a'))
  have h4 := fun a a' => card_both_reads g hω hx hτ hu' (Q := fun _ : Fin K.chunks => {0, 1, -((K.n : ℤ) - K.usable)})
    (fun _ => lt_of_le_of_lt Finset.card_le_three (by omega))
    (fun i k => if k = 0 then (v.zPerm i).1 else if k = 1 then (v.zPerm i).2.1 else (v.zPerm i).2.2) s.zPerm
    (K.permRows β γ (K.honestAdvice w a)) (K.permRows β γ (K.honestAdvice w' a'))
  have h5 := fun a a' => card_both_reads g hω hx hτ hu' (Q := fun _ : Fin K.lookups.length => {0, 1})
    (fun _ => lt_of_le_of_lt Finset.card_le_two (by omega))
    (fun i k => if k = 0 then (v.zLookup i).1 else (v.zLookup i).2) s.zLookup
    (K.lookupRows θ β γ (K.honestAdvice w a)) (K.lookupRows θ β γ (K.honestAdvice w' a'))
  have h45 := fun a a' => card_both (h4 a a') (h5 a a')
  have h35 := fun a a' => card_both (h3 a a') (h45 a a')
  have h25 := fun a a' => card_both (h2 a a') (h35 a a')
  exact card_and h1 h25

end Key

theorem keygen_hides {cs : CS F} {ws : List (Wide F)} {ops : List (Op F)} {n : ℕ} {ω δ : F} {K : Key F}
    (hK : keygenWith cs ws ops n ω δ = .ok K) : K.Hides := by
  obtain ⟨hmin, -, s, -, rfl⟩ := keygen_ok hK
  have h3 : 5 ≤ cs.blindingWith ws := by unfold CS.blindingWith; omega
  constructor
  · change n - (cs.blindingWith ws + 1) + 6 ≤ n
    omega
  · intro i hi
    change (cs.rots i ∪ wideRots ws i).card < n - (n - (cs.blindingWith ws + 1))
    have : (cs.rots i ∪ wideRots ws i).card ≤ (Finset.range cs.numAdvice).sup fun c => (cs.rots c ∪ wideRots ws c).card :=
      Finset.le_sup (f := fun c => (cs.rots c ∪ wideRots ws c).card) (Finset.mem_range.mpr hi)
    have e : cs.blindingWith ws = max 3 ((Finset.range cs.numAdvice).sup fun c => (cs.rots c ∪ wideRots ws c).card) + 1 + 1 :=
      rfl
    omega

/-! ### The rest of the proof -/

namespace Shplonk
open Classical
variable {L : Type} {qs : List (Query L F)}

theorem members_labels {S : Finset F} {l : L} (h : l ∈ members qs S) : l ∈ labels qs := (List.mem_filter.mp h).1

theorem combined_eval {p p' : L → F[X]} {τ : F} (h : ∀ l ∈ labels qs, (p l).eval τ = (p' l).eval τ) (y : F) (S : Finset F) :
    (combined qs p y S).eval τ = (combined qs p' y S).eval τ := by
  unfold combined
  simp only [eval_finsetSum, eval_mul, eval_C]
  refine Finset.sum_congr rfl fun i _ => ?_
  rw [h _ (members_labels (List.get_mem _ _))]

/-- The polynomial of the first commitment, at the secret. -/
theorem quotient_eval {p p' : L → F[X]} (hr : ∀ q ∈ qs, q.eval = (p q.label).eval q.point)
    (hr' : ∀ q ∈ qs, q.eval = (p' q.label).eval q.point) {τ : F} (hτ : ∀ q ∈ qs, q.point ≠ τ)
    (h : ∀ l ∈ labels qs, (p l).eval τ = (p' l).eval τ) (y v : F) :
    (quotient qs p y v).eval τ = (quotient qs p' y v).eval τ := by
  unfold quotient
  simp only [eval_finsetSum, eval_mul, eval_C]
  refine Finset.sum_congr rfl fun j _ => ?_
  congr 1
  have e := congrArg (fun f => f.eval τ) (exact_quotient (evalOf_right hr) y ((rotationSets qs).get j))
  have e' := congrArg (fun f => f.eval τ) (exact_quotient (evalOf_right hr') y ((rotationSets qs).get j))
  have hne : vanish ((rotationSets qs).get j) τ ≠ 0 := by
    refine vanish_ne fun hm => ?_
    obtain ⟨q, hq, hp⟩ := (mem_superSet qs).mp (get_subset j hm)
    exact hτ q hq hp
  simp only [eval_mul, eval_sub, ← vanish_eq_nodal, combined_eval h] at e e'
  exact mul_left_cancel₀ hne (e.trans e'.symm)

theorem linear_root {p : L → F[X]} (hr : ∀ q ∈ qs, q.eval = (p q.label).eval q.point) {u : F} (hu : ∀ q ∈ qs, q.point ≠ u)
    (y v : F) : (linear qs p (quotient qs p y v) y v u).eval u = 0 := by
  have hne : vanish (superSet qs \ firstSet qs) u ≠ 0 := vanish_ne fun hm => by
    obtain ⟨q, hq, hp⟩ := (mem_superSet qs).mp (Finset.mem_sdiff.mp hm).1
    exact hu q hq hp
  have e := cross_eval hne p (quotient qs p y v) y v
  rw [cross_right (evalOf_right hr), eval_zero] at e
  exact (mul_eq_zero.mp e.symm).resolve_left hne

/-- The polynomial of the second commitment, at the secret. -/
theorem linear_div_eval {p p' : L → F[X]} (hr : ∀ q ∈ qs, q.eval = (p q.label).eval q.point)
    (hr' : ∀ q ∈ qs, q.eval = (p' q.label).eval q.point) {τ u : F} (hτ : ∀ q ∈ qs, q.point ≠ τ)
    (hu : ∀ q ∈ qs, q.point ≠ u) (hne : τ ≠ u) (h : ∀ l ∈ labels qs, (p l).eval τ = (p' l).eval τ) (y v : F) :
    (linear qs p (quotient qs p y v) y v u /ₘ (X - C u)).eval τ =
      (linear qs p' (quotient qs p' y v) y v u /ₘ (X - C u)).eval τ := by
  have key : ∀ {p : L → F[X]}, (∀ q ∈ qs, q.eval = (p q.label).eval q.point) →
      (τ - u) * (linear qs p (quotient qs p y v) y v u /ₘ (X - C u)).eval τ =
        (linear qs p (quotient qs p y v) y v u).eval τ := by
    intro p hr
    have e := congrArg (fun f => f.eval τ)
      ((mul_divByMonic_eq_iff_isRoot (a := u) (p := linear qs p (quotient qs p y v) y v u)).mpr (linear_root hr hu y v))
    simpa only [eval_mul, eval_sub, eval_X, eval_C] using e
  refine mul_left_cancel₀ (sub_ne_zero.mpr hne) ?_
  rw [key hr, key hr']
  unfold linear
  simp only [eval_sub, eval_finsetSum, eval_mul, eval_C, combined_eval h, quotient_eval hr hr' hτ h]

end Shplonk

end

end Halo2

namespace Halo2.Key
open Polynomial
variable {F : Type} [Field F]

theorem mem_cs_exprs {K : Key F} {e : Expr F} (h : e ∈ K.exprs) {c : ℕ} {k : ℤ} (hk : (Col.advice c, k) ∈ e.queries) :
    k ∈ K.rots c := by
  rcases List.mem_append.mp h with h | h
  · obtain ⟨p, hp, he⟩ := List.mem_flatMap.mp h
    exact Finset.mem_union_left _ (CS.mem_rots.mpr (Or.inl ⟨e, CS.mem_exprs.mpr (Or.inl ⟨p, hp, he⟩), hk⟩))
  · obtain ⟨w, hw, h⟩ := List.mem_flatMap.mp h
    obtain ⟨p, hp, he⟩ := List.mem_flatMap.mp h
    have hq : (Col.advice c, k) ∈ p.1.queries ∨ (Col.advice c, k) ∈ p.2.queries := by
      simp only [List.mem_cons, List.not_mem_nil, or_false] at he
      rcases he with rfl | rfl
      · exact Or.inl hk
      · exact Or.inr hk
    rcases List.mem_append.mp hw with hw | hw
    · obtain ⟨l, hl, rfl⟩ := List.mem_map.mp hw
      obtain rfl := List.mem_singleton.mp hp
      rcases hq with hq | hq
      · exact Finset.mem_union_left _ (CS.mem_rots.mpr (Or.inl ⟨_, CS.mem_exprs.mpr (Or.inr ⟨l, hl, rfl⟩), hq⟩))
      · simp [Expr.queries] at hq
    · exact Finset.mem_union_right _ (mem_wideRots.mpr ⟨_, hw, p, hp, hq⟩)

theorem mem_queries_advice {K : Key F} {c : ℕ} {k : ℤ} (h : (Label.col (.advice c), k) ∈ K.queries) : k ∈ K.rots c := by
  rcases mem_queries_col.mp h with ⟨e, he, hk⟩ | ⟨hc, rfl⟩
  · exact mem_cs_exprs he hk
  · exact Finset.mem_union_left _ (CS.mem_rots.mpr (Or.inr ⟨Props.mem_permCols.mp hc, rfl⟩))

theorem queries_zPerm {K : Key F} {i : ℕ} {k : ℤ} (h : (Label.zPerm i, k) ∈ K.queries) :
    i < K.chunks ∧ (k = 0 ∨ k = 1 ∨ k = K.lastRot) := by
  simp only [queries, List.mem_append, List.mem_map, List.mem_flatMap, List.mem_cons, List.mem_range,
    List.not_mem_nil, Prod.mk.injEq, reduceCtorEq, false_and, and_false, exists_false, false_or, or_false] at h
  obtain ⟨j, hj, h⟩ := h
  split_ifs at h
  all_goals
    simp only [List.mem_cons, List.not_mem_nil, or_false, Prod.mk.injEq, Label.zPerm.injEq] at h
    refine ⟨?_, ?_⟩
    · rcases h with (⟨rfl, -⟩ | ⟨rfl, -⟩) | h
      all_goals first | exact hj | exact h.1 ▸ hj
    · tauto

theorem queries_lookup {K : Key F} {l : Label} {k : ℤ} (h : (l, k) ∈ K.queries) :
    (∀ i, l = .input i → i < K.lookups.length ∧ (k = 0 ∨ k = -1)) ∧ (∀ i, l = .table i → i < K.lookups.length ∧ k = 0) ∧
      ∀ i, l = .zLookup i → i < K.lookups.length ∧ (k = 0 ∨ k = 1) := by
  refine ⟨?_, ?_, ?_⟩
  all_goals
    rintro i rfl
    simp only [queries, List.mem_append, List.mem_map, List.mem_flatMap, List.mem_cons, List.mem_range,
      List.not_mem_nil, Prod.mk.injEq, reduceCtorEq, false_and, and_false, exists_false, false_or, or_false] at h
    rcases h with ⟨j, -, h⟩ | ⟨j, hj, h⟩
    · split_ifs at h <;> simp at h
    · simp only [Label.input.injEq, Label.table.injEq, Label.zLookup.injEq] at h
      obtain rfl : i = j := by tauto
      exact ⟨hj, by tauto⟩

/-- Values that are opened are in the view or in the key. -/
theorem values_view {K : Key F} (hown : ∀ i, K.cs.numAdvice ≤ i → K.rots i = ∅) {m m' : Messages F} {x : F}
    (hv : K.view m x = K.view m' x) (h h' : ℕ → F[X]) {q : Label × ℤ} (hq : q ∈ K.queries) (hne : q.1 ≠ .quotient) :
    (K.polynomials m h x q.1).eval (K.ω ^ q.2 * x) = (K.polynomials m' h' x q.1).eval (K.ω ^ q.2 * x) := by
  obtain ⟨l, k⟩ := q
  have z : ∀ p : F[X], p.eval (K.ω ^ (0 : ℤ) * x) = p.eval x := fun p => by rw [zpow_zero, one_mul]
  cases l with
  | col c => cases c with
    | fixed c => rfl
    | advice c =>
      have hk := mem_queries_advice hq
      have hc : c < K.cs.numAdvice := by
        by_contra hc
        rw [hown c (by omega)] at hk
        cases hk
      exact congrFun (congrFun (congrArg View.advice hv) ⟨c, hc⟩) ⟨k, hk⟩
  | selector s => rfl
  | sigma j => rfl
  | input i =>
    obtain ⟨hi, hk⟩ := (queries_lookup hq).1 i rfl
    have e := Prod.ext_iff.mp (congrFun (congrArg View.input hv) ⟨i, hi⟩)
    rcases hk with rfl | rfl
    · rw [z, z]; exact e.1
    · exact e.2
  | table i =>
    obtain ⟨hi, rfl⟩ := (queries_lookup hq).2.1 i rfl
    rw [z, z]; exact congrFun (congrArg View.table hv) ⟨i, hi⟩
  | zPerm i =>
    obtain ⟨hi, hk⟩ := queries_zPerm hq
    have e := Prod.ext_iff.mp (congrFun (congrArg View.zPerm hv) ⟨i, hi⟩)
    have e2 := Prod.ext_iff.mp e.2
    rcases hk with rfl | rfl | rfl
    · rw [z, z]; exact e.1
    · exact e2.1
    · exact e2.2
  | zLookup i =>
    obtain ⟨hi, hk⟩ := (queries_lookup hq).2.2 i rfl
    have e := Prod.ext_iff.mp (congrFun (congrArg View.zLookup hv) ⟨i, hi⟩)
    rcases hk with rfl | rfl
    · rw [z, z]; exact e.1
    · exact e.2
  | quotient => exact absurd rfl hne

/-- Commitments to polynomials that are opened are those in the proof or those in the key. -/
theorem commit_same {G : Type} [AddCommGroup G] [Module F G] {K : Key F} (hω : IsPrimitiveRoot K.ω K.n)
    (hown : ∀ i, K.cs.numAdvice ≤ i → K.rots i = ∅) {m m' : Messages F} (hm : m.Short K.n) (hm' : m'.Short K.n)
    {h h' : ℕ → F[X]} (hd : ∀ i, (h i).degree < K.n) (hd' : ∀ i, (h' i).degree < K.n) {τ x : F} {g : G}
    (hs : K.seal τ g m = K.seal τ g m') (hh : ∀ i < K.degree - 1, commit τ g K.n (h i) = commit τ g K.n (h' i))
    {l : Label} {k : ℤ} (hq : (l, k) ∈ K.queries) :
    commit τ g K.n (K.polynomials m h x l) = commit τ g K.n (K.polynomials m' h' x l) := by
  cases l with
  | col c => cases c with
    | fixed c => rfl
    | advice c =>
      have hk := mem_queries_advice hq
      have hc : c < K.cs.numAdvice := by
        by_contra hc
        rw [hown c (by omega)] at hk
        cases hk
      exact congrFun (congrArg Sealed.advice hs) ⟨c, hc⟩
  | selector s => rfl
  | sigma j => rfl
  | input i => exact congrFun (congrArg Sealed.input hs) ⟨i, ((queries_lookup hq).1 i rfl).1⟩
  | table i => exact congrFun (congrArg Sealed.table hs) ⟨i, ((queries_lookup hq).2.1 i rfl).1⟩
  | zPerm i => exact congrFun (congrArg Sealed.zPerm hs) ⟨i, (queries_zPerm hq).1⟩
  | zLookup i => exact congrFun (congrArg Sealed.zLookup hs) ⟨i, ((queries_lookup hq).2.2 i rfl).1⟩
  | quotient =>
    have e1 := congrFun (commitments_eq hω τ g hm hd x) .quotient
    have e2 := congrFun (commitments_eq hω τ g hm' hd' x) .quotient
    rw [← e1, ← e2]
    unfold commitments
    exact Finset.sum_congr rfl fun i hi => by rw [hh i (Finset.mem_range.mp hi)]

end Halo2.Key

namespace Props
open Halo2 Circuit Circuit.Table Base.Bn256 Polynomial

variable {F : Type} [Field F] {G G2 GT : Type} [AddCommGroup G] [Module F G] [AddCommGroup G2] [Module F G2]
  [AddCommGroup GT] [Module F GT]

/-- **C105.** Commitments to the columns hide the assignment, together with the values: for any circuit with a key, any two
assignments, any challenges, any commitments and anything the verifier can read, as many random values of the prover make it
send just these for one assignment as for the other. -/
theorem C105_hiding [Finite F] {cs : CS F} {ws : List (Wide F)} {ops : List (Op F)} {n : ℕ} {ω δ : F} {K : Key F}
    (hK : keygenWith cs ws ops n ω δ = .ok K) (hω : IsPrimitiveRoot ω n) (g : G) (w w' : ℕ → ℕ → F) (θ β γ : F) {x τ : F}
    (hx : x ^ n ≠ 1) (hτ : τ ^ n ≠ 1) (v : K.View) (s : K.Sealed G) :
    Nat.card {c : K.Coins // K.view ((K.honest w c).messages θ β γ) x = v ∧
        K.seal τ g ((K.honest w c).messages θ β γ) = s} =
      Nat.card {c : K.Coins // K.view ((K.honest w' c).messages θ β γ) x = v ∧
        K.seal τ g ((K.honest w' c).messages θ β γ) = s} := by
  have e : K.n = n := by
    obtain ⟨-, -, s, -, rfl⟩ := keygen_ok hK
    rfl
  exact Key.card_sealed g (keygen_wf hK hω).root (keygen_hides hK) w w' θ β γ (by rw [e]; exact hx) (by rw [e]; exact hτ) v s

/-- Whatever the verifier receives for one assignment it could have received for any other. -/
theorem C105_any [Finite F] {cs : CS F} {ws : List (Wide F)} {ops : List (Op F)} {n : ℕ} {ω δ : F} {K : Key F}
    (hK : keygenWith cs ws ops n ω δ = .ok K) (hω : IsPrimitiveRoot ω n) (g : G) (w w' : ℕ → ℕ → F) (θ β γ : F) {x τ : F}
    (hx : x ^ n ≠ 1) (hτ : τ ^ n ≠ 1) (c : K.Coins) :
    ∃ c' : K.Coins, K.view ((K.honest w' c').messages θ β γ) x = K.view ((K.honest w c).messages θ β γ) x ∧
      K.seal τ g ((K.honest w' c').messages θ β γ) = K.seal τ g ((K.honest w c).messages θ β γ) := by
  have h := C105_hiding hK hω g w w' θ β γ hx hτ (K.view ((K.honest w c).messages θ β γ) x)
    (K.seal τ g ((K.honest w c).messages θ β γ))
  have : Finite K.Coins := Finite.of_equiv _ (Key.Coins.equiv K).symm
  have h1 : Nat.card {c' : K.Coins // K.view ((K.honest w c').messages θ β γ) x =
      K.view ((K.honest w c).messages θ β γ) x ∧
        K.seal τ g ((K.honest w c').messages θ β γ) = K.seal τ g ((K.honest w c).messages θ β γ)} ≠ 0 :=
    Nat.card_ne_zero.mpr ⟨⟨⟨c, rfl, rfl⟩⟩, inferInstance⟩
  rw [h] at h1
  obtain ⟨⟨c', hc'⟩⟩ := (Nat.card_ne_zero.mp h1).1
  exact ⟨c', hc'⟩

/-- The opening shows nothing more: of two provers with the same commitments and values, both with right values, the
commitments of the openings are the same. -/
theorem C105_opening {L : Type} (E : Pairing F G G2 GT) {n : ℕ} (hn : 0 < n) {qs : List (Query L F)} {p p' : L → F[X]}
    (hp : ∀ l, (p l).degree < n) (hp' : ∀ l, (p' l).degree < n) (hr : ∀ q ∈ qs, q.eval = (p q.label).eval q.point)
    (hr' : ∀ q ∈ qs, q.eval = (p' q.label).eval q.point) {τ u : F} (hτ : ∀ q ∈ qs, q.point ≠ τ)
    (hu : ∀ q ∈ qs, q.point ≠ u) (hne : τ ≠ u)
    (h : ∀ q ∈ qs, commit τ E.g n (p q.label) = commit τ E.g n (p' q.label)) (y v : F) :
    commit τ E.g n (Shplonk.quotient qs p y v) = commit τ E.g n (Shplonk.quotient qs p' y v) ∧
      commit τ E.g n (Shplonk.linear qs p (Shplonk.quotient qs p y v) y v u /ₘ (X - C u)) =
        commit τ E.g n (Shplonk.linear qs p' (Shplonk.quotient qs p' y v) y v u /ₘ (X - C u)) := by
  have hev : ∀ l ∈ Shplonk.labels qs, (p l).eval τ = (p' l).eval τ := by
    intro l hl
    obtain ⟨q, hq, rfl⟩ := (Shplonk.mem_labels qs).mp hl
    have e := h q hq
    rw [commit_eq τ E.g (hp _), commit_eq τ E.g (hp' _)] at e
    refine sub_eq_zero.mp (E.nondegenerate _ ?_)
    rw [← LinearMap.smul_apply, ← map_smul, sub_smul, e, sub_self, map_zero, LinearMap.zero_apply]
  have d := Shplonk.quotient_degree hp (Shplonk.evalOf_right hr) y v
  have d' := Shplonk.quotient_degree hp' (Shplonk.evalOf_right hr') y v
  constructor
  · rw [commit_eq τ E.g d, commit_eq τ E.g d', Shplonk.quotient_eval hr hr' hτ hev]
  · rw [commit_eq τ E.g (lt_of_le_of_lt (degree_divByMonic_le _ _) (Shplonk.linear_degree hn hp d y v u)),
      commit_eq τ E.g (lt_of_le_of_lt (degree_divByMonic_le _ _) (Shplonk.linear_degree hn hp' d' y v u)),
      Shplonk.linear_div_eval hr hr' hτ hu hne hev]

/-- The rest of a proof is determined: if two provers that convince the verifier send the same commitments to columns and
pieces of the quotient, and the same values of columns, then the verifier has the same queries for both, and both send the
same commitments for the opening. -/
theorem C105_rest [Fintype F] {cs : CS F} {ws : List (Wide F)} {ops : List (Op F)} {n : ℕ} {ω δ : F} {K : Key F}
    (hK : keygenWith cs ws ops n ω δ = .ok K) (hω : IsPrimitiveRoot ω n)
    (hown : ∀ i, cs.numAdvice ≤ i → cs.rots i = ∅ ∧ wideRots ws i = ∅) (E : Pairing F G G2 GT) {P P' : Prover F}
    (hP : P.Short n) (hP' : P'.Short n) {θ β γ y x : F} (hc : P.Convinces K (θ, β, γ, y, x))
    (hc' : P'.Convinces K (θ, β, γ, y, x)) {τ : F}
    (hv : K.view (P.messages θ β γ) x = K.view (P'.messages θ β γ) x)
    (hs : K.seal τ E.g (P.messages θ β γ) = K.seal τ E.g (P'.messages θ β γ))
    (hh : ∀ i < K.degree - 1, commit τ E.g n (P.quotient θ β γ y i) = commit τ E.g n (P'.quotient θ β γ y i)) :
    K.claims ((honestOpenings K P).values (θ, β, γ, y, x)) θ β γ y x =
        K.claims ((honestOpenings K P').values (θ, β, γ, y, x)) θ β γ y x ∧
      ∀ y' v' u : F, (∀ q ∈ K.queries, ω ^ q.2 * x ≠ τ ∧ ω ^ q.2 * x ≠ u) → τ ≠ u →
        commit τ E.g n ((honestOpenings K P).first (θ, β, γ, y, x) y' v') =
            commit τ E.g n ((honestOpenings K P').first (θ, β, γ, y, x) y' v') ∧
          commit τ E.g n ((honestOpenings K P).second (θ, β, γ, y, x) y' v' u) =
            commit τ E.g n ((honestOpenings K P').second (θ, β, γ, y, x) y' v' u) := by
  classical
  have hwf := keygen_wf hK hω
  obtain ⟨en, eω, h⟩ : K.n = n ∧ K.ω = ω ∧ ∀ i, K.cs.numAdvice ≤ i → K.rots i = ∅ := by
    obtain ⟨-, -, s, -, rfl⟩ := keygen_ok hK
    exact ⟨rfl, rfl, fun i hi => by
      change cs.rots i ∪ wideRots ws i = ∅
      rw [(hown i hi).1, (hown i hi).2, Finset.empty_union]⟩
  subst en
  subst eω
  have hn : 0 < K.n := lt_of_le_of_lt (Nat.zero_le _) hwf.lt
  have hm : (P.messages θ β γ).Short K.n := ⟨hP.advice, hP.input θ, hP.table θ, hP.zPerm θ β γ, hP.zLookup θ β γ⟩
  have hm' : (P'.messages θ β γ).Short K.n := ⟨hP'.advice, hP'.input θ, hP'.table θ, hP'.zPerm θ β γ, hP'.zLookup θ β γ⟩
  have hval : ∀ q ∈ K.queries, q.1 ≠ .quotient → (honestOpenings K P).values (θ, β, γ, y, x) q.1 q.2 =
      (honestOpenings K P').values (θ, β, γ, y, x) q.1 q.2 := fun q hq hne =>
    Key.values_view h hv (P.quotient θ β γ y) (P'.quotient θ β γ y) hq hne
  have hright : K.RightValues (P.messages θ β γ) (P.quotient θ β γ y) ((honestOpenings K P).values (θ, β, γ, y, x)) x :=
    fun q _ _ => rfl
  have hright' : K.RightValues (P'.messages θ β γ) (P'.quotient θ β γ y) ((honestOpenings K P').values (θ, β, γ, y, x)) x :=
    fun q _ _ => rfl
  have hclaims : K.claims ((honestOpenings K P).values (θ, β, γ, y, x)) θ β γ y x =
      K.claims ((honestOpenings K P').values (θ, β, γ, y, x)) θ β γ y x := by
    unfold Key.claims
    refine List.map_congr_left fun q hq => ?_
    by_cases hl : q.1 = .quotient
    · simp only [if_pos hl]
      unfold Key.expectedQuotient
      rw [Key.terms_claimed hright, Key.terms_claimed hright', Key.terms_view h, Key.terms_view h, hv]
    · simp only [if_neg hl]
      rw [hval q hq hl]
  refine ⟨hclaims, fun y' v' u hoff hne => ?_⟩
  have hr := Key.right_of_check hright hc
  have hr' := Key.right_of_check hright' hc'
  rw [← hclaims] at hr'
  have hcom : ∀ q ∈ K.claims ((honestOpenings K P).values (θ, β, γ, y, x)) θ β γ y x,
      commit τ E.g K.n (K.polynomials (P.messages θ β γ) (P.quotient θ β γ y) x q.label) =
        commit τ E.g K.n (K.polynomials (P'.messages θ β γ) (P'.quotient θ β γ y) x q.label) := by
    intro q hq
    obtain ⟨⟨l, k⟩, hq', rfl⟩ := List.mem_map.mp hq
    exact Key.commit_same hwf.root h hm hm' (hP.quotient θ β γ y) (hP'.quotient θ β γ y) hs hh hq'
  have key := C105_opening E hn (Key.polynomials_degree hwf.root hm (hP.quotient θ β γ y) x)
    (Key.polynomials_degree hwf.root hm' (hP'.quotient θ β γ y) x) hr hr' (τ := τ) (u := u)
    (fun q hq => by
      obtain ⟨⟨l, k⟩, hq', rfl⟩ := List.mem_map.mp hq
      exact (hoff _ hq').1)
    (fun q hq => by
      obtain ⟨⟨l, k⟩, hq', rfl⟩ := List.mem_map.mp hq
      exact (hoff _ hq').2) hne hcom y' v'
  simp only [honestOpenings, if_pos hc, if_pos hc'] at key hclaims ⊢
  rw [← hclaims]
  exact key

/-- With as many random values as points that are read there are not enough: values and commitment tell assignments apart,
since there is one choice of the random values for the one and none for the other. -/
theorem C105_needed (E : Pairing F G G2 GT) {n m u : ℕ} {ω x τ : F} (hω : IsPrimitiveRoot ω n) (hx : x ^ n ≠ 1) (hu : u + m = n)
    (h0 : 0 < u) {Q : Finset ℤ} (hQ : Q.card = m) (hinj : Set.InjOn (fun k : ℤ => ω ^ k * x) Q)
    (hτ : ∀ k ∈ Q, ω ^ k * x ≠ τ) : ∃ (f f' : ℕ → F) (v : ℤ → F) (s : G),
      Nat.card {c : Fin m → F // (∀ k ∈ Q, rotEval ω (interp n ω (blind u f c)) k x = v k) ∧
        commit τ E.g n (interp n ω (blind u f c)) = s} = 1 ∧
      Nat.card {c : Fin m → F // (∀ k ∈ Q, rotEval ω (interp n ω (blind u f' c)) k x = v k) ∧
        commit τ E.g n (interp n ω (blind u f' c)) = s} = 0 := by
  classical
  let pts : Finset F := Q.image fun k => ω ^ k * x
  have hpts : pts.card = m := by rw [Finset.card_image_of_injOn hinj, hQ]
  let D : F[X] := ∏ p ∈ pts, (X - C p)
  have hD : D.degree < n := by
    rw [Shplonk.nodal_degree, hpts]
    exact_mod_cast (by omega : m < n)
  let rows : Finset F := (Finset.range u).image fun r => ω ^ r
  have hrows : rows.card = u := by
    rw [Finset.card_image_of_injOn, Finset.card_range]
    intro a ha b hb e
    exact hω.pow_inj (by have := Finset.mem_range.mp ha; omega) (by have := Finset.mem_range.mp hb; omega) e
  have hdis : Disjoint rows pts := by
    rw [Finset.disjoint_left]
    intro a ha hb
    obtain ⟨r, -, rfl⟩ := Finset.mem_image.mp ha
    obtain ⟨k, -, e⟩ := Finset.mem_image.mp hb
    exact point_off hω hx k r e
  have hcard : (rows ∪ pts).card = n := by rw [Finset.card_union_of_disjoint hdis, hrows, hpts, hu]
  have same : ∀ {a b : F[X]}, a.degree < n → b.degree < n → (∀ r < u, a.eval (ω ^ r) = b.eval (ω ^ r)) →
      (∀ p ∈ pts, a.eval p = b.eval p) → a = b := by
    intro a b ha hb h1 h2
    refine eq_of_degrees_lt_of_eval_finset_eq (rows ∪ pts) (by rw [hcard]; exact ha) (by rw [hcard]; exact hb) fun p hp => ?_
    rcases Finset.mem_union.mp hp with hp | hp
    · obtain ⟨r, hr, rfl⟩ := Finset.mem_image.mp hp
      exact h1 r (Finset.mem_range.mp hr)
    · exact h2 p hp
  have hlow : ∀ (f : ℕ → F) (c : Fin m → F) {r : ℕ}, r < u → (interp n ω (blind u f c)).eval (ω ^ r) = f r :=
    fun f c r hr => Key.interp_blind hω f c hr (by omega)
  have hzero : interp n ω (blind u (0 : ℕ → F) (0 : Fin m → F)) = 0 := by
    refine interp_self hω (by rw [degree_zero]; exact WithBot.bot_lt_coe _) fun r _ => ?_
    rw [eval_zero]
    unfold blind
    split_ifs <;> rfl
  refine ⟨0, fun r => D.eval (ω ^ r), 0, 0, ?_, ?_⟩
  · rw [Nat.card_eq_one_iff_unique]
    refine ⟨⟨fun a b => Subtype.ext (funext fun j => ?_)⟩, ⟨0, fun k _ => ?_, ?_⟩⟩
    · have e : interp n ω (blind u (0 : ℕ → F) a.1) = interp n ω (blind u (0 : ℕ → F) b.1) := by
        refine same (interp_degree hω _) (interp_degree hω _) (fun r hr => ?_) fun p hp => ?_
        · rw [hlow _ _ hr, hlow _ _ hr]
        · obtain ⟨k, hk, rfl⟩ := Finset.mem_image.mp hp
          exact (a.2.1 k hk).trans (b.2.1 k hk).symm
      have e' := congrArg (fun p => p.eval (ω ^ (u + (j : ℕ)))) e
      have hj : u + (j : ℕ) < n := by have := j.isLt; omega
      simp only [interp_eval hω _ hj] at e'
      have hb : ∀ c : Fin m → F, blind u (0 : ℕ → F) c (u + (j : ℕ)) = c j := by
        intro c
        unfold blind
        rw [dif_pos ⟨by omega, by have := j.isLt; omega⟩]
        congr 1
        exact Fin.ext (by simp)
      rwa [hb, hb] at e'
    · rw [hzero]
      exact eval_zero
    · rw [hzero, commit_eq τ E.g (by rw [degree_zero]; exact WithBot.bot_lt_coe _), eval_zero, zero_smul]
  · rw [Nat.card_eq_zero]
    refine Or.inl ⟨fun c => ?_⟩
    have e : interp n ω (blind u (fun r => D.eval (ω ^ r)) c.1) = D := by
      refine same (interp_degree hω _) hD (fun r hr => hlow _ _ hr) fun p hp => ?_
      obtain ⟨k, hk, rfl⟩ := Finset.mem_image.mp hp
      refine (c.2.1 k hk).trans ?_
      rw [← Shplonk.vanish_eq_nodal, Shplonk.vanish_zero hp]
      rfl
    have h := c.2.2
    rw [e, commit_eq τ E.g hD] at h
    have h' : D.eval τ = 0 := E.nondegenerate _ (by
      rw [← LinearMap.smul_apply, ← map_smul, h, map_zero, LinearMap.zero_apply])
    rw [← Shplonk.vanish_eq_nodal] at h'
    refine Shplonk.vanish_ne (fun hm => ?_) h'
    obtain ⟨k, hk, e⟩ := Finset.mem_image.mp hm
    exact hτ k hk e

/-- The test circuits of the hash table: commitments and values of a proof show nothing of the table, and the opening of the
commitments shows nothing more. -/
theorem C105_tests {k : ChipKind} {ch : Chip Fr 3} (hch : bnChip k = .ok ch) (short legacy : Bool) (mode mode' : LoadMode)
    {STEP : ℕ} {t t' : HashTable Fr} {calcs : ℕ} (hS : STEP < 2 ^ 64) (hc : calcs < 2 ^ 64)
    (ht : ∀ c ∈ t.controls, c < 2 ^ 64) (ht' : ∀ c ∈ t'.controls, c < 2 ^ 64) {kk : ℕ} (hkk : kk ≤ 28) {x y : Run Fr}
    (hx : x = testRun ch short legacy mode STEP t calcs) (hy : y = testRun ch short legacy mode' STEP t' calcs)
    {L L' : Layouter Fr} (hL : x.load = .ok L) (hL' : y.load = .ok L') {K : Key Fr}
    (hK : keygen x.configured.2 L.ops (2 ^ kk) (omega kk) delta = .ok K) {G G2 GT : Type} [AddCommGroup G] [Module Fr G]
    [AddCommGroup G2] [Module Fr G2] [AddCommGroup GT] [Module Fr GT] (E : Pairing Fr G G2 GT) {τ : Fr}
    (hτ : τ ^ 2 ^ kk ≠ 1) :
    keygen y.configured.2 L'.ops (2 ^ kk) (omega kk) delta = .ok K ∧
    (∀ θ β γ z : Fr, z ^ 2 ^ kk ≠ 1 → ∀ (v : K.View) (s : K.Sealed G),
      Nat.card {c : K.Coins // K.view ((K.honest (finalAdvice L.ops) c).messages θ β γ) z = v ∧
          K.seal τ E.g ((K.honest (finalAdvice L.ops) c).messages θ β γ) = s} =
        Nat.card {c : K.Coins // K.view ((K.honest (finalAdvice L'.ops) c).messages θ β γ) z = v ∧
          K.seal τ E.g ((K.honest (finalAdvice L'.ops) c).messages θ β γ) = s}) ∧
    ∀ (P P' : Prover Fr), P.Short (2 ^ kk) → P'.Short (2 ^ kk) → ∀ θ β γ η z : Fr, P.Convinces K (θ, β, γ, η, z) →
      P'.Convinces K (θ, β, γ, η, z) → K.view (P.messages θ β γ) z = K.view (P'.messages θ β γ) z →
      K.seal τ E.g (P.messages θ β γ) = K.seal τ E.g (P'.messages θ β γ) →
      (∀ i < K.degree - 1, commit τ E.g (2 ^ kk) (P.quotient θ β γ η i) = commit τ E.g (2 ^ kk) (P'.quotient θ β γ η i)) →
      ∀ y' v' u : Fr, (∀ q ∈ K.queries, omega kk ^ q.2 * z ≠ τ ∧ omega kk ^ q.2 * z ≠ u) → τ ≠ u →
        commit τ E.g (2 ^ kk) ((honestOpenings K P).first (θ, β, γ, η, z) y' v') =
            commit τ E.g (2 ^ kk) ((honestOpenings K P').first (θ, β, γ, η, z) y' v') ∧
          commit τ E.g (2 ^ kk) ((honestOpenings K P).second (θ, β, γ, η, z) y' v' u) =
            commit τ E.g (2 ^ kk) ((honestOpenings K P').second (θ, β, γ, η, z) y' v' u) := by
  have hω := omega_primitive hkk
  have hlegal : x.Legal := by
    rw [hx]
    exact ⟨fun i => i.isLt, fun i j h => Fin.ext h, by simp [testRun], hS, hS, hc, ht⟩
  have hbn : x.IsBn k short := by rw [hx]; exact ⟨hch, rfl⟩
  have h0 : ∀ c, x.cs.rots c = ∅ := by rw [hx]; intro c; rfl
  refine ⟨(C96_tests hch short legacy mode mode' hS hc ht ht' hkk hx hy hL hL' hK).1,
    fun θ β γ z hz v s => C105_hiding hK hω E.g _ _ θ β γ hz hτ v s,
    fun P P' hP hP' θ β γ η z hcc hcc' hv hs hh => (C105_rest hK hω (fun i hi => ⟨?_, rfl⟩) E hP hP' hcc hcc' hv hs hh).2⟩
  exact configured_own hbn hlegal (fun c _ => h0 c) i hi

-- `vk_validity` (hash_proving.rs:82-111) on `2^8` rows: commitments and values of a proof of the table [1, 2], [0, 1] could be
-- those of a proof of the empty table
example {b : Bool} (short legacy : Bool) (mode : LoadMode) {ch : Chip Fr 3} (hch : bnChip (.pow5 b) = .ok ch)
    {x y : Run Fr} (hx : x = testRun ch short legacy mode 62 ⟨[(1, 2), (0, 1)], [], [], []⟩ 3)
    (hy : y = testRun ch short legacy mode 62 .empty 3) {τ : Fr} (hτ : τ ^ 2 ^ 8 ≠ 1) :
    ∃ L L', x.load = .ok L ∧ y.load = .ok L' ∧ ∃ K, keygen y.configured.2 L'.ops (2 ^ 8) (omega 8) delta = .ok K ∧
      (∀ c : K.Coins, Base.Bn256.r ^ 5 ≤ Nat.card {d // (K.honest (finalAdvice L.ops) c).Convinces K d} +
        17 * 2 ^ 8 * Base.Bn256.r ^ 4) ∧
      ∀ (c : K.Coins) (θ β γ z : Fr), z ^ 2 ^ 8 ≠ 1 → ∃ c',
        K.view ((K.honest (finalAdvice L'.ops) c').messages θ β γ) z =
          K.view ((K.honest (finalAdvice L.ops) c).messages θ β γ) z ∧
        K.seal τ (mulPairing Fr).g ((K.honest (finalAdvice L'.ops) c').messages θ β γ) =
          K.seal τ (mulPairing Fr).g ((K.honest (finalAdvice L.ops) c).messages θ β γ) := by
  have hlegal : x.Legal := by
    rw [hx]
    exact ⟨fun i => i.isLt, fun i j h => Fin.ext h, by simp [testRun], by simp [testRun], by simp [testRun],
      by simp [testRun], by simp [testRun]⟩
  have hbn : x.IsBn (.pow5 b) short := by rw [hx]; exact ⟨hch, rfl⟩
  obtain ⟨L, hL⟩ := (C41_checks hbn hlegal).1.mpr (by
    rw [hx]
    exact ⟨fun _ => by simp [testRun], by intro a m _ _ ck h; simp [testRun, rowCk] at h⟩)
  obtain ⟨L', hL', -⟩ := C91_tests hch short legacy mode mode (by norm_num) (by norm_num) (by simp) hx hL hy
  obtain ⟨K, hK⟩ := (C88_tests hch short legacy mode (by norm_num) (by norm_num) (by simp) (kk := 8) (by norm_num) hx
    hL).1.mpr ⟨by norm_num, by norm_num, by simp [ChipKind.rows]⟩
  obtain ⟨h1, h2, -, -⟩ := C96_tests hch short legacy mode mode (by norm_num) (by norm_num) (by simp)
    (by simp [HashTable.empty]) (by norm_num) hx hy hL hL' hK
  refine ⟨L, L', hL, hL', K, h1, fun c => (h2 ?_ c).2, fun c θ β γ z hz =>
    C105_any hK (omega_primitive (by norm_num)) _ _ _ θ β γ hz hτ c⟩
  refine ⟨fun j _ h => ?_, fun j hj => ?_⟩
  · simp [rowCtl] at h
  · obtain rfl : j = 2 := by omega
    simp [rowCtl, rowWords]

-- two families of polynomials with the same values at 0 and 1 and the same value at the secret, that is, the same commitments
example [Fintype F] (a τ y v u : F) (h0 : τ ≠ 0) (h1 : τ ≠ 1) (u0 : u ≠ 0) (u1 : u ≠ 1) (hne : τ ≠ u) :
    commit τ (mulPairing F).g 4 (Shplonk.quotient (fewQueries F 1) (fewPolys F) y v) = commit τ (mulPairing F).g 4
      (Shplonk.quotient (fewQueries F 1) (fun l => fewPolys F l + C a * (X * (X - C 1) * (X - C τ))) y v) := by
  have hd : ∀ l, (fewPolys F l).degree < (4 : ℕ) := fun l => lt_trans (few_degree l) (by norm_num)
  have hd3 : (C a * (X * (X - C 1) * (X - C τ)) : F[X]).degree < (4 : ℕ) := by
    have e : ((X * (X - C 1) * (X - C τ)) : F[X]).degree = 3 := by
      rw [Polynomial.degree_mul, Polynomial.degree_mul, degree_X, degree_X_sub_C, degree_X_sub_C]
      norm_num
    refine Shplonk.degree_C_mul_lt ?_ a
    rw [e]
    norm_num
  refine (C105_opening (mulPairing F) (n := 4) (by norm_num) (qs := fewQueries F 1) hd
    (fun l => lt_of_le_of_lt (degree_add_le _ _) (max_lt (hd l) hd3)) ?_ ?_ (u := u) ?_ ?_ hne ?_ y v).1
  · intro q hq
    simp only [fewQueries, List.mem_cons, List.not_mem_nil, or_false] at hq
    rcases hq with rfl | rfl | rfl <;> simp [fewPolys]
  · intro q hq
    simp only [fewQueries, List.mem_cons, List.not_mem_nil, or_false] at hq
    rcases hq with rfl | rfl | rfl <;> simp [fewPolys]
  · intro q hq
    simp only [fewQueries, List.mem_cons, List.not_mem_nil, or_false] at hq
    rcases hq with rfl | rfl | rfl <;> simp [h0.symm, h1.symm]
  · intro q hq
    simp only [fewQueries, List.mem_cons, List.not_mem_nil, or_false] at hq
    rcases hq with rfl | rfl | rfl <;> simp [u0.symm, u1.symm]
  · intro q _
    rw [commit_eq τ _ (hd _), commit_eq τ _ (lt_of_le_of_lt (degree_add_le _ _) (max_lt (hd _) hd3))]
    simp

instance : Fact (Nat.Prime 17) := ⟨by norm_num⟩

-- four rows, two of them random, and two points: modulo 17 with the root 4, the points 2 and 8 and the secret 3
example : ∃ (f f' : ℕ → ZMod 17) (v : ℤ → ZMod 17) (s : ZMod 17),
    Nat.card {c : Fin 2 → ZMod 17 // (∀ k ∈ ({0, 1} : Finset ℤ), rotEval 4 (interp 4 4 (blind 2 f c)) k 2 = v k) ∧
      commit 3 (mulPairing (ZMod 17)).g 4 (interp 4 4 (blind 2 f c)) = s} = 1 ∧
    Nat.card {c : Fin 2 → ZMod 17 // (∀ k ∈ ({0, 1} : Finset ℤ), rotEval 4 (interp 4 4 (blind 2 f' c)) k 2 = v k) ∧
      commit 3 (mulPairing (ZMod 17)).g 4 (interp 4 4 (blind 2 f' c)) = s} = 0 := by
  have p0 : (4 : ZMod 17) ^ (0 : ℤ) * 2 = 2 := by rw [zpow_zero, one_mul]
  have p1 : (4 : ZMod 17) ^ (1 : ℤ) * 2 = 8 := by rw [zpow_one]; decide
  refine C105_needed (mulPairing (ZMod 17)) (n := 4) (m := 2) (u := 2) (ω := 4) (x := 2) (τ := 3) ?_ (by decide) rfl
    (by norm_num) (Q := {0, 1}) rfl ?_ ?_
  · refine IsPrimitiveRoot.mk_of_lt _ (by norm_num) (by decide) fun l hl hl' => ?_
    interval_cases l <;> decide
  · intro a ha b hb h
    simp only [Finset.coe_insert, Finset.coe_singleton, Set.mem_insert_iff, Set.mem_singleton_iff] at ha hb
    rcases ha with rfl | rfl <;> rcases hb with rfl | rfl
    · rfl
    · simp only [p0, p1] at h
      exact absurd h (by decide)
    · simp only [p0, p1] at h
      exact absurd h (by decide)
    · rfl
  · intro k hk
    simp only [Finset.mem_insert, Finset.mem_singleton] at hk
    rcases hk with rfl | rfl
    · rw [p0]; decide
    · rw [p1]; decide

end Props
