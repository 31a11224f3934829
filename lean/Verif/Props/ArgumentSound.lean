import Verif.Props.ArgumentRows

/-!
# Soundness of the argument
-/

set_option linter.unusedSectionVars false
set_option linter.unusedDecidableInType false

namespace Halo2
open Polynomial
variable {F : Type} [Field F]

namespace Key

/-- Number of terms the verifier combines, or more. -/
def numTerms (K : Key F) : ℕ :=
  (K.cs.gates.flatMap fun p => p.polys).length + (2 * K.chunks + 1) + 5 * K.lookups.length

theorem terms_length {R : Type} [CommRing R] [Algebra F R] (K : Key F) (θ β γ : F) (o : Opened R) :
    (terms K θ β γ o).length ≤ K.numTerms := by
  have h1 : (gateTerms K o).length = (K.cs.gates.flatMap fun p => p.polys).length := by
    simp only [gateTerms, List.length_flatMap, List.length_map]
  have h2 : (permTerms K β γ o).length ≤ 2 * K.chunks + 1 := by
    unfold permTerms
    split_ifs with h
    · simp
    · simp only [List.length_append, List.length_map, List.length_range, List.length_cons, List.length_nil]
      omega
  have h3 : ((K.lookups.map (Wide.compress θ)).zipIdx.flatMap fun li => lookupTerms β γ li.2 li.1 o).length = 5 * K.lookups.length := by
    simp only [List.length_flatMap, lookupTerms, List.length_cons, List.length_nil, List.map_const', List.sum_replicate,
      List.length_zipIdx, List.length_map, smul_eq_mul]
    ring
  rw [terms, List.length_append, List.length_append, numTerms]
  omega

/-- The permutation moves the cell `i₀` to one with other content. -/
def Torn (K : Key F) (advice : ℕ → F[X]) : Prop :=
  ∃ i₀ ∈ K.cells, ∀ j ∈ K.cells, ¬ (K.val advice j = K.val advice i₀ ∧ K.image j = K.name i₀)

/-- The assignment breaks a gate, a lookup or the permutation. -/
def Broken (K : Key F) (advice : ℕ → F[X]) : Prop :=
  (∃ p ∈ K.cs.gates, ¬ p.Holds (K.grid advice)) ∨ (∃ w ∈ K.lookups, ¬ w.Holds (K.grid advice)) ∨ K.Torn advice

/-- Every compressed input is a compressed table entry. -/
def Compressed (K : Key F) (advice : ℕ → F[X]) (θ : F) (w : Wide F) : Prop :=
  ∀ r < K.usable, ∃ r' < K.usable,
    (w.compress θ).1.eval (K.grid advice) r = (w.compress θ).2.eval (K.grid advice) r'

/-- The assignment breaks a gate, a compressed lookup or the permutation. -/
def BrokenAt (K : Key F) (advice : ℕ → F[X]) (θ : F) : Prop :=
  (∃ p ∈ K.cs.gates, ¬ p.Holds (K.grid advice)) ∨ (∃ w ∈ K.lookups, ¬ K.Compressed advice θ w) ∨ K.Torn advice

theorem compress_eval (θ : F) (es : List (Expr F)) (g : Grid F) (r : ℕ) :
    (compress θ es).eval g r = (es.map fun e => e.eval g r).foldl (fun a v => a * θ + v) 0 := by
  have key : ∀ (es : List (Expr F)) (e₀ : Expr F), (es.foldl (fun acc e => .add (.scaled acc θ) e) e₀).eval g r =
      (es.map fun e => e.eval g r).foldl (fun a v => a * θ + v) (e₀.eval g r) := by
    intro es
    induction es with
    | nil => intro e₀; rfl
    | cons e es ih => intro e₀; rw [List.foldl_cons, ih]; rfl
  exact key es _

theorem foldl_sub (θ : F) {A : Type} (f f' : A → F) (l : List A) (a b : F) :
    (l.map f).foldl (fun a v => a * θ + v) a - (l.map f').foldl (fun a v => a * θ + v) b =
      (l.map fun x => f x - f' x).foldl (fun a v => a * θ + v) (a - b) := by
  induction l generalizing a b with
  | nil => rfl
  | cons x l ih =>
    simp only [List.map_cons, List.foldl_cons]
    rw [ih]
    congr 1
    ring

/-- Largest number of pairs of a lookup, minus one. -/
def width (K : Key F) : ℕ := (K.lookups.map fun w => w.pairs.length - 1).foldr max 0

/-- The terms vanish on all rows. -/
def Vanish (K : Key F) (m : Messages F) (θ β γ : F) : Prop :=
  ∀ r < K.n, ∀ t ∈ terms K θ β γ (K.opened m (K.ω ^ r)), t = 0

variable [Fintype F]

/-- Few `θ` hide a broken lookup. -/
theorem count_theta {K : Key F} {advice : ℕ → F[X]} (hb : K.Broken advice) :
    count (fun θ : F => ¬ K.BrokenAt advice θ) ≤ K.usable * K.width := by
  classical
  rcases hb with hb | ⟨w, hw, hb⟩ | hb
  · rw [count_false fun θ h => h (Or.inl hb)]
    exact Nat.zero_le _
  · unfold Wide.Holds at hb
    push Not at hb
    obtain ⟨r, hr, hb⟩ := hb
    have hlen : w.pairs.length - 1 ≤ K.width :=
      le_foldr_max' (List.mem_map_of_mem (f := fun w : Wide F => w.pairs.length - 1) hw)
    have hsub : ∀ θ : F, ¬ K.BrokenAt advice θ → ∃ r' ∈ Finset.range K.usable,
        (w.pairs.map fun p => p.1.eval (K.grid advice) r - p.2.eval (K.grid advice) r').foldl (fun a t => a * θ + t) 0 = 0 := by
      intro θ h
      have hc : K.Compressed advice θ w := by
        by_contra hc
        exact h (Or.inr (Or.inl ⟨w, hw, hc⟩))
      obtain ⟨r', hr', e⟩ := hc r hr
      refine ⟨r', Finset.mem_range.mpr hr', ?_⟩
      rw [Wide.compress, compress_eval, compress_eval, List.map_map, List.map_map] at e
      have := foldl_sub θ (fun p : Expr F × Expr F => p.1.eval (K.grid advice) r)
        (fun p : Expr F × Expr F => p.2.eval (K.grid advice) r') w.pairs 0 0
      rw [sub_zero] at this
      rw [← this]
      exact sub_eq_zero.mpr e
    have hone : ∀ r' ∈ Finset.range K.usable, count (fun θ : F =>
        (w.pairs.map fun p => p.1.eval (K.grid advice) r - p.2.eval (K.grid advice) r').foldl (fun a t => a * θ + t) 0 = 0) ≤
          K.width := by
      intro r' hr'
      obtain ⟨p, hp, hne⟩ := hb r' (Finset.mem_range.mp hr')
      refine (count_combine ⟨_, List.mem_map_of_mem (f := fun p : Expr F × Expr F =>
        p.1.eval (K.grid advice) r - p.2.eval (K.grid advice) r') hp, sub_ne_zero.mpr hne⟩).trans ?_
      rw [List.length_map]
      exact hlen
    have hex : ∀ (s : Finset ℕ) (q : ℕ → F → Prop) (N : ℕ), (∀ i ∈ s, count (q i) ≤ N) →
        count (fun θ => ∃ i ∈ s, q i θ) ≤ s.card * N := by
      intro s q N
      induction s using Finset.induction_on with
      | empty => intro _; rw [count_false (by simp)]; exact Nat.zero_le _
      | insert i s hi ih =>
        intro h
        rw [Finset.card_insert_of_notMem hi, add_mul, one_mul, add_comm]
        refine (count_mono fun θ hθ => ?_).trans ((count_or (q i) fun θ => ∃ i ∈ s, q i θ).trans
          (Nat.add_le_add (h i (by simp)) (ih fun j hj => h j (by simp [hj]))))
        obtain ⟨j, hj, hq⟩ := hθ
        rcases Finset.mem_insert.mp hj with rfl | hj
        · exact Or.inl hq
        · exact Or.inr ⟨j, hj, hq⟩
    refine (count_mono hsub).trans ((hex _ _ _ hone).trans ?_)
    rw [Finset.card_range]
  · rw [count_false fun θ h => h (Or.inr (Or.inr hb))]
    exact Nat.zero_le _

theorem count_vanish {K : Key F} (h : K.Wf) (advice : ℕ → F[X]) (permuted : ℕ → F[X] × F[X])
    (products : F × F → (ℕ → F[X]) × (ℕ → F[X])) {θ : F} (hb : K.BrokenAt advice θ) :
    count (fun c : F × F => K.Vanish ⟨advice, permuted, (products c).1, (products c).2⟩ θ c.1 c.2) ≤
      (3 * K.cells.card + 4 * K.usable) * Fintype.card F := by
  rcases hb with ⟨p, hp, hb⟩ | ⟨w, hw, hb⟩ | ⟨i₀, h₀, ht⟩
  · · rw [count_false]
      · exact Nat.zero_le _
      · intro c hc
        refine hb fun e he r hr => ?_
        have := hc r hr (e.evalAt (K.opened ⟨advice, permuted, (products c).1, (products c).2⟩ (K.ω ^ r))) (by
          refine List.mem_append_left _ (List.mem_append_left _ (List.mem_flatMap.mpr ⟨p, hp, ?_⟩))
          exact List.mem_map_of_mem (f := Expr.evalAt _) he)
        rwa [expr_row h hr] at this
  · · obtain ⟨i, hi, rfl⟩ := List.mem_iff_getElem.mp hw
      have key : ∀ c : F × F, K.Vanish ⟨advice, permuted, (products c).1, (products c).2⟩ θ c.1 c.2 → _ := fun c hc =>
        lookup_product h (β := c.1) (γ := c.2) (i := i) (p := K.lookups[i].compress θ)
          (m := ⟨advice, permuted, (products c).1, (products c).2⟩) fun r hr t ht =>
            hc r hr t (List.mem_append_right _ (List.mem_flatMap.mpr ⟨(K.lookups[i].compress θ, i), by
              rw [List.mem_iff_getElem]
              exact ⟨i, by simpa using hi, by simp⟩, ht⟩))
      by_cases hs : ∀ r < K.usable, ∃ r' < K.usable, (permuted i).1.eval (K.ω ^ r) = (permuted i).2.eval (K.ω ^ r')
      · have := count_lookup (Finset.range K.usable) (fun r => (K.lookups[i].compress θ).1.eval (K.grid advice) r)
          (fun r => (permuted i).1.eval (K.ω ^ r)) (fun r => (K.lookups[i].compress θ).2.eval (K.grid advice) r)
          (fun r => (permuted i).2.eval (K.ω ^ r)) (by
            by_contra hc
            push Not at hc
            obtain ⟨h1, h2⟩ := hc
            refine hb fun r hr => ?_
            obtain ⟨j, hj, e1⟩ := h1 r (Finset.mem_range.mpr hr)
            obtain ⟨j', hj', e2⟩ := hs j (Finset.mem_range.mp hj)
            obtain ⟨k, hk, e3⟩ := h2 j' (Finset.mem_range.mpr hj')
            exact ⟨k, Finset.mem_range.mp hk, by rw [← e1, e2, ← e3]⟩)
        rw [Finset.card_range] at this
        exact (count_mono fun c hc => (key c hc).1).trans (this.trans (Nat.mul_le_mul_right _ (by omega)))
      · rw [count_false]
        · exact Nat.zero_le _
        · exact fun c hc => hs (key c hc).2
  · have := count_perm K.cells (K.val advice) K.name K.image h₀ ht
    refine (count_mono fun c hc => ?_).trans (this.trans (Nat.mul_le_mul_right _ (by omega)))
    exact perm_product h (m := ⟨advice, permuted, (products c).1, (products c).2⟩) (β := c.1) (γ := c.2)
      fun r hr t ht => hc r hr t (List.mem_append_left _ (List.mem_append_right _ ht))

/-- Few `β, γ` can save a broken assignment, whatever products the prover sends afterwards. -/
theorem count_betaGamma {K : Key F} (h : K.Wf) (advice : ℕ → F[X]) (permuted : ℕ → F[X] × F[X]) {θ : F}
    (hb : K.BrokenAt advice θ) :
    count (fun c : F × F => ∃ zPerm zLookup, K.Vanish ⟨advice, permuted, zPerm, zLookup⟩ θ c.1 c.2) ≤
      (3 * K.cells.card + 4 * K.usable) * Fintype.card F := by
  classical
  refine (count_mono fun c hc => ?_).trans (count_vanish h advice permuted (fun c => if hc : ∃ zPerm zLookup,
    K.Vanish ⟨advice, permuted, zPerm, zLookup⟩ θ c.1 c.2 then (hc.choose, hc.choose_spec.choose) else (0, 0)) hb)
  rw [dif_pos hc]
  exact hc.choose_spec.choose_spec

/-- The terms, combined with powers of `y`, vanish on all rows. -/
def Combined (K : Key F) (m : Messages F) (θ β γ y : F) : Prop :=
  ∀ r < K.n, (terms K θ β γ (K.opened m (K.ω ^ r))).foldl (fun a t => a * y + t) 0 = 0

/-- If the terms do not vanish on all rows, few `y` hide it. -/
theorem count_y {K : Key F} {m : Messages F} {θ β γ : F} (hv : ¬ K.Vanish m θ β γ) :
    count (fun y => K.Combined m θ β γ y) ≤ K.numTerms := by
  unfold Vanish at hv
  push Not at hv
  obtain ⟨r, hr, t, ht, hne⟩ := hv
  exact (count_mono fun y hy => hy r hr).trans (((count_combine ⟨t, ht, hne⟩).trans (Nat.sub_le _ _)).trans
    (K.terms_length θ β γ (K.opened m (K.ω ^ r))))

/-- If the combined terms do not vanish on all rows, few `x` hide it. -/
theorem count_x {K : Key F} (h : K.Wf) {m : Messages F} (hm : m.Short K.n) {hq : ℕ → F[X]}
    (hh : ∀ i, (hq i).degree < K.n) {θ β γ y : F} (hv : ¬ K.Combined m θ β γ y) :
    count (fun x => K.Check m hq θ β γ y x) ≤ K.degree * K.n := by
  have hn : 2 ≤ K.n := by have := h.pos; have := h.lt; omega
  have h3 := K.three_le_degree
  unfold Combined at hv
  push Not at hv
  obtain ⟨r, hr, hy⟩ := hv
  let A : F[X] := (terms K θ β γ (K.polys m)).foldl (fun a t => a * C y + t) 0
  let Q : F[X] := (∑ i ∈ Finset.range (K.degree - 1), (X ^ K.n) ^ i * hq i) * (X ^ K.n - 1)
  have eA : ∀ x, A.eval x = (terms K θ β γ (K.opened m x)).foldl (fun a t => a * y + t) 0 := by
    intro x
    have := foldl_map_hom (aeval (R := F) x) (C y) (terms K θ β γ (K.polys m)) 0
    rw [map_zero] at this
    simp only [coe_aeval_eq_eval, eval_C] at this
    rw [← this, terms_eval]
  have eQ : ∀ x, Q.eval x = (∑ i ∈ Finset.range (K.degree - 1), (x ^ K.n) ^ i * (hq i).eval x) * (x ^ K.n - 1) := by
    intro x
    simp only [Q, eval_mul, eval_finsetSum, eval_sub, eval_pow, eval_X, eval_one]
  refine (count_mono fun x hx => ?_).trans (count_roots (P := A - Q) ?_ (natDegree_sub_le' ?_ ?_))
  · rw [eval_sub, eA, eQ]
    exact sub_eq_zero.mpr hx.2
  · intro h0
    have := congrArg (eval (K.ω ^ r)) h0
    rw [eval_sub, eA, eQ, eval_zero, ← pow_mul, mul_comm r, pow_mul, h.root.pow_eq_one, one_pow, sub_self, mul_zero,
      sub_zero] at this
    exact hy this
  · have hd := terms_degree K θ β γ (K.polys_small h.root hn hm)
    have fold : ∀ l : List F[X], (∀ p ∈ l, p.natDegree ≤ K.degree * (K.n - 1)) → ∀ a : F[X],
        a.natDegree ≤ K.degree * (K.n - 1) →
          (l.foldl (fun a t => a * C y + t) a).natDegree ≤ K.degree * (K.n - 1) := by
      intro l
      induction l with
      | nil => intro _ a ha; exact ha
      | cons p l ih =>
        intro hl a ha
        exact ih (fun q hq => hl q (by simp [hq])) _ (natDegree_add_le' (natDegree_mul_le' (b := 0) ha (by simp) le_rfl)
          (hl p (by simp)))
    exact (fold _ hd 0 (by simp)).trans (Nat.mul_le_mul_left _ (by omega))
  · refine natDegree_mul_le' (a := (K.degree - 1) * K.n) (b := K.n) ?_ (natDegree_sub_le' (by simp) (by simp)) ?_
    · refine natDegree_sum_le_of_forall_le _ _ fun i hi => ?_
      have hi := Finset.mem_range.mp hi
      refine natDegree_mul_le' (a := K.n * i) (b := K.n - 1) (by rw [← pow_mul]; simp)
        (natDegree_le_of_short (by omega) (hh i)) ?_
      have : K.n * (i + 1) ≤ K.n * (K.degree - 1) := Nat.mul_le_mul_left _ (by omega)
      rw [mul_comm (K.degree - 1)]
      rw [mul_add] at this
      omega
    · have : (K.degree - 1) * K.n + K.n = (K.degree - 1 + 1) * K.n := by ring
      rw [this, Nat.sub_add_cancel (by omega)]

/-- If the terms do not vanish on all rows, few `y` and `x` hide it. -/
theorem count_check {K : Key F} (h : K.Wf) {m : Messages F} (hm : m.Short K.n) {hq : F → ℕ → F[X]}
    (hh : ∀ y i, (hq y i).degree < K.n) {θ β γ : F} (hv : ¬ K.Vanish m θ β γ) :
    count (fun c : F × F => K.Check m (hq c.1) θ β γ c.1 c.2) ≤ (K.numTerms + K.degree * K.n) * Fintype.card F :=
  (count_fibre (count_y hv) (N := K.degree * K.n) fun y hy => count_x h hm (hh y) hy).trans (le_of_eq (by ring))

/-- Challenges `β, γ, y, x`, of `q`, that can save a broken assignment. -/
def rest (K : Key F) : ℕ := 3 * (K.cols.length * K.usable) + 4 * K.usable + K.numTerms + K.degree * K.n

/-- Challenges, of `q`, that can save a broken assignment. -/
def slack (K : Key F) : ℕ := K.usable * K.width + K.rest

theorem count_rest {K : Key F} (h : K.Wf) {P : Prover F} (hP : P.Short K.n) {θ : F} (hb : K.BrokenAt P.advice θ) :
    count (fun c : (F × F) × (F × F) => K.Check (P.messages θ c.1.1 c.1.2) (P.quotient θ c.1.1 c.1.2 c.2.1) θ c.1.1 c.1.2
      c.2.1 c.2.2) ≤ K.rest * Fintype.card F ^ 3 := by
  have hcells : K.cells.card = K.cols.length * K.usable := by
    rw [cells, Finset.card_product, Finset.card_range, Finset.card_univ, Fintype.card_fin, mul_comm]
  have hv : count (fun c : F × F => K.Vanish (P.messages θ c.1 c.2) θ c.1 c.2) ≤ _ :=
    count_vanish h P.advice (P.permuted θ) (fun c => P.products θ c.1 c.2) hb
  have hc : ∀ c : F × F, ¬ K.Vanish (P.messages θ c.1 c.2) θ c.1 c.2 → _ := fun c hc =>
    count_check h (m := P.messages θ c.1 c.2) (hq := P.quotient θ c.1 c.2)
        ⟨hP.advice, hP.input θ, hP.table θ, hP.zPerm θ _ _, hP.zLookup θ _ _⟩ (hP.quotient θ _ _) hc
  have := count_fibre (p := fun c : (F × F) × (F × F) => K.Check (P.messages θ c.1.1 c.1.2)
    (P.quotient θ c.1.1 c.1.2 c.2.1) θ c.1.1 c.1.2 c.2.1 c.2.2) hv hc
  refine this.trans (le_of_eq ?_)
  rw [Fintype.card_prod, hcells, rest]
  ring

theorem count_convinces {K : Key F} (h : K.Wf) {P : Prover F} (hP : P.Short K.n) (hb : K.Broken P.advice) :
    count (P.Convinces K) ≤ K.slack * Fintype.card F ^ 4 := by
  have hb' : ∀ θ, K.BrokenAt P.advice θ →
      count (fun c : F × F × F × F => P.Convinces K (θ, c)) ≤ K.rest * Fintype.card F ^ 3 := by
    intro θ hθ
    have e : count (fun c : (F × F) × (F × F) => K.Check (P.messages θ c.1.1 c.1.2) (P.quotient θ c.1.1 c.1.2 c.2.1) θ
        c.1.1 c.1.2 c.2.1 c.2.2) = count (fun c : F × F × F × F => P.Convinces K (θ, c)) :=
      count_equiv (Equiv.prodAssoc F F (F × F)) fun ⟨⟨_, _⟩, _, _⟩ => Iff.rfl
    rw [← e]
    exact count_rest h hP hθ
  have := count_fibre (p := P.Convinces K) (bad := fun θ => ¬ K.BrokenAt P.advice θ) (count_theta hb)
    fun θ hθ => hb' θ (not_not.mp hθ)
  refine this.trans (le_of_eq ?_)
  simp only [Fintype.card_prod, slack]
  ring

end Key
end Halo2
