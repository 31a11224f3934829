import Verif.Props.ArgumentSound

/-!
# Keys and copy constraints
-/

set_option linter.unusedSectionVars false
set_option linter.unusedDecidableInType false

namespace Halo2
open Polynomial
variable {F : Type} [Field F]

/-- The cells of equality-enabled columns have different names. -/
def DistinctNames (cs : CS F) (n : ℕ) (ω δ : F) : Prop :=
  ∀ i j, i < (permCols cs.equality).length → j < (permCols cs.equality).length → ∀ r s, r < n → s < n →
    δ ^ i * ω ^ r = δ ^ j * ω ^ s → i = j ∧ r = s

theorem wideRots_nil (c : ℕ) : wideRots ([] : List (Wide F)) c = ∅ := rfl

theorem CS.blindingWith_nil (cs : CS F) : cs.blindingWith [] = cs.blindingFactors := by
  unfold CS.blindingWith CS.blindingFactors CS.numAdviceQueries
  simp only [wideRots_nil, Finset.union_empty]

theorem CS.degreeWith_nil (cs : CS F) : cs.degreeWith [] = cs.degree := max_eq_left (Nat.zero_le _)

/-- A lookup of one expression in one fixed column holds as before. -/
theorem Lookup.wide_holds {g : Grid F} (hg : g.usable ≤ g.n) (l : Lookup F) : l.wide.Holds g ↔ l.Holds g := by
  unfold Wide.Holds Lookup.Holds Lookup.wide
  simp only [List.mem_singleton, forall_eq]
  refine forall₂_congr fun r hr => exists_congr fun r' => and_congr_right fun hr' => ?_
  have e : (Expr.fixed l.table 0 : Expr F).eval g r' = g.fixed l.table r' := by
    simp only [Expr.eval, Grid.rot, add_zero]
    congr 1
    rw [Int.emod_eq_of_lt (by omega) (by omega), Int.toNat_natCast]
  rw [e]

/-- What a key is made of. -/
theorem keygen_ok {cs : CS F} {ws : List (Wide F)} {ops : List (Op F)} {n : ℕ} {ω δ : F} {K : Key F} (h : keygenWith cs ws ops n ω δ = .ok K) :
    cs.blindingWith ws + 1 + 1 + 1 ≤ n ∧ Fits ops (n - (cs.blindingWith ws + 1)) ∧
    ∃ s, assemble (permCols cs.equality) n (n - (cs.blindingWith ws + 1)) ops (Assembly.new _) = .ok s ∧
      K = ⟨cs, ws, n, n - (cs.blindingWith ws + 1), ω, δ, keyFixed ops (n - (cs.blindingWith ws + 1)), finalSelector ops,
        s.mapping⟩ := by
  unfold keygenWith at h
  simp only at h
  split_ifs at h with h0
  push Not at h0
  cases hs : assemble (permCols cs.equality) n (n - (cs.blindingWith ws + 1)) ops (Assembly.new _) with
  | error e => rw [hs] at h; cases h
  | ok s =>
    rw [hs] at h
    cases h
    exact ⟨h0.1, h0.2, s, rfl, rfl⟩

theorem keygen_wf {cs : CS F} {ws : List (Wide F)} {ops : List (Op F)} {n : ℕ} {ω δ : F} {K : Key F} (h : keygenWith cs ws ops n ω δ = .ok K)
    (hω : IsPrimitiveRoot ω n) : K.Wf := by
  obtain ⟨hm, -, s, -, rfl⟩ := keygen_ok h
  exact ⟨hω, by simp only; omega, by simp only; omega⟩

/-- Copies only tie cells that can be assigned. -/
theorem eqvGen_usable {cols : List Col} {n usable : ℕ} {ops : List (Op F)} {x y : Fin cols.length × Fin n}
    (h : Relation.EqvGen (fun x y => False ∨ Copied cols n usable ops x y) x y) :
    x = y ∨ ((x.2 : ℕ) < usable ∧ (y.2 : ℕ) < usable) := by
  induction h with
  | rel x y h =>
    obtain ⟨a, b, -, ha, hb⟩ := h.resolve_left id
    obtain ⟨-, h1, h2⟩ := cellIndex_ok ha
    obtain ⟨-, h3, h4⟩ := cellIndex_ok hb
    exact Or.inr ⟨by omega, by omega⟩
  | refl x => exact Or.inl rfl
  | symm x y _ ih => exact ih.elim (fun h => Or.inl h.symm) fun h => Or.inr ⟨h.2, h.1⟩
  | trans x y z _ _ ih1 ih2 =>
    rcases ih1 with rfl | ih1
    · exact ih2
    · rcases ih2 with rfl | ih2
      · exact Or.inr ih1
      · exact Or.inr ⟨ih1.1, ih2.2⟩

/-- The permutation of a key. -/
theorem keygen_perm {cs : CS F} {ws : List (Wide F)} {ops : List (Op F)} {n : ℕ} {ω δ : F} {K : Key F} (h : keygenWith cs ws ops n ω δ = .ok K) :
    ∃ σ : Equiv.Perm (Fin (permCols K.cs.equality).length × Fin K.n), K.sigma = σ ∧
      (∀ x y, σ.SameCycle x y ↔ Relation.EqvGen (fun x y => False ∨ Copied _ K.n K.usable ops x y) x y) ∧
      ∀ a b, Op.copy a b ∈ ops → (∃ x, cellIndex (permCols K.cs.equality) K.n K.usable a = .ok x) ∧
        ∃ y, cellIndex (permCols K.cs.equality) K.n K.usable b = .ok y := by
  obtain ⟨hm, -, s, hs, rfl⟩ := keygen_ok h
  obtain ⟨⟨σ, hσ⟩, hr⟩ := assemble_inv Assembly.inv_new hs
  exact ⟨σ, hσ.mapping, hσ.cycles, hr⟩

/-- The name of the image of a cell. -/
theorem Key.image_eq {K : Key F} (h : K.Wf) (x : Fin (permCols K.cs.equality).length × Fin K.n) :
    K.image (x.2, x.1) = K.name ((K.sigma x).2, (K.sigma x).1) := by
  unfold Key.image Key.name Key.sigmaPoly
  simp only
  rw [interp_eval h.root _ x.2.isLt, dif_pos ⟨x.1.isLt, x.2.isLt⟩]

/-- Copy constraints hold exactly if the permutation does not change contents. -/
theorem copies_iff {cs : CS F} {ws : List (Wide F)} {ops : List (Op F)} {n : ℕ} {ω δ : F} {K : Key F} (h : keygenWith cs ws ops n ω δ = .ok K)
    (g : Grid F) : CopiesHold g ops ↔
      ∀ x, g.cell ⟨K.cols.get (K.sigma x).1, (K.sigma x).2⟩ = g.cell ⟨K.cols.get x.1, x.2⟩ := by
  obtain ⟨σ, hσ, hc, hr⟩ := keygen_perm h
  rw [hσ]
  have copied : ∀ {a b x y}, cellIndex (permCols K.cs.equality) K.n K.usable a = .ok x →
      cellIndex (permCols K.cs.equality) K.n K.usable b = .ok y →
      (g.cell a = g.cell b ↔ g.cell ⟨K.cols.get x.1, x.2⟩ = g.cell ⟨K.cols.get y.1, y.2⟩) := by
    intro a b x y ha hb
    obtain ⟨a1, a2, -⟩ := cellIndex_ok ha
    obtain ⟨b1, b2, -⟩ := cellIndex_ok hb
    have ea : (⟨K.cols.get x.1, x.2⟩ : Cell) = a := by
      cases a
      simp only at a1 a2
      subst a1 a2
      rfl
    have eb : (⟨K.cols.get y.1, y.2⟩ : Cell) = b := by
      cases b
      simp only at b1 b2
      subst b1 b2
      rfl
    rw [ea, eb]
  constructor
  · intro H x
    have := (hc (σ x) x).mp (Equiv.Perm.sameCycle_apply_left.mpr (Equiv.Perm.SameCycle.refl _ _))
    generalize σ x = y at this
    induction this with
    | rel x y h =>
      obtain ⟨a, b, hm, ha, hb⟩ := h.resolve_left id
      exact (copied ha hb).mp (H a b hm)
    | refl x => rfl
    | symm x y _ ih => exact ih.symm
    | trans x y z _ _ ih1 ih2 => exact ih1.trans ih2
  · intro H a b hm
    obtain ⟨⟨x, hx⟩, y, hy⟩ := hr a b hm
    rw [copied hx hy]
    have := (hc x y).mpr (.rel _ _ (Or.inr ⟨a, b, hm, hx, hy⟩))
    let f : Fin (permCols K.cs.equality).length × Fin K.n → F := fun x => g.cell ⟨K.cols.get x.1, x.2⟩
    exact sameCycle_le (R := fun x y => f x = f y) (⟨fun _ => rfl, Eq.symm, Eq.trans⟩ : Equivalence fun x y => f x = f y)
      (fun x => (H x).symm) this

/-- A broken copy constraint tears the permutation. -/
theorem torn_of_copies {cs : CS F} {ws : List (Wide F)} {ops : List (Op F)} {n : ℕ} {ω δ : F} {K : Key F} (h : keygenWith cs ws ops n ω δ = .ok K)
    (hω : IsPrimitiveRoot ω n) (hδ : DistinctNames cs n ω δ) {advice : ℕ → F[X]}
    (hb : ¬ CopiesHold (K.grid advice) ops) : K.Torn advice := by
  have hwf := keygen_wf h hω
  have hn : DistinctNames K.cs K.n K.ω K.δ := by
    obtain ⟨-, -, s, -, rfl⟩ := keygen_ok h
    exact hδ
  rw [copies_iff h] at hb
  push Not at hb
  obtain ⟨z, hz⟩ := hb
  obtain ⟨σ, hσ, hc, -⟩ := keygen_perm h
  have hne : σ z ≠ z := fun e => hz (by rw [hσ, e])
  have hu := (eqvGen_usable ((hc (σ z) z).mp
    (Equiv.Perm.sameCycle_apply_left.mpr (Equiv.Perm.SameCycle.refl _ _)))).resolve_left hne
  refine ⟨((σ z).2, (σ z).1), Finset.mem_product.mpr ⟨Finset.mem_range.mpr hu.1, Finset.mem_univ _⟩, ?_⟩
  rintro ⟨r, j⟩ hj ⟨e1, e2⟩
  simp only [Key.cells, Finset.mem_product, Finset.mem_range, Finset.mem_univ, and_true] at hj
  have hr : r < K.n := by have := hwf.lt; omega
  have e3 := Key.image_eq hwf (j, ⟨r, hr⟩)
  rw [hσ] at e3
  have := hn _ _ (σ (j, ⟨r, hr⟩)).1.isLt (σ z).1.isLt _ _ (σ (j, ⟨r, hr⟩)).2.isLt (σ z).2.isLt (e3.symm.trans e2)
  have hjz : (j, ⟨r, hr⟩) = z := σ.injective (Prod.ext (Fin.ext this.1) (Fin.ext this.2))
  refine hz ?_
  rw [hσ, ← hjz]
  rw [← hjz] at e1
  exact e1.symm

/-- When there are keys. -/
theorem keygen_of {cs : CS F} {ws : List (Wide F)} {ops : List (Op F)} {n : ℕ} (h1 : cs.blindingWith ws + 1 + 1 + 1 ≤ n)
    (h2 : Fits ops (n - (cs.blindingWith ws + 1))) (ω δ : F)
    (h3 : ∀ a b, Op.copy a b ∈ ops →
      (∃ x, cellIndex (permCols cs.equality) n (n - (cs.blindingWith ws + 1)) a = .ok x) ∧
        ∃ y, cellIndex (permCols cs.equality) n (n - (cs.blindingWith ws + 1)) b = .ok y) :
    ∃ K, keygenWith cs ws ops n ω δ = .ok K := by
  obtain ⟨A, hA⟩ := assemble_ok (Assembly.new _) h3
  refine ⟨⟨cs, ws, n, n - (cs.blindingWith ws + 1), ω, δ, keyFixed ops (n - (cs.blindingWith ws + 1)), finalSelector ops,
    A.mapping⟩, ?_⟩
  unfold keygenWith
  simp only
  rw [if_neg (by push Not; exact ⟨h1, h2⟩), hA]
  rfl

/-- An assignment that is not broken for the argument satisfies the circuit. -/
theorem holds_of_not_broken {F : Type} [Field F] {cs : CS F} {ws : List (Wide F)} {ops : List (Op F)} {n : ℕ} {ω δ : F} {K : Key F}
    (hK : keygenWith cs ws ops n ω δ = .ok K) (hω : IsPrimitiveRoot ω n) (hδ : DistinctNames cs n ω δ) {adv : ℕ → F[X]}
    (hb : ¬ K.Broken adv) :
    cs.Holds (K.grid adv) ∧ (∀ w ∈ ws, w.Holds (K.grid adv)) ∧ CopiesHold (K.grid adv) ops := by
  have hwf := keygen_wf hK hω
  unfold Key.Broken at hb
  push Not at hb
  obtain ⟨hg, hl, ht⟩ := hb
  have hn : (K.grid adv).usable ≤ (K.grid adv).n := hwf.lt.le
  obtain ⟨ecs, ews⟩ : K.cs = cs ∧ K.wide = ws := by
    obtain ⟨-, -, s, -, rfl⟩ := keygen_ok hK
    exact ⟨rfl, rfl⟩
  unfold Key.lookups at hl
  rw [ecs] at hg hl
  rw [ews] at hl
  refine ⟨⟨hg, fun l h => ?_⟩, fun w h => hl w (List.mem_append_right _ h), ?_⟩
  · rw [← Lookup.wide_holds hn]
    exact hl _ (List.mem_append_left _ (List.mem_map_of_mem h))
  · by_contra hc
    exact ht (torn_of_copies hK hω hδ hc)

end Halo2

namespace Props
open Halo2

/-- **C86.** Soundness: whoever commits to an assignment that breaks a gate, a lookup or a copy constraint convinces
the verifier for at most `K.slack` in `q` of all challenges. -/
theorem C86_sound {F : Type} [Field F] [Fintype F] {cs : CS F} {ws : List (Wide F)} {ops : List (Op F)} {n : ℕ} {ω δ : F} {K : Key F}
    (hK : keygenWith cs ws ops n ω δ = .ok K) (hω : IsPrimitiveRoot ω n) (hδ : DistinctNames cs n ω δ) {P : Prover F}
    (hP : P.Short n) :
    (cs.Holds (K.grid P.advice) ∧ (∀ w ∈ ws, w.Holds (K.grid P.advice)) ∧ CopiesHold (K.grid P.advice) ops) ∨
      Nat.card {c // P.Convinces K c} ≤ K.slack * Fintype.card F ^ 4 := by
  have hwf := keygen_wf hK hω
  by_cases hb : K.Broken P.advice
  · right
    rw [nat_card_eq_count]
    refine Key.count_convinces hwf ?_ hb
    obtain ⟨-, -, s, -, rfl⟩ := keygen_ok hK
    exact hP
  · exact Or.inl (holds_of_not_broken hK hω hδ hb)

/-! A small circuit: one column of bits, the first two of which are equal, on 16 rows of any field with a domain of that
size. -/

/-- One gate and one equality-enabled column. -/
def bitsCS (F : Type) : CS F :=
  ⟨1, 0, 0, [⟨"bit", [.add (.mul (.advice 0 0) (.advice 0 0)) (.neg (.advice 0 0))]⟩], [], [.advice 0]⟩

/-- Its only copy constraint. -/
def bitsOps (F : Type) : List (Op F) := [.copy ⟨.advice 0, 0⟩ ⟨.advice 0, 1⟩]

theorem bits_keygen {F : Type} [Field F] (ω : F) : ∃ K, keygen (bitsCS F) (bitsOps F) 16 ω 1 = .ok K := by
  have hb : (bitsCS F).blindingFactors = 5 := by
    refine CS.blindingFactors_le fun c hc => ?_
    have : (bitsCS F).rots c ⊆ {0} := by
      intro k hk
      rw [CS.mem_rots] at hk
      rcases hk with ⟨e, he, hq⟩ | ⟨-, hk⟩
      · rw [CS.mem_exprs] at he
        rcases he with ⟨p, hp, he⟩ | ⟨l, hl, -⟩
        · simp only [bitsCS, List.mem_singleton] at hp
          subst hp
          simp only [List.mem_singleton] at he
          subst he
          simp [Expr.queries] at hq
          simp [hq.2]
        · simp [bitsCS] at hl
      · simp [hk]
    exact (Finset.card_le_card this).trans (by simp)
  rw [← CS.blindingWith_nil] at hb
  refine keygen_of ?_ ?_ ω 1 ?_
  · rw [hb]; norm_num
  · simp [Fits, bitsOps, Op.bottom]
  · rw [hb]
    intro a b hm
    simp only [bitsOps, List.mem_singleton, Op.copy.injEq] at hm
    obtain ⟨rfl, rfl⟩ := hm
    exact ⟨cellIndex_exists (by simp [permCols, bitsCS]) (by norm_num) (by norm_num),
      cellIndex_exists (by simp [permCols, bitsCS]) (by norm_num) (by norm_num)⟩

theorem bits_names {F : Type} [Field F] {ω : F} (hω : IsPrimitiveRoot ω 16) : DistinctNames (bitsCS F) 16 ω 1 := by
  intro i j hi hj r s hr hs h
  simp only [permCols, bitsCS, List.foldl_cons, List.foldl_nil, List.not_mem_nil, if_false, List.nil_append,
    List.length_singleton, Nat.lt_one_iff] at hi hj
  subst hi hj
  rw [one_pow, one_mul, one_mul] at h
  exact ⟨rfl, hω.pow_inj hr hs h⟩

-- two different bits at the start of the column cannot be proven
example {F : Type} [Field F] [Fintype F] {ω : F} (hω : IsPrimitiveRoot ω 16) :
    ∃ K, keygen (bitsCS F) (bitsOps F) 16 ω 1 = .ok K ∧ ∀ P : Prover F, P.Short 16 →
      (P.advice 0).eval 1 ≠ (P.advice 0).eval ω → Nat.card {c // P.Convinces K c} ≤ K.slack * Fintype.card F ^ 4 := by
  obtain ⟨K, hK⟩ := bits_keygen ω
  refine ⟨K, hK, fun P hP hne => (C86_sound hK hω (bits_names hω) hP).resolve_left fun h => hne ?_⟩
  have := h.2.2 _ _ (List.mem_singleton.mpr rfl)
  obtain ⟨-, -, s, -, rfl⟩ := keygen_ok hK
  simpa [Grid.cell, Key.grid] using this

-- for instance a line through 1 and 0 at these two points
example {F : Type} [Field F] {ω : F} (hω : IsPrimitiveRoot ω 16) : ∃ P : Prover F, P.Short 16 ∧
    (P.advice 0).eval 1 ≠ (P.advice 0).eval ω := by
  have h1 : ω ≠ 1 := by
    rintro rfl
    have := hω.pow_inj (i := 0) (j := 1) (by norm_num) (by norm_num) (by simp)
    omega
  have hz : (0 : Polynomial F).degree < (16 : ℕ) := by rw [Polynomial.degree_zero]; exact WithBot.bot_lt_coe _
  have hX : (Polynomial.X : Polynomial F).degree < (16 : ℕ) := by rw [Polynomial.degree_X]; norm_num
  refine ⟨⟨fun _ => Polynomial.X, fun _ _ => (0, 0), fun _ _ _ => (fun _ => 0, fun _ => 0), fun _ _ _ _ _ => 0⟩,
    ⟨fun _ => hX, fun _ _ => hz, fun _ _ => hz, fun _ _ _ _ => hz, fun _ _ _ _ => hz, fun _ _ _ _ _ => hz⟩, ?_⟩
  simpa using h1.symm

end Props
