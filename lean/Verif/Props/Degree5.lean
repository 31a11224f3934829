import Verif.Circuit.Degree5
import Verif.Circuit.SeptidonLemmas

/-!
# The other setting of `GATE_DEGREE_5`: C55
-/

set_option linter.unusedVariables false
set_option linter.unusedSectionVars false

namespace Props
open Halo2 Circuit Circuit.Septidon

variable {F : Type} [Field F]

/-- The gates with the selector as a parameter. -/
private def gatesQ (q : Expr F) (m : Base.Mds F 3) (rc : ℕ → Fin 3 → F) (c : Config) : List (Gate F) :=
  [gateQuery, gateQuery, gateQuery,
    ⟨"septuple_round", withSelector q (septExprs m c).1⟩,
    gateTransition m (rc 4 0) c,
    ⟨"loop", withSelector q ((List.finRange 3).map fun i =>
      selectExpr (.fixed c.isLast 4 + .fixed c.isLast 0) ((transitionInput c.transition i).query 0)
        ((c.full i).input.query 1) - fullRoundExpr m c.full i)⟩,
    ⟨"loop", withSelector q ((List.finRange 3).map fun i =>
      selectExpr (.fixed c.isLast 0) (((c.full i).input.rotated (-3)).query 0)
        ((c.septuple.input i).query 1) - (septExprs m c).2 i)⟩]

private theorem configureD_eq (deg5 : Bool) (m : Base.Mds F 3) (rc : ℕ → Fin 3 → F) (cs : CS F) :
    configureD deg5 m rc cs = (config cs.numAdvice cs.numFixed,
      {cs with
        numAdvice := cs.numAdvice + 13
        numFixed := cs.numFixed + 11
        gates := cs.gates ++ gatesQ (deriveSelectorD deg5 cs.numFixed) m rc (config cs.numAdvice cs.numFixed)
        equality := cs.equality ++ [.advice cs.numAdvice, .advice (cs.numAdvice + 1),
          .advice (cs.numAdvice + 2), .advice (cs.numAdvice + 12), .advice (cs.numAdvice + 12),
          .advice (cs.numAdvice + 12)]}) := by
  have h : configureD deg5 m rc cs = ((configureD deg5 m rc cs).1, (configureD deg5 m rc cs).2) := rfl
  rw [h]
  refine Prod.ext rfl ?_
  change CS.mk _ _ _ _ _ _ = CS.mk _ _ _ _ _ _
  congr 1
  · change ((((((cs.gates ++ _) ++ _) ++ _) ++ _) ++ _) ++ _) ++ _ = _
    simp only [List.append_assoc]
    rfl
  · change (((((cs.equality ++ _) ++ _) ++ _) ++ _) ++ _) ++ _ = _
    simp only [List.append_assoc]
    rfl

private theorem holds_one {g : Grid F} {q : Expr F} {n : String} {l : List (Expr F)}
    (h : (⟨n, withSelector (.const 1) l⟩ : Gate F).Holds g) : (⟨n, withSelector q l⟩ : Gate F).Holds g := by
  intro e he r hr
  obtain ⟨e', he', rfl⟩ := List.mem_map.mp he
  have := h _ (List.mem_map_of_mem he') r hr
  simp only [Expr.eval_mul, Expr.eval_const, one_mul] at this
  rw [Expr.eval_mul, this, mul_zero]

private theorem one_holds {g : Grid F} {q : Expr F} {n : String} {l : List (Expr F)}
    (hq : ∀ r < g.n, q.eval g r = 1)
    (h : (⟨n, withSelector q l⟩ : Gate F).Holds g) : (⟨n, withSelector (.const 1) l⟩ : Gate F).Holds g := by
  intro e he r hr
  obtain ⟨e', he', rfl⟩ := List.mem_map.mp he
  have := h _ (List.mem_map_of_mem he') r hr
  rw [Expr.eval_mul, hq r hr, one_mul] at this
  rw [Expr.eval_mul, this, mul_zero]

/-! ## C55 -/

/-- **C55, the two settings.** `GATE_DEGREE_5` changes neither the columns nor the equality-enabled columns;
`false` is the configuration modelled everywhere else; and every grid accepted with `true` is accepted with
`false`, so soundness (C21) carries over. -/
theorem C55_degree5_stricter (m : Base.Mds F 3) (rc : ℕ → Fin 3 → F) (cs : CS F) :
    configureD false m rc cs = configure m rc cs ∧
    (configureD true m rc cs).1 = (configure m rc cs).1 ∧
    (configureD true m rc cs).2.numAdvice = (configure m rc cs).2.numAdvice ∧
    (configureD true m rc cs).2.numFixed = (configure m rc cs).2.numFixed ∧
    (configureD true m rc cs).2.equality = (configure m rc cs).2.equality ∧
    ∀ g : Grid F, (∀ p ∈ (configureD true m rc cs).2.gates, p.Holds g) →
      ∀ p ∈ (configure m rc cs).2.gates, p.Holds g := by
  have h0 : configureD false m rc cs = configure m rc cs := rfl
  refine ⟨h0, ?_⟩
  rw [← h0, configureD_eq, configureD_eq]
  refine ⟨rfl, rfl, rfl, rfl, fun g hg => ?_⟩
  simp only [List.forall_mem_append, gatesQ, List.forall_mem_cons] at hg ⊢
  obtain ⟨h1, h2, h3, h4, h5, h6, h7, h8, h9⟩ := hg
  exact ⟨h1, h2, h3, h4, holds_one h5, h6, holds_one h7, holds_one h8, h9⟩

/-- **C55, all rows used.** When the domain is a whole number of 8-row blocks, each ending in a marker (every
row belongs to a permutation), the two settings accept the same grids: the mode works with a prover
that assigns all rows. -/
theorem C55_degree5_all_rows (m : Base.Mds F 3) (rc : ℕ → Fin 3 → F) (cs : CS F) (g : Grid F)
    (hn : 8 ∣ g.n)
    (hlast : ∀ r < g.n, g.fixed (configure m rc cs).1.isLast r = if r % 8 = 7 then 1 else 0) :
    (∀ p ∈ (configureD true m rc cs).2.gates, p.Holds g) ↔ ∀ p ∈ (configure m rc cs).2.gates, p.Holds g := by
  refine ⟨(C55_degree5_stricter m rc cs).2.2.2.2.2 g, fun hg => ?_⟩
  have hm : Marks g cs.numFixed ((List.range (g.n / 8)).map fun k => 8 * k) := by
    rw [configure_eq] at hlast
    have hlast : ∀ r < g.n, g.fixed cs.numFixed r = if r % 8 = 7 then 1 else 0 := hlast
    refine ⟨?_, ?_, ?_, ?_⟩
    · intro s hs
      simp only [List.mem_map, List.mem_range] at hs
      obtain ⟨k, hk, rfl⟩ := hs
      omega
    · intro s hs t ht
      simp only [List.mem_map, List.mem_range] at hs ht
      obtain ⟨k, hk, rfl⟩ := hs
      obtain ⟨l, hl, rfl⟩ := ht
      omega
    · intro s hs
      simp only [List.mem_map, List.mem_range] at hs
      obtain ⟨k, hk, rfl⟩ := hs
      rw [hlast _ (by omega), if_pos (by omega)]
    · intro r hr h
      rw [hlast r hr, if_neg]
      intro h7
      refine h (8 * (r / 8)) ?_ (by omega)
      simp only [List.mem_map, List.mem_range]
      exact ⟨r / 8, by omega, rfl⟩
  have hq : ∀ r < g.n, (deriveSelector cs.numFixed : Expr F).eval g r = 1 := by
    intro r hr
    have := hm.q_in (s := 8 * (r / 8)) (j := r % 8) (by
      simp only [List.mem_map, List.mem_range]
      exact ⟨r / 8, by omega, rfl⟩) (by omega)
    rwa [show 8 * (r / 8) + r % 8 = r by omega] at this
  have h0 : configureD false m rc cs = configure m rc cs := rfl
  rw [← h0, configureD_eq] at hg
  rw [configureD_eq]
  simp only [List.forall_mem_append, gatesQ, List.forall_mem_cons] at hg ⊢
  obtain ⟨h1, h2, h3, h4, h5, h6, h7, h8, h9⟩ := hg
  exact ⟨h1, h2, h3, h4, one_holds hq h5, h6, one_holds hq h7, one_holds hq h8, h9⟩

/-- **C55, unused or blinded rows.** With `GATE_DEGREE_5 = true`, on every row with no marker on it or four
rows below, the next row's full state is a function of the row itself: no row can be left to arbitrary
(blinding) values, as the comment in params.rs warns. -/
theorem C55_degree5_no_blinding (m : Base.Mds F 3) (rc : ℕ → Fin 3 → F) (cs : CS F) (g : Grid F)
    (hg : ∀ p ∈ (configureD true m rc cs).2.gates, p.Holds g) (r : ℕ) (hr : r < g.n)
    (h0 : g.fixed (configureD true m rc cs).1.isLast r = 0)
    (h4 : g.fixed (configureD true m rc cs).1.isLast (g.rot r 4) = 0) (i : Fin 3) :
    let full := (configureD true m rc cs).1.full
    g.advice (full i).input.column (g.rot r 1) =
      ∑ j, m i j * (g.advice (full j).input.column r + g.fixed (full j).roundConstant r) ^ 5 := by
  rw [configureD_eq] at *
  simp only [List.forall_mem_append, gatesQ, List.forall_mem_cons] at hg
  have hf := hg.2.2.2.2.2.2.1 _ (List.mem_map_of_mem (List.mem_map_of_mem (List.mem_finRange i))) r hr
  simp only [Expr.eval_mul, deriveSelectorD, if_true, Expr.eval_const, one_mul, Expr.eval_sub,
    selectExpr, Expr.eval_add, Expr.eval_fixed] at hf
  rw [fullRoundExpr_eval _ _ m g r hr] at hf
  have e0 : g.fixed (config cs.numAdvice cs.numFixed).isLast r = 0 := h0
  have e4 : g.fixed (config cs.numAdvice cs.numFixed).isLast (g.rot r 4) = 0 := h4
  rw [g.rot_zero hr, e0, e4] at hf
  simp only [add_zero, zero_mul, zero_add, sub_zero, one_mul, RelCell.query, Expr.eval_advice,
    full_offset] at hf
  intro full
  have := sub_eq_zero.mp hf
  refine this.trans ?_
  simp only [fr, Spec.fullRound, Matrix.mulVec, dotProduct, Matrix.of_apply, fullIn, fullRC, sIn, sRC]
  rfl

/-- **C55, unused rows in the committed setting.** With `GATE_DEGREE_5 = false`, a chip without markers (no
permutation assigned) imposes nothing: every advice assignment is accepted. -/
theorem C55_standard_unused_free (m : Base.Mds F 3) (rc : ℕ → Fin 3 → F) (cs : CS F) (g : Grid F)
    (hcs : ∀ p ∈ cs.gates, p.Holds g)
    (h0 : ∀ r, g.fixed (configure m rc cs).1.isLast r = 0) :
    ∀ p ∈ (configure m rc cs).2.gates, p.Holds g := by
  have he : configureD false m rc cs = configure m rc cs := rfl
  rw [← he, configureD_eq] at *
  have h0 : ∀ r, g.fixed cs.numFixed r = 0 := h0
  have hq : ∀ r, (deriveSelectorD false cs.numFixed : Expr F).eval g r = 0 := by
    intro r
    simp [deriveSelectorD, deriveSelector, List.range_succ, h0]
  have hquery : (gateQuery : Gate F).Holds g := by
    intro e he r _
    rw [List.mem_singleton.mp he, Expr.eval_const]
  simp only [List.forall_mem_append, gatesQ, List.forall_mem_cons]
  exact ⟨hcs, hquery, hquery, hquery, fun e he r _ => withSelector_zero g r _ _ (hq r) e he,
    fun e he r _ => withSelector_zero g r _ _ (by rw [Expr.eval_fixed]; exact h0 _) e he,
    fun e he r _ => withSelector_zero g r _ _ (hq r) e he,
    fun e he r _ => withSelector_zero g r _ _ (hq r) e he, fun p hp => absurd hp List.not_mem_nil⟩

/-- The hypotheses of `C55_degree5_all_rows`: sixteen rows, two blocks. -/
example : ∃ g : Grid ℚ, g.n = 16 ∧ 8 ∣ g.n ∧
    ∀ r < g.n, g.fixed (configure (fun _ _ => (1 : ℚ)) (fun _ _ => 0) ⟨0, 0, 0, [], [], []⟩).1.isLast r =
      if r % 8 = 7 then 1 else 0 :=
  ⟨⟨16, 16, fun _ _ => 0, fun _ r => if r % 8 = 7 then 1 else 0, fun _ _ => false⟩, rfl, by norm_num,
    fun r _ => rfl⟩

/-- The two settings differ: four unused rows, blinded with a nonzero value in row 1, are accepted by the
committed setting and refused with `GATE_DEGREE_5 = true`. -/
example : ∃ g : Grid ℚ, g.n = 16 ∧
    (∀ p ∈ (configure (fun _ _ => (1 : ℚ)) (fun _ _ => 0) ⟨0, 0, 0, [], [], []⟩).2.gates, p.Holds g) ∧
    ¬ ∀ p ∈ (configureD true (fun _ _ => (1 : ℚ)) (fun _ _ => 0) ⟨0, 0, 0, [], [], []⟩).2.gates, p.Holds g := by
  refine ⟨⟨16, 16, fun _ r => if r = 1 then 1 else 0, fun _ _ => 0, fun _ _ => false⟩, rfl, ?_, fun h => ?_⟩
  · exact C55_standard_unused_free _ _ _ _ (fun p hp => absurd hp List.not_mem_nil) fun _ => rfl
  · have := C55_degree5_no_blinding _ _ _ _ h 0 (by norm_num) rfl rfl 0
    simp [Grid.rot] at this

private def zeroGrid : Grid ℚ := ⟨16, 16, fun _ _ => 0, fun _ _ => 0, fun _ _ => false⟩

private theorem zero_loop (m : Base.Mds ℚ 3) (r : ℕ) (rest : List SBox) : ∀ (ck : SBox) (st : Fin 3 → Expr ℚ),
    (∀ i, (st i).eval zeroGrid r = 0) →
    (∀ e ∈ (septupleLoop m ck st rest).1, e.eval zeroGrid r = 0) ∧
      ∀ i, ((septupleLoop m ck st rest).2 i).eval zeroGrid r = 0 := by
  have hp : ∀ (ck : SBox) (st : Fin 3 → Expr ℚ), (∀ i, (st i).eval zeroGrid r = 0) →
      ∀ i, (partialRoundExpr m ck st i).eval zeroGrid r = 0 := by
    intro ck st h i
    have h1 := h 1
    have h2 := h 2
    simp [partialRoundExpr, matmulExpr, SBox.outputExpr, sboxExpr, SBox.inputExpr, SBox.rcExpr, RelCell.query,
      h1, h2]
    simp [zeroGrid]
  induction rest with
  | nil => exact fun ck st h => ⟨fun e he => absurd he List.not_mem_nil, hp ck st h⟩
  | cons s rest ih =>
    intro ck st h
    obtain ⟨h1, h2⟩ := ih s _ (hp ck st h)
    refine ⟨fun e he => ?_, h2⟩
    rcases List.mem_cons.mp he with rfl | he
    · rw [Expr.eval_sub, hp ck st h]
      exact sub_self (0 : ℚ)
    · exact h1 e he

/-- The hypotheses of `C55_degree5_no_blinding`, met by the all-zero grid of a chip with zero constants. -/
example : ∃ g : Grid ℚ, 0 < g.n ∧
    (∀ p ∈ (configureD true (fun _ _ => (1 : ℚ)) (fun _ _ => 0) ⟨0, 0, 0, [], [], []⟩).2.gates, p.Holds g) ∧
    ∀ r, g.fixed (configureD true (fun _ _ => (1 : ℚ)) (fun _ _ => 0) ⟨0, 0, 0, [], [], []⟩).1.isLast r = 0 := by
  refine ⟨zeroGrid, by norm_num [zeroGrid], ?_, fun _ => rfl⟩
  rw [configureD_eq]
  intro p hp e he r hr
  simp only [List.nil_append, gatesQ, List.mem_cons, List.not_mem_nil, or_false] at hp
  have hl := zero_loop (fun _ _ => (1 : ℚ)) r (config 0 0).septuple.following (config 0 0).septuple.first
    (fun i => ((config 0 0).septuple.input i).query 0) fun _ => rfl
  rcases hp with rfl | rfl | rfl | rfl | rfl | rfl | rfl
  · rw [List.mem_singleton.mp he]; rfl
  · rw [List.mem_singleton.mp he]; rfl
  · rw [List.mem_singleton.mp he]; rfl
  · obtain ⟨e', he', rfl⟩ := List.mem_map.mp he
    rw [Expr.eval_mul, hl.1 e' he', mul_zero]
  · exact withSelector_zero _ _ _ _ rfl e he
  · obtain ⟨e', he', rfl⟩ := List.mem_map.mp he
    obtain ⟨i, _, rfl⟩ := List.mem_map.mp he'
    simp [selectExpr, fullRoundExpr, matmulExpr, SBox.outputExpr, sboxExpr, SBox.inputExpr, SBox.rcExpr,
      RelCell.query, zeroGrid]
  · obtain ⟨e', he', rfl⟩ := List.mem_map.mp he
    obtain ⟨i, _, rfl⟩ := List.mem_map.mp he'
    have := hl.2 i
    simp [septExprs, selectExpr, RelCell.query, zeroGrid] at this ⊢
    exact .inr this

end Props
