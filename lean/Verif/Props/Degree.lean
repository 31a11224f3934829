import Verif.Circuit.Degree5
import Verif.Circuit.ChipBn
import Verif.Circuit.Pow5Sound
import Verif.Props.TableDemo

/-!
# Gate degrees and exposed columns: C53
-/

set_option linter.unusedVariables false
set_option linter.unusedSectionVars false

namespace Props
open Halo2 Circuit Circuit.Table Base.Bn256

/-! ## Specification: the degree of a constraint system -/

/-- Degree required by a gate: the largest degree of its polynomials. -/
def gateDegree {F : Type} (p : Gate F) : ℕ := (p.polys.map Expr.degree).foldr max 0

/-- Degree required by a one-column lookup into a fixed table, halo2's
`max(4, 2 + input_degree + table_degree)`. -/
def lookupDegree {F : Type} (l : Lookup F) : ℕ := max 4 (2 + l.input.degree + 1)

/-- Degree of a constraint system: the maximum over its gates and lookups. (halo2 also includes the
permutation argument, degree 3, and the user-chosen minimum; both are below the values found here.) -/
def csDegree {F : Type} (cs : CS F) : ℕ :=
  max ((cs.gates.map gateDegree).foldr max 0) ((cs.lookups.map lookupDegree).foldr max 0)

theorem foldr_max_append (l l' : List ℕ) :
    (l ++ l').foldr max 0 = max (l.foldr max 0) (l'.foldr max 0) := by
  induction l with
  | nil => simp
  | cons a l ih => rw [List.cons_append, List.foldr_cons, ih, List.foldr_cons, max_assoc]

theorem foldr_max_le {l : List ℕ} {d : ℕ} (h : ∀ x ∈ l, x ≤ d) : l.foldr max 0 ≤ d := by
  induction l with
  | nil => simp
  | cons a l ih =>
    rw [List.foldr_cons]
    exact max_le (h a (by simp)) (ih fun x hx => h x (by simp [hx]))

theorem le_foldr_max {l : List ℕ} {x : ℕ} (h : x ∈ l) : x ≤ l.foldr max 0 := by
  induction l with
  | nil => simp at h
  | cons a l ih =>
    rw [List.foldr_cons]
    rcases List.mem_cons.mp h with rfl | h
    · exact le_max_left _ _
    · exact le_trans (ih h) (le_max_right _ _)

section
variable {F : Type}
@[simp] theorem degree_const (c : F) : (Expr.const c).degree = 0 := rfl
@[simp] theorem degree_selector (i : ℕ) : (Expr.selector i : Expr F).degree = 1 := rfl
@[simp] theorem degree_fixed (i : ℕ) (k : ℤ) : (Expr.fixed i k : Expr F).degree = 1 := rfl
@[simp] theorem degree_advice (i : ℕ) (k : ℤ) : (Expr.advice i k : Expr F).degree = 1 := rfl
@[simp] theorem degree_scaled (a : Expr F) (c : F) : (Expr.scaled a c).degree = a.degree := rfl
@[simp] theorem degree_add (a b : Expr F) : (a + b).degree = max a.degree b.degree := rfl
@[simp] theorem degree_sub (a b : Expr F) : (a - b).degree = max a.degree b.degree := rfl
@[simp] theorem degree_mul (a b : Expr F) : (a * b).degree = a.degree + b.degree := rfl
end

section
variable {F : Type} [Field F]
open Circuit.Septidon

theorem degree_pow5 (a : Expr F) : (pow5Expr a).degree = 5 * a.degree := by
  simp only [pow5Expr, degree_mul]; omega

theorem degree_matmul (m : Base.Mds F 3) (v : Fin 3 → Expr F) (i : Fin 3) :
    (matmulExpr m v i).degree = max (max (v 0).degree (v 1).degree) (v 2).degree := rfl

theorem degree_output (s : SBox) : (s.outputExpr : Expr F).degree = 5 := by
  simp [SBox.outputExpr, sboxExpr, degree_pow5, SBox.inputExpr, SBox.rcExpr, RelCell.query]

theorem degree_query (c : RelCell) (k : ℤ) : (c.query k : Expr F).degree = 1 := rfl

theorem degree_partial (m : Base.Mds F 3) (s : SBox) (v : Fin 3 → Expr F) (hv : ∀ i, (v i).degree ≤ 5)
    (i : Fin 3) : (partialRoundExpr m s v i).degree = 5 := by
  have h1 := hv 1
  have h2 := hv 2
  simp only [partialRoundExpr, degree_matmul, Matrix.cons_val_zero, Matrix.cons_val_one, Matrix.cons_val,
    degree_output]
  omega

theorem degree_selectorD (deg5 : Bool) (c : ℕ) :
    (deriveSelectorD deg5 c : Expr F).degree = if deg5 then 0 else 1 := by
  cases deg5
  · rfl
  · rfl

theorem septupleLoop_degree (m : Base.Mds F 3) (l : List SBox) : ∀ (s : SBox) (v : Fin 3 → Expr F),
    (∀ i, (v i).degree ≤ 5) →
      (septupleLoop m s v l).1.map Expr.degree = List.replicate l.length 5 ∧
      ∀ i, ((septupleLoop m s v l).2 i).degree = 5 := by
  induction l with
  | nil => exact fun s v hv => ⟨rfl, degree_partial m s v hv⟩
  | cons t l ih =>
    intro s v hv
    have hd := degree_partial m s v hv
    obtain ⟨h1, h2⟩ := ih t _ fun i => (hd i).le
    refine ⟨?_, h2⟩
    simp only [septupleLoop, List.map_cons, h1, List.length_cons, List.replicate_succ]
    rw [degree_sub, hd]
    rfl

theorem gateDegree_with (n : String) (q : Expr F) (l : List (Expr F)) (d : ℕ) (hl : l ≠ [])
    (h : ∀ e ∈ l, e.degree = d) : gateDegree ⟨n, withSelector q l⟩ = q.degree + d := by
  unfold gateDegree withSelector
  apply le_antisymm
  · apply foldr_max_le
    intro x hx
    simp only [List.mem_map] at hx
    obtain ⟨e, ⟨e', he', rfl⟩, rfl⟩ := hx
    rw [degree_mul, h _ he']
  · obtain ⟨e, he⟩ := List.exists_mem_of_ne_nil l hl
    refine le_foldr_max ?_
    simp only [List.mem_map]
    exact ⟨_, ⟨e, he, rfl⟩, by rw [degree_mul, h _ he]⟩

theorem loop_degree (q brk : Expr F) (nx o : Fin 3 → Expr F) (out : Fin 3 → RelCell)
    (hb : brk.degree = 1) (hn : ∀ i, (nx i).degree = 1) (ho : ∀ i, (o i).degree = 5) :
    gateDegree ⟨"loop", withSelector q ((List.finRange 3).map fun i =>
      selectExpr brk ((out i).query 0) (nx i) - o i)⟩ = q.degree + 5 := by
  refine gateDegree_with _ _ _ _ (by simp) fun e he => ?_
  simp only [List.mem_map] at he
  obtain ⟨i, -, rfl⟩ := he
  simp only [selectExpr, degree_sub, degree_add, degree_mul, degree_const, degree_query, hb, hn, ho]
  norm_num

/-- The names and degrees of the gates of the Septidon chip, in order. -/
theorem septidon_gates (deg5 : Bool) (m : Base.Mds F 3) (rc : ℕ → Fin 3 → F) (cs : CS F) :
    ∃ new : List (Gate F), ((configureD deg5 m rc).run cs).2.gates = cs.gates ++ new ∧
      ((configureD deg5 m rc).run cs).2.lookups = cs.lookups ∧
      new.map (fun p => (p.name, gateDegree p)) =
        [("query", 0), ("query", 0), ("query", 0), ("septuple_round", if deg5 then 5 else 6),
          ("transition round", 6), ("loop", if deg5 then 5 else 6), ("loop", if deg5 then 5 else 6)] := by
  simp only [configureD, configureChipD, controlConfigureD, fullConfigure, septupleConfigure,
      transitionConfigure, loopConfigure, queryGate, SBox.configure, RelCell.configure, CS.createGate,
      CS.adviceColumn, CS.fixedColumn, CS.enableEquality, StateT.run, bind, StateT.bind, pure, StateT.pure,
      List.append_assoc, true_and]
  refine ⟨_, rfl, ?_⟩
  simp only [List.map_cons, List.map_nil, List.cons_append, List.nil_append, List.cons.injEq, Prod.mk.injEq,
    true_and, and_true]
  have h5 : ∀ n, (if deg5 then 0 else 1) + 5 = n → n = if deg5 then 5 else 6 := by
    cases deg5 <;> rintro _ rfl <;> rfl
  refine ⟨rfl, rfl, rfl, h5 _ ?_, ?_, h5 _ ?_, h5 _ ?_⟩
  · rw [gateDegree_with _ _ _ 5, degree_selectorD]
    · exact List.ne_nil_of_length_pos (by
        rw [← List.length_map (f := Expr.degree), (septupleLoop_degree m _ _ _ fun i => ?_).1]
        · simp
        · rw [degree_query]; norm_num)
    · intro e he
      have := List.mem_map_of_mem (f := Expr.degree) he
      rw [(septupleLoop_degree m _ _ _ fun i => ?_).1] at this
      · exact List.eq_of_mem_replicate this
      · rw [degree_query]; norm_num
  · rw [gateDegree_with _ _ _ 5]
    · rfl
    · simp
    · intro e he
      simp only [List.mem_map] at he
      obtain ⟨i, -, rfl⟩ := he
      simp only [firstPartialRoundExpr, degree_sub, degree_matmul, Matrix.cons_val_zero, Matrix.cons_val_one,
        Matrix.cons_val, degree_query, sboxExpr, degree_pow5, degree_add, degree_const]
      norm_num
  · refine Eq.trans ?_ (loop_degree _ _ _ _ _ rfl (fun i => rfl) fun i => ?_).symm
    · rw [degree_selectorD]
    · simp only [fullRoundExpr, degree_matmul, degree_output]
      norm_num
  · refine Eq.trans ?_ (loop_degree _ _ _ _ _ rfl (fun i => rfl) fun i => ?_).symm
    · rw [degree_selectorD]
    · exact (septupleLoop_degree m _ _ _ fun i => by rw [degree_query]; norm_num).2 i

theorem reduceAdd_degree (l : List (Expr F)) (d : ℕ) (hl : l ≠ []) (h : ∀ e ∈ l, e.degree = d) :
    (Pow5.reduceAdd l).degree = d := by
  have : ∀ (l : List (Expr F)) (e : Expr F), e.degree = d → (∀ e ∈ l, e.degree = d) →
      (l.foldl (· + ·) e).degree = d := by
    intro l
    induction l with
    | nil => exact fun e he _ => he
    | cons x l ih =>
      intro e he hx
      refine ih _ ?_ fun y hy => hx y (by simp [hy])
      rw [degree_add, he, hx x (by simp), max_self]
  cases l with
  | nil => exact absurd rfl hl
  | cons x l => exact this l x (h x (by simp)) fun y hy => h y (by simp [hy])

theorem mid_degree {t : ℕ} (c : Pow5.Config F t) (i : Fin (t + 1)) : (Pow5.midExpr c i).degree = 1 := by
  have : ∀ (l : List (Fin t)) (e : Expr F), e.degree = 1 →
      (l.foldl (fun acc (k : Fin t) =>
        acc + Expr.scaled (Expr.advice (c.state k.succ) 0 + Expr.fixed (c.rcA k.succ) 0)
          (c.mReg i k.succ)) e).degree = 1 := by
    intro l
    induction l with
    | nil => exact fun e he => he
    | cons x l ih =>
      intro e he
      refine ih _ ?_
      rw [degree_add, he]
      rfl
  exact this _ _ rfl

/-- The names and degrees of the gates of the Pow5 chip, in order, for every width `≥ 2`. -/
theorem pow5_gates {t : ℕ} (ht : 0 < t) (c : Pow5.Config F t) :
    (Pow5.gates c).map (fun p => (p.name, gateDegree p)) =
      [("full round", 6), ("partial rounds", 6), ("partial round single", 6), ("pad-and-add", 2)] := by
  simp only [Pow5.gates, List.map_cons, List.map_nil, List.cons.injEq, Prod.mk.injEq, and_true]
  have hne : (List.finRange t) ≠ [] := by
    rw [Ne, List.finRange_eq_nil_iff]; omega
  have hx : ∀ (l : List (Expr F)) (d : ℕ), (∀ e ∈ l, e.degree ≤ d) → (∃ e ∈ l, e.degree = d) →
      (l.map Expr.degree).foldr max 0 = d := by
    intro l d h1 h2
    apply le_antisymm
    · apply foldr_max_le
      intro x hx
      obtain ⟨e, he, rfl⟩ := List.mem_map.mp hx
      exact h1 e he
    · obtain ⟨e, he, h⟩ := h2
      exact h ▸ le_foldr_max (List.mem_map_of_mem he)
  refine ⟨⟨rfl, ?_⟩, ⟨rfl, ?_⟩, ⟨rfl, ?_⟩, ⟨rfl, ?_⟩⟩
  · have : ∀ e ∈ (Pow5.fullGate c).polys, e.degree = 6 := by
      intro e he
      obtain ⟨i, -, rfl⟩ := List.mem_map.mp he
      simp only [degree_mul, degree_sub]
      rw [reduceAdd_degree _ 5]
      · rfl
      · simp
      · intro e he
        obtain ⟨j, -, rfl⟩ := List.mem_map.mp he
        rw [degree_scaled, degree_pow5]
        rfl
    refine hx _ 6 (fun e he => (this e he).le) ?_
    refine ⟨_, List.mem_map_of_mem (List.mem_finRange 0), this _ (List.mem_map_of_mem (List.mem_finRange 0))⟩
  · have hn : ∀ i, (Pow5.nextExpr c i).degree = 1 := by
      intro i
      refine reduceAdd_degree _ 1 (by simp) fun e he => ?_
      obtain ⟨j, -, rfl⟩ := List.mem_map.mp he
      rfl
    refine hx _ 6 ?_ ?_
    · intro e he
      obtain ⟨e, he', rfl⟩ := List.mem_map.mp he
      clear he
      rw [degree_mul, degree_selector]
      rcases List.mem_append.mp he' with he | he
      · rcases List.mem_cons.mp he with rfl | he
        · rw [degree_sub, degree_pow5, degree_add]
          simp
        · rw [List.mem_singleton.mp he, degree_sub, degree_pow5, degree_add, mid_degree, hn]
          simp
      · obtain ⟨j, -, rfl⟩ := List.mem_map.mp he
        rw [degree_sub, degree_add, mid_degree, hn]
        simp
    · refine ⟨_, List.mem_map_of_mem (List.mem_append_left _ List.mem_cons_self), ?_⟩
      rw [degree_mul, degree_sub, degree_pow5, degree_add]
      rfl
  · have : ∀ e ∈ (Pow5.singleGate c).polys, e.degree = 6 := by
      intro e he
      obtain ⟨i, -, rfl⟩ := List.mem_map.mp he
      simp only [degree_mul, degree_sub, degree_add, degree_scaled, degree_pow5]
      rw [reduceAdd_degree _ 1]
      · rfl
      · simpa using hne
      · intro e he
        obtain ⟨j, -, rfl⟩ := List.mem_map.mp he
        rfl
    refine hx _ 6 (fun e he => (this e he).le) ?_
    refine ⟨_, List.mem_map_of_mem (List.mem_finRange 0), this _ (List.mem_map_of_mem (List.mem_finRange 0))⟩
  · have : ∀ e ∈ (Pow5.padGate c).polys, e.degree = 2 := by
      intro e he
      obtain ⟨e, he', rfl⟩ := List.mem_map.mp he
      rcases List.mem_append.mp he' with he | he
      · obtain ⟨j, -, rfl⟩ := List.mem_map.mp he
        rfl
      · rw [List.mem_singleton.mp he]
        rfl
    refine hx _ 2 (fun e he => (this e he).le) ?_
    have h : Expr.selector c.sPadAndAdd * (Expr.advice (c.state (Fin.last t)) (-1) -
        Expr.advice (c.state (Fin.last t)) 1) ∈ (Pow5.padGate c).polys :=
      List.mem_map_of_mem (List.mem_append_right _ (List.mem_singleton.mpr rfl))
    exact ⟨_, h, this _ h⟩

/-! ## C53 -/

/-- **C53, Septidon.** Configuring the chip, in any constraint system, with any matrix and constants, adds
polynomials whose largest degree is exactly 6 and no lookup. -/
theorem C53_septidon_degree (m : Base.Mds F 3) (rc : ℕ → Fin 3 → F) (cs : CS F) :
    csDegree ((Septidon.chip m rc).configure.run cs).2 = max (csDegree cs) 6 := by
  change csDegree ((configureD false m rc).run cs).2 = max (csDegree cs) 6
  obtain ⟨new, h1, h2, h3⟩ := septidon_gates false m rc cs
  have h3' := congrArg (List.map Prod.snd) h3
  rw [List.map_map] at h3'
  have : new.map gateDegree = [0, 0, 0, 6, 6, 6, 6] := h3'
  unfold csDegree
  rw [h1, h2, List.map_append, foldr_max_append, this, max_right_comm]
  rfl

/-- **C53, the degree-5 mode of Septidon (finding).** With `GATE_DEGREE_5 = true` every gate but one has
degree at most 5; the transition round still has degree 6, so the degree of the circuit is not reduced. -/
theorem C53_septidon_degree5 (m : Base.Mds F 3) (rc : ℕ → Fin 3 → F) (cs : CS F) :
    csDegree ((configureD true m rc).run cs).2 = max (csDegree cs) 6 ∧
      ∃ new : List (Gate F), ((configureD true m rc).run cs).2.gates = cs.gates ++ new ∧
        ∀ p ∈ new, 5 < gateDegree p ↔ p.name = "transition round" := by
  obtain ⟨new, h1, h2, h3⟩ := septidon_gates true m rc cs
  refine ⟨?_, new, h1, ?_⟩
  · have h3' := congrArg (List.map Prod.snd) h3
    rw [List.map_map] at h3'
    have : new.map gateDegree = [0, 0, 0, 5, 6, 5, 5] := h3'
    unfold csDegree
    rw [h1, h2, List.map_append, foldr_max_append, this, max_right_comm]
    rfl
  · intro p hp
    have : (p.name, gateDegree p) ∈ new.map fun p => (p.name, gateDegree p) := List.mem_map_of_mem hp
    rw [h3] at this
    simp only [if_true, List.mem_cons, Prod.mk.injEq, List.not_mem_nil, or_false] at this
    rcases this with h | h | h | h | h | h | h <;> rw [h.1, h.2] <;> decide

/-- **C53, Pow5.** The same for `Pow5Chip` at every width `≥ 2`. -/
theorem C53_pow5_degree {t : ℕ} (ht : 0 < t) (S : Pow5.Params F t) (cols : Pow5.Cols t) (cs : CS F) :
    csDegree ((Pow5.configure S cols).run cs).2 = max (csDegree cs) 6 := by
  have h : (Pow5.configure S cols).run cs = _ := Pow5.configure_eq S cols cs
  obtain ⟨st, hst⟩ : ∃ st, st = (Pow5.configure S cols).run cs := ⟨_, rfl⟩
  rw [← hst] at h ⊢
  subst h
  have h3 := congrArg (List.map Prod.snd) (pow5_gates ht (Pow5.config S cols cs.numSelectors))
  rw [List.map_map] at h3
  have h3' : (Pow5.gates (Pow5.config S cols cs.numSelectors)).map gateDegree = [6, 6, 6, 2] := h3
  unfold csDegree
  simp only [List.map_append, foldr_max_append, h3']
  rw [max_right_comm]
  rfl

/-- **C53, the table.** The gates and the lookup of `configure_sub` require degree 5 (all gates degree at
most 4, the range lookup 5); with a chip of degree `d` the total is `max 5 d`. The exposed columns are the
six columns passed by the caller, in that order, and the sub-circuit adds eight advice columns, one fixed
column and one selector besides those of the chip. -/
theorem C53_table_degree (ch : Chip F 3) (d nA nF nS : ℕ)
    (hch : ∀ cs : CS F, csDegree (ch.configure.run cs).2 = max (csDegree cs) d)
    (hA : ∀ cs : CS F, (ch.configure.run cs).2.numAdvice = cs.numAdvice + nA ∧
      (ch.configure.run cs).2.numFixed = cs.numFixed + nF ∧
      (ch.configure.run cs).2.numSelectors = cs.numSelectors + nS)
    (legacy : Bool) (q : ℕ) (ht : Fin 6 → ℕ) (step : ℕ) (cs : CS F) :
    let r := (configureSub ch legacy q ht step).run cs
    csDegree r.2 = max (csDegree cs) (max 5 d) ∧
      commitmentIndex r.1 = ht ∧ hashTblCols r.1 = (fun i => .advice (ht i)) ∧
      r.2.numAdvice = cs.numAdvice + 8 + nA ∧ r.2.numFixed = cs.numFixed + 1 + nF ∧
      r.2.numSelectors = cs.numSelectors + 1 + nS := by
  obtain ⟨c, hc⟩ : ∃ c : TableCols, c = ⟨ht, ![cs.numAdvice, cs.numAdvice + 1, cs.numAdvice + 2,
    cs.numAdvice + 3, cs.numAdvice + 4, cs.numAdvice + 5], cs.numAdvice + 7, cs.numAdvice + 6, cs.numFixed,
    q, cs.numSelectors⟩ := ⟨_, rfl⟩
  obtain ⟨cs1, h1⟩ : ∃ cs1 : CS F, cs1 =
    { numAdvice := cs.numAdvice + 8, numFixed := cs.numFixed + 1, numSelectors := cs.numSelectors + 1
      gates := cs.gates ++ [⟨"custom row", customRowGate c⟩, ⟨"control constrain", controlConstrainGate c⟩,
        ⟨"control step", controlStepGate c legacy step⟩, ⟨"hash index constrain", hashIndexGate c⟩,
        ⟨"input constrain", inputConstrainGate c⟩]
      lookups := cs.lookups ++ [⟨"control range check", controlRangeInput c, cs.numFixed⟩]
      equality := cs.equality ++ [.advice cs.numAdvice, .advice (cs.numAdvice + 1), .advice (cs.numAdvice + 2),
        .advice (cs.numAdvice + 3), .advice (cs.numAdvice + 4), .advice (cs.numAdvice + 5), .advice (ht 0),
        .advice (cs.numAdvice + 6)] } := ⟨_, rfl⟩
  have key : ((configureSub ch legacy q ht step).run cs).2 = (ch.configure.run cs1).2 := by
    subst h1 hc
    simp only [configureSub, CS.createGate, CS.adviceColumn, CS.fixedColumn, CS.enableEquality,
      CS.newSelector, CS.lookup, StateT.run, bind, StateT.bind, pure, StateT.pure, List.append_assoc,
      List.cons_append, List.nil_append]
    rfl
  intro r
  have hr : r.2 = (ch.configure.run cs1).2 := key
  rw [hr, hch]
  obtain ⟨e1, e2, e3⟩ := hA cs1
  refine ⟨?_, rfl, rfl, by rw [e1, h1], by rw [e2, h1], by rw [e3, h1]⟩
  have : csDegree cs1 = max (csDegree cs) 5 := by
    subst h1
    unfold csDegree
    have hg : List.map gateDegree [(⟨"custom row", customRowGate c⟩ : Gate F),
        ⟨"control constrain", controlConstrainGate c⟩,
        ⟨"control step", controlStepGate c legacy step⟩, ⟨"hash index constrain", hashIndexGate c⟩,
        ⟨"input constrain", inputConstrainGate c⟩] = [2, 4, 4, 3, 3] := rfl
    have hl : List.map lookupDegree [(⟨"control range check", controlRangeInput c, cs.numFixed⟩ : Lookup F)] =
      [5] := rfl
    simp only [List.map_append, foldr_max_append, hg, hl, List.foldr_cons, List.foldr_nil]
    omega
  rw [this, max_assoc]

end

/-- Columns and selectors of a chip: advice, fixed, selectors. Septidon: two full states, six partial
states and the transition column, one round-constant column for each S-box, and the control column. -/
def chipColumns : ChipKind → ℕ × ℕ × ℕ
  | .septidon => (3 + 3 + 6 + 1, 3 + 1 + 6 + 1, 0)
  | .pow5 _ => (3 + 1, 3 + 3, 4)

theorem pow5Chip_degree {F : Type} [Field F] (S : Pow5.Params F 2) (cs : CS F) :
    csDegree ((Pow5.chip S).configure.run cs).2 = max (csDegree cs) 6 ∧
      ((Pow5.chip S).configure.run cs).2.numAdvice = cs.numAdvice + 4 ∧
      ((Pow5.chip S).configure.run cs).2.numFixed = cs.numFixed + 6 ∧
      ((Pow5.chip S).configure.run cs).2.numSelectors = cs.numSelectors + 4 := by
  obtain ⟨cols, cs', h, e1, e2, e3, e4, e5⟩ : ∃ (cols : Pow5.Cols 2) (cs' : CS F),
      (Pow5.chip S).configure.run cs = (Pow5.configure S cols).run cs' ∧ csDegree cs' = csDegree cs ∧
      cs'.numAdvice = cs.numAdvice + 4 ∧ cs'.numFixed = cs.numFixed + 6 ∧
      cs'.numSelectors = cs.numSelectors ∧ cs'.gates = cs.gates :=
    ⟨⟨![cs.numAdvice, cs.numAdvice + 1, cs.numAdvice + 1 + 1], cs.numAdvice + 1 + 1 + 1,
      ![cs.numFixed, cs.numFixed + 1, cs.numFixed + 1 + 1], ![cs.numFixed + 1 + 1 + 1,
        cs.numFixed + 1 + 1 + 1 + 1, cs.numFixed + 1 + 1 + 1 + 1 + 1]⟩,
      {cs with numAdvice := cs.numAdvice + 1 + 1 + 1 + 1, numFixed := cs.numFixed + 1 + 1 + 1 + 1 + 1 + 1},
      by simp only [Pow5.chip, Pow5.configureChip, CS.adviceColumn, CS.fixedColumn, StateT.run, bind,
        StateT.bind], by simp only [csDegree], rfl, rfl, rfl, rfl⟩
  have h4 : (Pow5.configure S cols).run cs' = _ := Pow5.configure_eq S cols cs'
  have h5 := C53_pow5_degree (by norm_num) S cols cs'
  rw [e1] at h5
  rw [h]
  refine ⟨h5, ?_⟩
  rw [h4]
  exact ⟨e2, e3, by rw [← e4]⟩

/-- **C53.** The hash circuit of BN254, with either chip and in either build, adds polynomials of degree
exactly 6 to the circuit that contains it, exposes the six given columns, and adds the stated numbers of
columns. -/
theorem C53_circuit_degree (k : ChipKind) : ∃ ch, bnChip k = .ok ch ∧
    ∀ (legacy : Bool) (q : ℕ) (ht : Fin 6 → ℕ) (step : ℕ) (cs : CS Fr),
      let r := (configureSub ch legacy q ht step).run cs
      csDegree r.2 = max (csDegree cs) 6 ∧ commitmentIndex r.1 = ht ∧
        hashTblCols r.1 = (fun i => .advice (ht i)) ∧
        r.2.numAdvice = cs.numAdvice + 8 + (chipColumns k).1 ∧
        r.2.numFixed = cs.numFixed + 1 + (chipColumns k).2.1 ∧
        r.2.numSelectors = cs.numSelectors + 1 + (chipColumns k).2.2 := by
  obtain ⟨ch, hch, -⟩ := bnChip_lawful k
  refine ⟨ch, hch, fun legacy q ht step cs => ?_⟩
  cases k with
  | pow5 b =>
    have : ∃ S : Pow5.Params Fr 2, ch = Pow5.chip S := by
      cases b <;> simp only [bnChip] at hch <;> split at hch <;> cases hch <;> exact ⟨_, rfl⟩
    obtain ⟨S, rfl⟩ := this
    exact C53_table_degree (Pow5.chip S) 6 4 6 4 (fun cs => (pow5Chip_degree S cs).1)
      (fun cs => (pow5Chip_degree S cs).2) legacy q ht step cs
  | septidon =>
    have : ∃ rc, ch = Septidon.chip mds rc := by
      simp only [bnChip] at hch
      split at hch <;> cases hch
      exact ⟨_, rfl⟩
    obtain ⟨rc, rfl⟩ := this
    exact C53_table_degree (Septidon.chip mds rc) 6 13 11 0 (fun cs => C53_septidon_degree mds rc cs)
      (fun cs => ⟨rfl, rfl, rfl⟩) legacy q ht step cs

-- a fresh constraint system with the columns of the caller: the circuit has degree 6 and 27 advice columns
example : ∃ ch, bnChip .septidon = .ok ch ∧
    let r := (configureSub ch false 0 ![0, 1, 2, 3, 4, 5] 62).run
      (⟨6, 1, 0, [], [], []⟩ : CS Fr)
    csDegree r.2 = 6 ∧ r.2.numAdvice = 27 ∧ r.2.numFixed = 13 ∧ r.2.numSelectors = 1 := by
  obtain ⟨ch, h, hd⟩ := C53_circuit_degree .septidon
  obtain ⟨h1, -, -, h2, h3, h4⟩ := hd false 0 ![0, 1, 2, 3, 4, 5] 62 ⟨6, 1, 0, [], [], []⟩
  exact ⟨ch, h, h1, h2, h3, h4⟩

end Props
