import Verif.Circuit.TableAssign

/-!
# `configure_sub` and `load`: closed forms
-/

set_option linter.unusedVariables false
set_option linter.unusedSectionVars false
set_option linter.unusedSimpArgs false

open Halo2

namespace Circuit.Table

variable {F : Type} [Field F] [DecidableEq F] (legacy : Bool) (STEP : ℕ)
  {π : (Fin 3 → F) → Fin 3 → F} {ch : Chip F 3} (lw : ch.Lawful π)

/-- The configuration made by `configure_sub` when `a` advice columns, `f` fixed columns and `σ`
selectors exist already. -/
def conf (a f σ q : ℕ) (ht : Fin 6 → ℕ) (step : ℕ) : SpongeConfig ch.Config :=
  ⟨lw.cfg (a + 8) (f + 1) (σ + 1), ht, fun i => a + i, a + 7, a + 6, f, q, σ, step⟩

/-- The columns used by the gates. -/
def tcols (a f σ q : ℕ) (ht : Fin 6 → ℕ) : TableCols :=
  ⟨ht, fun i => a + i, a + 7, a + 6, f, q, σ⟩

def tableGates (a f σ q : ℕ) (ht : Fin 6 → ℕ) (step : ℕ) : List (Gate F) :=
  [⟨"custom row", customRowGate (tcols a f σ q ht)⟩,
   ⟨"control constrain", controlConstrainGate (tcols a f σ q ht)⟩,
   ⟨"control step", controlStepGate (tcols a f σ q ht) legacy step⟩,
   ⟨"hash index constrain", hashIndexGate (tcols a f σ q ht)⟩,
   ⟨"input constrain", inputConstrainGate (tcols a f σ q ht)⟩]

def tableEqs (a : ℕ) (ht : Fin 6 → ℕ) : List Col :=
  [.advice (a + 0), .advice (a + 1), .advice (a + 2), .advice (a + 3), .advice (a + 4),
    .advice (a + 5), .advice (ht 0), .advice (a + 6)]

theorem configureSub_eq (q : ℕ) (ht : Fin 6 → ℕ) (step : ℕ) (cs : CS F) :
    configureSub ch legacy q ht step cs =
      (conf lw cs.numAdvice cs.numFixed cs.numSelectors q ht step,
        { numAdvice := cs.numAdvice + 8 + lw.nA
          numFixed := cs.numFixed + 1 + lw.nF
          numSelectors := cs.numSelectors + 1 + lw.nS
          gates := cs.gates ++ tableGates legacy cs.numAdvice cs.numFixed cs.numSelectors q ht step ++
            lw.gates (cs.numAdvice + 8) (cs.numFixed + 1) (cs.numSelectors + 1)
          lookups := cs.lookups ++ [⟨"control range check",
            controlRangeInput (tcols cs.numAdvice cs.numFixed cs.numSelectors q ht), cs.numFixed⟩]
          equality := cs.equality ++ tableEqs cs.numAdvice ht ++
            lw.eqs (cs.numAdvice + 8) (cs.numFixed + 1) (cs.numSelectors + 1) }) := by
  have haux : ∀ a : ℕ, (![a, a + 1, a + 2, a + 3, a + 4, a + 5] : Fin 6 → ℕ) = fun i : Fin 6 => a + (i : ℕ) := by
    intro a; funext i; fin_cases i <;> rfl
  unfold configureSub
  simp only [bind, StateT.bind, CS.newSelector, CS.adviceColumn, CS.enableEquality, CS.fixedColumn,
    CS.createGate, CS.lookup, add_assoc, Nat.reduceAdd, pure, StateT.pure, lw.configure_eq,
    haux, List.append_assoc]
  simp only [conf, tcols, tableGates, tableEqs, Fin.isValue, List.cons_append, List.nil_append,
    add_assoc, Nat.reduceAdd, Nat.add_zero]
  rfl

/-- The writes of the range table. -/
def rangeOps (f : ℕ) : List (Op F) :=
  ((rangeEntries (F := F) legacy STEP).zipIdx.map fun (v, i) => Op.fixed f i v) ++
    [.fill f (rangeEntries (F := F) legacy STEP).length ((rangeEntries (F := F) legacy STEP).headD 0)]

/-- The copy constraints of the last region. -/
def finalOps (outs finals : List (Words F 3)) : List (Op F) := (constrainFinal outs finals).ops

theorem mem_finalOps (outs finals : List (Words F 3)) (o : Op F) :
    o ∈ finalOps outs finals ↔ ∃ q ∈ outs.zip finals, ∃ k, o = .copy (q.1 k).cell (q.2 k).cell := by
  simp only [finalOps, constrainFinal, constrainEqual, List.mem_flatMap, List.mem_finRange, true_and,
    List.mem_singleton]

variable (π) in
/-- Everything `load` writes: range table, table starting at row `s`, permutations starting at the rows
`s' 0`, `s' 1`, ..., final copy constraints. `tail` is the last custom selector. -/
def loadOps (a f σ q : ℕ) (ht : Fin 6 → ℕ) (step : ℕ) (rows : List (RowData F)) (tail : List (Op F))
    (s : ℕ) (s' : ℕ → ℕ) : List (Op F) :=
  let pairs := tablePairs legacy STEP π (conf lw a f σ q ht step) s rows
  rangeOps legacy STEP f ++ (tableOps legacy STEP π (conf lw a f σ q ht step) s rows ++ tail) ++
    lw.ops (a + 8) (f + 1) (σ + 1) (pairs.map Prod.fst) s' ++
    finalOps (pairs.map Prod.snd) (lw.outs (a + 8) (f + 1) (σ + 1) (pairs.map Prod.fst) s')

/-- The last custom selector: missing only in parallel mode with no rows (where row `s` has it
already). -/
def tailOps (σ s calcs : ℕ) : LoadMode → List (Op F)
  | .serial => [.selector σ (s + calcs)]
  | .parallel _ => if calcs = 0 then [] else [.selector σ (s + calcs)]

/-- The mode's condition on the table size. -/
def Capacity (t : HashTable F) (calcs : ℕ) : LoadMode → Prop
  | .serial => t.inputs.length ≤ calcs ∧ t.controls.length ≤ calcs
  | .parallel _ => True

/-- The columns whose first free rows decide where the permutations start. -/
def chipKey (a f σ : ℕ) : LoadMode → RCol → Prop
  | .serial => lw.keySerial (a + 8) (f + 1) (σ + 1)
  | .parallel _ => lw.keyBatch (a + 8) (f + 1) (σ + 1)

/-- The columns of the chip are unused. -/
def FreshChip (a f σ : ℕ) (L : Layouter F) : Prop :=
  (∀ i < lw.nA, L.colEnd (.advice (a + 8 + i)) = 0) ∧ (∀ i < lw.nF, L.colEnd (.fixed (f + 1 + i)) = 0) ∧
    (∀ i < lw.nS, L.colEnd (.selector (σ + 1 + i)) = 0)

theorem final_ok (L : Layouter F) (outs finals : List (Words F 3)) :
    ∃ L', L.assignRegion (fun _ => .ok (constrainFinal outs finals)) = .ok ((), L') ∧
      L'.ops = L.ops ++ finalOps outs finals ∧ L'.colEnd = L.colEnd := by
  have hr := Layouter.assignRegion_ok L (fun _ => constrainFinal outs finals) (by
    intro s c v hm
    obtain ⟨q, -, k, h⟩ := (mem_finalOps outs finals _).mp hm
    cases h)
  rw [hr]
  refine ⟨_, rfl, rfl, funext fun c => ?_⟩
  simp only
  rw [if_neg]
  intro hm
  obtain ⟨o, ho, hc⟩ := Layouter.mem_shapeCols.mp hm
  obtain ⟨q, -, k, rfl⟩ := (mem_finalOps outs finals _).mp ho
  cases hc

theorem load_ok (a f σ q : ℕ) (ht : Fin 6 → ℕ) (step : ℕ) (hht : ∀ i, ht i < a) (hq : q < f)
    (t : HashTable F) (calcs : ℕ) (mode : LoadMode) (L : Layouter F)
    (h1 : Capacity t calcs mode) (h2 : AllChecks legacy STEP π (rowData t calcs)) :
    ∃ s s' L', load legacy STEP (fun s => .ok (π s)) ch (conf lw a f σ q ht step) t calcs mode L =
        .ok L' ∧
      L'.ops = L.ops ++ loadOps legacy STEP π lw a f σ q ht step (rowData t calcs)
        (tailOps σ s calcs mode) s (stack lw.height s') ∧
      (Fresh (conf lw a f σ q ht step) L → s = 0) ∧ (FreshChip lw a f σ L → s' = 0) ∧
      Top L.colEnd (tableKey (conf lw a f σ q ht step) mode calcs) s ∧
      (0 < calcs → Top L.colEnd (chipKey lw a f σ mode) s') ∧
      (∀ c, tableKey (conf lw a f σ q ht step) mode calcs c →
        L'.colEnd c = tableEnd (conf lw a f σ q ht step) mode calcs s c) ∧
      ∀ c, ¬ tableKey (conf lw a f σ q ht step) mode calcs c →
        ¬ OwnCol lw.nA lw.nF lw.nS (a + 8) (f + 1) (σ + 1) c → L'.colEnd c = L.colEnd c := by
  have hown : ∀ k, OwnCol lw.nA lw.nF lw.nS (a + 8) (f + 1) (σ + 1) k →
      ¬ TableCol (conf lw a f σ q ht step) k := by
    intro k hk
    rcases hk with ⟨i, hi, rfl⟩ | ⟨i, hi, rfl⟩ | ⟨i, hi, rfl⟩
    · rintro (⟨j, hj⟩ | ⟨j, hj⟩ | hj | hj)
      · have := hht j; simp only [conf] at hj; omega
      · simp only [conf] at hj; omega
      · simp only [conf] at hj; omega
      · simp only [conf] at hj; omega
    · intro hj
      simp only [TableCol, conf] at hj; omega
    · intro hj
      simp only [TableCol, conf] at hj; omega
  have hsep : ∀ k, lw.keySerial (a + 8) (f + 1) (σ + 1) k ∨ lw.keyBatch (a + 8) (f + 1) (σ + 1) k →
      ¬ TableCol (conf lw a f σ q ht step) k := fun k hk => hown k (lw.key_own _ _ _ k hk)
  have hout : ∀ L₁ L₂ : Layouter F,
      (∀ c, ¬ TableCol (conf lw a f σ q ht step) c → L₂.colEnd c = L₁.colEnd c) →
      FreshChip lw a f σ L₁ → FreshChip lw a f σ L₂ := by
    rintro L₁ L₂ h ⟨f1, f2, f3⟩
    refine ⟨fun i hi => ?_, fun i hi => ?_, fun i hi => ?_⟩
    · rw [h, f1 i hi]
      rintro (⟨j, hj⟩ | ⟨j, hj⟩ | hj | hj)
      · have := hht j; simp only [conf] at hj; omega
      · simp only [conf] at hj; omega
      · simp only [conf] at hj; omega
      · simp only [conf] at hj; omega
    · rw [h, f2 i hi]
      intro hj
      simp only [TableCol, conf] at hj; omega
    · rw [h, f3 i hi]
      intro hj
      simp only [TableCol, conf] at hj; omega
  obtain ⟨Lr, hLr⟩ : ∃ Lr, Lr = L.assignTable f (rangeEntries (F := F) legacy STEP) := ⟨_, rfl⟩
  have hrops : Lr.ops = L.ops ++ rangeOps legacy STEP f := by
    rw [hLr]; simp only [Layouter.assignTable, rangeOps, List.append_assoc]
  have hrcol : Lr.colEnd = L.colEnd := by rw [hLr]; rfl
  have hfresh : Fresh (conf lw a f σ q ht step) L → Fresh (conf lw a f σ q ht step) Lr := by
    intro h c hc; rw [hrcol]; exact h c hc
  have hfchip : FreshChip lw a f σ L → FreshChip lw a f σ Lr := by
    intro h
    unfold FreshChip at h ⊢
    rw [hrcol]; exact h
  cases mode with
  | serial =>
    obtain ⟨s, L₁, e1, o1, u1, f1, tp, rv⟩ := serial_ok legacy STEP π (conf lw a f σ q ht step) t calcs Lr h1 h2
    obtain ⟨s', L₂, e2, o2, f2, tc, k2⟩ := lw.serial (a + 8) (f + 1) (σ + 1) L₁
      ((tablePairs legacy STEP π (conf lw a f σ q ht step) s (rowData t calcs)).map Prod.fst)
    obtain ⟨L₃, e3, o3, k3⟩ := final_ok L₂
      ((tablePairs legacy STEP π (conf lw a f σ q ht step) s (rowData t calcs)).map Prod.snd)
      (lw.outs (a + 8) (f + 1) (σ + 1)
        ((tablePairs legacy STEP π (conf lw a f σ q ht step) s (rowData t calcs)).map Prod.fst) (stack lw.height s'))
    have hne : 0 < calcs → (tablePairs legacy STEP π (conf lw a f σ q ht step) s (rowData t calcs)).map
        Prod.fst ≠ [] := by
      intro h0 hnil
      have := congrArg List.length hnil
      rw [List.length_map, tablePairs, length_fillPairs, length_rowData] at this
      simp at this; omega
    refine ⟨s, s', L₃, ?_, ?_, fun h => f1 (hfresh h), fun h => ?_, by rw [← hrcol]; exact tp, fun h0 => ?_,
      fun c hc => ?_, fun c hc hn => ?_⟩
    · unfold load
      have hcfg : (conf lw a f σ q ht step).permuteConfig = lw.cfg (a + 8) (f + 1) (σ + 1) := rfl
      have hsr : (conf lw a f σ q ht step).stepRange = f := rfl
      simp only [hsr, ← hLr, e1, hcfg, bind, Except.bind, e2, e3, pure, Except.pure]
    · simp only [o3, o2, o1, hrops, loadOps, tailOps, List.append_assoc]
      rfl
    · obtain ⟨g1, g2, g3⟩ := hout _ _ u1 (hfchip h)
      exact f2 g1 g2 g3
    · refine (tc (hne h0)).congr fun k hk => ?_
      rw [u1 k (hsep k (Or.inl hk)), hrcol]
    · rw [k3, k2 c fun h => hown c h hc.1, rv.1 c hc]
    · rw [k3, k2 c hn, rv.2 c hc, hrcol]
  | parallel threads =>
    obtain ⟨s, L₁, e1, o1, u1, f1, tp, rv⟩ := parallel_ok legacy STEP π (conf lw a f σ q ht step) t calcs threads Lr h2
    obtain ⟨s', L₂, e2, o2, f2, tc, k2⟩ := lw.batch (a + 8) (f + 1) (σ + 1) L₁ threads
      ((tablePairs legacy STEP π (conf lw a f σ q ht step) s (rowData t calcs)).map Prod.fst)
    obtain ⟨L₃, e3, o3, k3⟩ := final_ok L₂
      ((tablePairs legacy STEP π (conf lw a f σ q ht step) s (rowData t calcs)).map Prod.snd)
      (lw.outs (a + 8) (f + 1) (σ + 1)
        ((tablePairs legacy STEP π (conf lw a f σ q ht step) s (rowData t calcs)).map Prod.fst) (stack lw.height s'))
    have hne : 0 < calcs → (tablePairs legacy STEP π (conf lw a f σ q ht step) s (rowData t calcs)).map
        Prod.fst ≠ [] := by
      intro h0 hnil
      have := congrArg List.length hnil
      rw [List.length_map, tablePairs, length_fillPairs, length_rowData] at this
      simp at this; omega
    refine ⟨s, s', L₃, ?_, ?_, fun h => f1 (hfresh h), fun h => ?_, by rw [← hrcol]; exact tp, fun h0 => ?_,
      fun c hc => ?_, fun c hc hn => ?_⟩
    · unfold load
      have hcfg : (conf lw a f σ q ht step).permuteConfig = lw.cfg (a + 8) (f + 1) (σ + 1) := rfl
      have hsr : (conf lw a f σ q ht step).stepRange = f := rfl
      simp only [hsr, ← hLr, e1, hcfg, bind, Except.bind, e2, e3, pure, Except.pure]
    · simp only [o3, o2, o1, hrops, loadOps, tailOps, List.append_assoc]
      rfl
    · obtain ⟨g1, g2, g3⟩ := hout _ _ u1 (hfchip h)
      exact f2 g1 g2 g3
    · refine (tc (hne h0)).congr fun k hk => ?_
      rw [u1 k (hsep k (Or.inr hk)), hrcol]
    · rw [k3, k2 c fun h => hown c h hc.1, rv.1 c hc]
    · rw [k3, k2 c hn, rv.2 c hc, hrcol]

theorem load_error (a f σ q : ℕ) (ht : Fin 6 → ℕ) (step : ℕ)
    (t : HashTable F) (calcs : ℕ) (mode : LoadMode) (L : Layouter F)
    (h : ¬ Capacity t calcs mode ∨ ¬ AllChecks legacy STEP π (rowData t calcs)) :
    ∃ e, load legacy STEP (fun s => .ok (π s)) ch (conf lw a f σ q ht step) t calcs mode L =
      .error e ∧ (e = .calcsTooSmall ∧ ¬ Capacity t calcs mode ∨
        e = .checkMismatch ∧ Capacity t calcs mode) := by
  cases mode with
  | serial =>
    obtain ⟨e, h1, h2⟩ := serial_error legacy STEP π (conf lw a f σ q ht step) t calcs
      (L.assignTable (conf lw a f σ q ht step).stepRange (rangeEntries legacy STEP)) h
    refine ⟨e, ?_, h2⟩
    unfold load
    simp only [h1, bind, Except.bind]
  | parallel threads =>
    have h2 : ¬ AllChecks legacy STEP π (rowData t calcs) := by
      rcases h with h | h
      · exact absurd trivial h
      · exact h
    refine ⟨.checkMismatch, ?_, Or.inr ⟨rfl, trivial⟩⟩
    unfold load
    simp only [parallel_error legacy STEP π (conf lw a f σ q ht step) t calcs threads _ h2, bind,
      Except.bind]

/-! ## Other floor planners -/

theorem serial_one (a f σ s : ℕ) (w : Words F 3) : ∃ o L', ch.permute (lw.cfg a f σ) (levelLayouter s) w =
      .ok (o, L') ∧ [o] = lw.outs a f σ [w] (fun _ => s) ∧ L'.ops = lw.ops a f σ [w] fun _ => s := by
  obtain ⟨s', L', e, o, -, tp, -⟩ := lw.serial a f σ (levelLayouter s) [w]
  obtain rfl : s' = s := (tp (by simp)).const fun c _ => rfl
  have h1 : lw.outs a f σ [w] (stack lw.height s') = lw.outs a f σ [w] fun _ => s' := by
    rw [lw.outs_cons, lw.outs_nil, List.append_nil, stack_zero]
  have h2 : lw.ops a f σ [w] (stack lw.height s') = lw.ops a f σ [w] fun _ => s' := by
    rw [lw.ops_cons, lw.ops_nil, List.append_nil, stack_zero]
  rw [h1] at e
  rw [h2] at o
  simp only [mapPermute, bind, Except.bind, pure, Except.pure] at e
  cases hp : ch.permute (lw.cfg a f σ) (levelLayouter s') w with
  | error p => rw [hp] at e; cases e
  | ok r =>
    rw [hp] at e
    obtain ⟨q, L⟩ := r
    simp only [Except.ok.injEq, Prod.mk.injEq] at e
    obtain ⟨e1, rfl⟩ := e
    exact ⟨q, L, rfl, e1, by simpa [levelLayouter] using o⟩

theorem planned_ok (a f σ : ℕ) (p : ℕ → ℕ) (ws : List (Words F 3)) :
    permutePlanned (ch.permute (lw.cfg a f σ)) p ws = .ok (lw.outs a f σ ws p, lw.ops a f σ ws p) := by
  induction ws generalizing p with
  | nil => rw [lw.outs_nil, lw.ops_nil]; rfl
  | cons w ws ih =>
    obtain ⟨o, L', e, h1, h2⟩ := serial_one lw a f σ (p 0) w
    rw [lw.outs_cons, lw.ops_cons, ← h1, ← h2, permutePlanned]
    simp only [e, ih, bind, Except.bind, pure, Except.pure]
    rfl

theorem foldl_max_eq (l : List ℕ) (m h : ℕ) (h1 : ∀ x ∈ l, x ≤ h) (hm : m ≤ h) (h2 : m = h ∨ h ∈ l) :
    l.foldl max m = h := by
  induction l generalizing m with
  | nil => simpa using h2
  | cons x l ih =>
    have hx := h1 x (by simp)
    refine ih (max m x) (fun y hy => h1 y (by simp [hy])) (by omega) ?_
    simp only [List.mem_cons] at h2
    rcases h2 with rfl | rfl | h2
    · left; omega
    · left; omega
    · right; exact h2

theorem permuteRows_eq (a f σ : ℕ) : permuteRows ch (lw.cfg a f σ) = lw.height := by
  obtain ⟨o, L', e, -, h2⟩ := serial_one lw a f σ 0 fun _ => ⟨⟨.advice 0, 0⟩, 0⟩
  simp only [permuteRows, e, Layouter.shapeRows]
  refine foldl_max_eq _ _ _ ?_ (Nat.zero_le _) (Or.inr ?_)
  · intro b hb
    obtain ⟨op, hop, rfl⟩ := List.mem_map.mp hb
    rw [h2] at hop
    rcases lw.shape _ _ _ _ _ op hop with ⟨c, r, v, rfl, -, -, i, -, -, hr⟩ | ⟨c, r, v, rfl, -, -, i, -, -, hr⟩ |
      ⟨c, r, rfl, -, -, i, -, -, hr⟩ | ⟨c, r, w, k, rfl, -⟩ <;> simp only [Op.bottom] <;> omega
  · obtain ⟨op, hop, hb⟩ := lw.reach a f σ [fun _ => ⟨⟨.advice 0, 0⟩, 0⟩] (fun _ => 0) 0 (by simp)
    exact List.mem_map.mpr ⟨op, by rw [h2]; exact hop, by omega⟩

theorem loadPlanned_ok (a f σ q : ℕ) (ht : Fin 6 → ℕ) (step : ℕ) (t : HashTable F) (calcs : ℕ)
    (plan : ℕ → ℕ) (L : Layouter F) (h1 : Capacity t calcs .serial)
    (h2 : AllChecks legacy STEP π (rowData t calcs)) :
    ∃ L', loadPlanned legacy STEP (fun s => .ok (π s)) ch (conf lw a f σ q ht step) t calcs plan L = .ok L' ∧
      L'.ops = L.ops ++ loadOps legacy STEP π lw a f σ q ht step (rowData t calcs)
        (tailOps σ (plan 0) calcs .serial) (plan 0) fun i => plan (i + 1) := by
  obtain ⟨Lr, hLr⟩ : ∃ Lr, Lr = L.assignTable f (rangeEntries (F := F) legacy STEP) := ⟨_, rfl⟩
  have hrops : Lr.ops = L.ops ++ rangeOps legacy STEP f := by
    rw [hLr]; simp only [Layouter.assignTable, rangeOps, List.append_assoc]
  obtain ⟨s, L₁, e1, o1, -, -, tp, -⟩ := serial_ok legacy STEP π (conf lw a f σ q ht step) t calcs
    (levelLayouter (plan 0)) h1 h2
  obtain rfl : s = plan 0 := tp.const fun c _ => rfl
  have e2 := planned_ok lw (a + 8) (f + 1) (σ + 1) (fun i => plan (i + 1))
    ((tablePairs legacy STEP π (conf lw a f σ q ht step) (plan 0) (rowData t calcs)).map Prod.fst)
  have hcfg : (conf lw a f σ q ht step).permuteConfig = lw.cfg (a + 8) (f + 1) (σ + 1) := rfl
  have hsr : (conf lw a f σ q ht step).stepRange = f := rfl
  refine ⟨_, by
    unfold loadPlanned
    simp only [hsr, ← hLr, e1, hcfg, bind, Except.bind, e2, pure, Except.pure]
    rfl, ?_⟩
  simp only [o1, hrops, loadOps, tailOps, List.append_assoc, levelLayouter, List.nil_append]
  rfl

theorem loadPlanned_error (a f σ q : ℕ) (ht : Fin 6 → ℕ) (step : ℕ)
    (t : HashTable F) (calcs : ℕ) (plan : ℕ → ℕ) (L : Layouter F)
    (h : ¬ Capacity t calcs .serial ∨ ¬ AllChecks legacy STEP π (rowData t calcs)) :
    ∃ e, loadPlanned legacy STEP (fun s => .ok (π s)) ch (conf lw a f σ q ht step) t calcs plan L =
      .error e ∧ (e = .calcsTooSmall ∧ ¬ Capacity t calcs .serial ∨
        e = .checkMismatch ∧ Capacity t calcs .serial) := by
  obtain ⟨e, h1, h2⟩ := serial_error legacy STEP π (conf lw a f σ q ht step) t calcs
    (levelLayouter (plan 0)) h
  refine ⟨e, ?_, h2⟩
  unfold loadPlanned
  simp only [h1, bind, Except.bind]

end Circuit.Table
