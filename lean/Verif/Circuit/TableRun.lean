import Verif.Circuit.TableSound
import Verif.Circuit.ChipBn

/-!
# Runs of the hash table circuit

The vocabulary of the properties C26-C47: a *run* is one use of `configure_sub` and `load` inside a
larger circuit, and this file says what it means for a grid to carry the constants laid down by the
run, to satisfy it, and to be the honest witness.
-/

set_option linter.unusedVariables false
set_option linter.unusedSectionVars false

namespace Circuit
open Halo2 Base.Bn256

/-- One use of the hash table circuit inside a larger circuit: the constraint system `cs` before
`configure_sub`, the caller's columns, the parameters of `configure_sub` and of the chip type, the
table to load, and the layouter before `load`. -/
structure Run (F : Type) [Field F] where
  ch : Chip F 3
  native : (Fin 3 → F) → Except Panic (Fin 3 → F)
  legacy : Bool
  /-- the const generic `STEP` of the chip -/
  STEP : ℕ
  /-- the `step` argument of `configure_sub` -/
  step : ℕ
  cs : CS F
  qEnable : ℕ
  hashTable : Fin 6 → ℕ
  table : HashTable F
  calcs : ℕ
  mode : LoadMode
  before : Layouter F

namespace Run
variable {F : Type} [Field F] [DecidableEq F] (x : Run F)

/-- `configure_sub` on `cs`. -/
def configured : SpongeConfig x.ch.Config × CS F :=
  configureSub x.ch x.legacy x.qEnable x.hashTable x.step x.cs

/-- `load`. -/
def load : Except Panic (Layouter F) :=
  Circuit.load x.legacy x.STEP x.native x.ch x.configured.1 x.table x.calcs x.mode x.before

/-- `load`, with the operations of the threads in the order of two schedulers. -/
def loadBy (σ τ : Scheduler F) : Except Panic (Layouter F) :=
  Circuit.loadBy x.legacy x.STEP x.native σ τ x.ch x.configured.1 x.table x.calcs x.mode x.before

/-- `load` in serial mode under a floor planner that puts the regions at the rows given by `plan`. -/
def loadPlanned (plan : ℕ → ℕ) : Except Panic (Layouter F) :=
  Circuit.loadPlanned x.legacy x.STEP x.native x.ch x.configured.1 x.table x.calcs plan x.before

/-- The regions of a plan do not overlap (the region of the table shares no column with those of the
permutations). -/
def Plan (plan : ℕ → ℕ) : Prop :=
  x.mode = .serial ∧ RowsApart (permuteRows x.ch x.configured.1.permuteConfig) x.calcs fun i => plan (i + 1)

/-- The synthesis succeeds with layouter `L'`: under the simple floor planner, in either mode, or under
any other floor planner in serial mode. -/
def Loads (L' : Layouter F) : Prop :=
  x.load = .ok L' ∨ ∃ plan, x.Plan plan ∧ x.loadPlanned plan = .ok L'

/-- The caller's columns exist and are distinct; the sizes and controls are 64-bit numbers. -/
structure Legal : Prop where
  cols : ∀ i, x.hashTable i < x.cs.numAdvice
  inj : Function.Injective x.hashTable
  enable : x.qEnable < x.cs.numFixed
  STEP_lt : x.STEP < 2 ^ 64
  step_lt : x.step < 2 ^ 64
  calcs_lt : x.calcs < 2 ^ 64
  controls_lt : ∀ c ∈ x.table.controls, c < 2 ^ 64

/-- Fixed columns of the circuit. -/
def FixedCol (c : ℕ) : Prop :=
  c = x.qEnable ∨ (x.cs.numFixed ≤ c ∧ c < x.configured.2.numFixed)
/-- Selectors of the circuit. -/
def Sel (c : ℕ) : Prop := x.cs.numSelectors ≤ c ∧ c < x.configured.2.numSelectors
/-- Advice columns of the circuit. -/
def AdviceCol (c : ℕ) : Prop :=
  (∃ i, c = x.hashTable i) ∨ (x.cs.numAdvice ≤ c ∧ c < x.configured.2.numAdvice)

/-- Gates, lookups and operations added by the run. -/
def newGates : List (Gate F) := x.configured.2.gates.drop x.cs.gates.length
def newLookups : List (Lookup F) := x.configured.2.lookups.drop x.cs.lookups.length
def newOps (L' : Layouter F) : List (Op F) := L'.ops.drop x.before.ops.length

/-- The grid carries the fixed columns and selectors laid down by the synthesis (`post` are the
operations after `load`; the column of the range table, `numFixed`, is filled up on the usable rows only); the rest of the circuit leaves those of the hash table alone; the
operations of `load` fit the usable rows. The advice columns are arbitrary. -/
structure Laid (L' : Layouter F) (post : List (Op F)) (g : Grid F) : Prop where
  usable_le : g.usable ≤ g.n
  fits : Fits (x.newOps L') g.usable
  quietFixed : ∀ o ∈ x.before.ops ++ post, ∀ c r v, o.FixedWrite c r v → ¬ x.FixedCol c
  quietSel : ∀ c r, Op.selector c r ∈ x.before.ops ++ post → ¬ x.Sel c
  fixed : ∀ c, x.FixedCol c → ∀ r < g.n, (c = x.cs.numFixed → r < g.usable) →
    g.fixed c r = finalFixed (L'.ops ++ post) c r
  selector : ∀ c, x.Sel c → ∀ r < g.n, g.selector c r = finalSelector (L'.ops ++ post) c r

/-- The grid meets the gates, lookups and copy constraints of the hash table. -/
structure Satisfies (L' : Layouter F) (g : Grid F) : Prop where
  gates : ∀ p ∈ x.newGates, p.Holds g
  lookups : ∀ l ∈ x.newLookups, l.Holds g
  copies : CopiesHold g (x.newOps L')

/-- The grid carries the witness of the synthesis in the advice columns of the hash table, on the
usable rows (the other rows hold arbitrary blinding values), and the rest of the circuit does not write
to those columns. -/
structure Honest (L' : Layouter F) (post : List (Op F)) (g : Grid F) : Prop extends
    x.Laid L' post g where
  quietAdvice : ∀ c r v, Op.advice c r v ∈ x.before.ops ++ post → ¬ x.AdviceCol c
  advice : ∀ c, x.AdviceCol c → ∀ r < g.usable, g.advice c r = finalAdvice (L'.ops ++ post) c r

/-- The floor planner has not used the columns of the circuit yet (for instance: the hash table is the
first thing to be synthesised). -/
def Fresh : Prop :=
  (∀ c, x.AdviceCol c → x.before.colEnd (.advice c) = 0) ∧
  (∀ c, x.FixedCol c → x.before.colEnd (.fixed c) = 0) ∧
  (∀ c, x.Sel c → x.before.colEnd (.selector c) = 0)

/-- The enabled rows are `s + 1, ..., s + calcs`. -/
def EnabledAfter (g : Grid F) (s : ℕ) : Prop :=
  s + x.calcs < g.usable ∧
    ∀ r < g.n, g.fixed x.qEnable r = if s < r ∧ r ≤ s + x.calcs then 1 else 0

/-- Table column `i` at row `r`. -/
def col (g : Grid F) (i : Fin 6) (r : ℕ) : F := g.advice (x.hashTable i) r

end Run

/-- A run over `bn256::Fr` with one of the crate's permutation chips and the crate's hash. -/
def Run.IsBn (x : Run Fr) (k : ChipKind) (short : Bool) : Prop :=
  bnChip k = .ok x.ch ∧ x.native = permuteFr short

/-- An accepted assignment of a run over `bn256::Fr`: `load` succeeded with layouter `L'` (under the simple
floor planner or, in serial mode, under any other), the grid
carries the fixed columns and selectors of the synthesis and meets all gates, lookups and copy
constraints of the hash table. The advice columns are chosen by the prover. -/
structure Run.Accepted (x : Run Fr) (k : ChipKind) (short : Bool) (L' : Layouter Fr) (post : List (Op Fr))
    (g : Grid Fr) : Prop where
  bn : x.IsBn k short
  legal : x.Legal
  loaded : x.Loads L'
  laid : x.Laid L' post g
  sat : x.Satisfies L' g

theorem permuteFr_eq (short : Bool) : permuteFr short = fun s => .ok (specPerm s) := by
  obtain ⟨rc, h1, -, h3, -⟩ := cached_ok
  funext s
  simp only [permuteFr, h1, bind, Except.bind, h3, pure, Except.pure]

theorem Run.IsBn.lawful {x : Run Fr} {k : ChipKind} {short : Bool} (h : x.IsBn k short) :
    (∃ lw : x.ch.Lawful specPerm, lw.height = k.rows) ∧
      x.native = fun s => .ok (specPerm s) := by
  obtain ⟨ch, h1, ⟨lw⟩⟩ := bnChip_lawful k
  have := h.1.symm.trans h1
  injection this with this
  obtain ⟨ch', native, legacy, STEP, step, cs, q, ht, t, calcs, mode, L⟩ := x
  simp only at this
  subst this
  exact ⟨⟨lw.1, lw.2⟩, h.2.trans (permuteFr_eq short)⟩

namespace Run
open Table
variable {F : Type} [Field F] [DecidableEq F] {x : Run F} {π : (Fin 3 → F) → Fin 3 → F}

section
variable (lw : x.ch.Lawful π)

/-- What `load` adds to the log. -/
def ops (s : ℕ) (s' : ℕ → ℕ) : List (Op F) :=
  loadOps x.legacy x.STEP π lw x.cs.numAdvice x.cs.numFixed x.cs.numSelectors x.qEnable x.hashTable x.step
    ((List.range x.calcs).map (rowAt x.table)) (tailOps x.cs.numSelectors s x.calcs x.mode) s s'

theorem configured_eq (lw : x.ch.Lawful π) : x.configured =
    (conf lw x.cs.numAdvice x.cs.numFixed x.cs.numSelectors x.qEnable x.hashTable x.step,
        { numAdvice := x.cs.numAdvice + 8 + lw.nA
          numFixed := x.cs.numFixed + 1 + lw.nF
          numSelectors := x.cs.numSelectors + 1 + lw.nS
          gates := x.cs.gates ++ tableGates x.legacy x.cs.numAdvice x.cs.numFixed x.cs.numSelectors
              x.qEnable x.hashTable x.step ++
            lw.gates (x.cs.numAdvice + 8) (x.cs.numFixed + 1) (x.cs.numSelectors + 1)
          lookups := x.cs.lookups ++ [⟨"control range check",
            controlRangeInput (tcols x.cs.numAdvice x.cs.numFixed x.cs.numSelectors x.qEnable x.hashTable),
              x.cs.numFixed⟩]
          equality := x.cs.equality ++ tableEqs x.cs.numAdvice x.hashTable ++
            lw.eqs (x.cs.numAdvice + 8) (x.cs.numFixed + 1) (x.cs.numSelectors + 1) }) :=
  configureSub_eq x.legacy lw x.qEnable x.hashTable x.step x.cs

theorem newGates_eq : x.newGates =
    tableGates x.legacy x.cs.numAdvice x.cs.numFixed x.cs.numSelectors x.qEnable x.hashTable x.step ++
      lw.gates (x.cs.numAdvice + 8) (x.cs.numFixed + 1) (x.cs.numSelectors + 1) := by
  unfold newGates
  rw [configured_eq lw]
  simp only [List.append_assoc, List.drop_left]

theorem newLookups_eq (lw : x.ch.Lawful π) : x.newLookups =
    [⟨"control range check", controlRangeInput
      (tcols x.cs.numAdvice x.cs.numFixed x.cs.numSelectors x.qEnable x.hashTable), x.cs.numFixed⟩] := by
  unfold newLookups
  rw [configured_eq lw]
  simp only [List.drop_left]

theorem fixedCol_iff (c : ℕ) : x.FixedCol c ↔
    c = x.qEnable ∨ (x.cs.numFixed ≤ c ∧ c < x.cs.numFixed + 1 + lw.nF) := by
  unfold FixedCol
  rw [configured_eq lw]

theorem sel_iff (c : ℕ) : x.Sel c ↔
    x.cs.numSelectors ≤ c ∧ c < x.cs.numSelectors + 1 + lw.nS := by
  unfold Sel
  rw [configured_eq lw]

theorem adviceCol_iff (c : ℕ) : x.AdviceCol c ↔
    (∃ i, c = x.hashTable i) ∨ (x.cs.numAdvice ≤ c ∧ c < x.cs.numAdvice + 8 + lw.nA) := by
  unfold AdviceCol
  rw [configured_eq lw]

theorem Fresh.table (hx : x.Legal) (h : x.Fresh) :
    Table.Fresh (conf lw x.cs.numAdvice x.cs.numFixed x.cs.numSelectors x.qEnable x.hashTable x.step)
      x.before := by
  obtain ⟨h1, h2, h3⟩ := h
  rintro (c | c | c) hc
  · refine h1 c ((adviceCol_iff lw c).mpr ?_)
    rcases hc with ⟨i, rfl⟩ | ⟨i, rfl⟩ | rfl | rfl
    · exact Or.inl ⟨i, rfl⟩
    · right; simp only [conf]; omega
    · right; simp only [conf]; omega
    · right; simp only [conf]; omega
  · exact h2 c ((fixedCol_iff lw c).mpr (Or.inl hc))
  · refine h3 c ((sel_iff lw c).mpr ?_)
    simp only [TableCol, conf] at hc
    omega

theorem Fresh.chip (h : x.Fresh) :
    FreshChip lw x.cs.numAdvice x.cs.numFixed x.cs.numSelectors x.before := by
  obtain ⟨h1, h2, h3⟩ := h
  refine ⟨fun i hi => h1 _ ((adviceCol_iff lw _).mpr (Or.inr ?_)),
    fun i hi => h2 _ ((fixedCol_iff lw _).mpr (Or.inr ?_)), fun i hi => h3 _ ((sel_iff lw _).mpr ?_)⟩ <;>
    omega

/-- Where the table and the permutations start. -/
def Start (s : ℕ) (s' : ℕ → ℕ) : Prop :=
  Top x.before.colEnd (tableKey (conf lw x.cs.numAdvice x.cs.numFixed x.cs.numSelectors x.qEnable x.hashTable
    x.step) x.mode x.calcs) s ∧
  ∃ s₀, s' = stack lw.height s₀ ∧ (0 < x.calcs → Top x.before.colEnd
    (chipKey lw x.cs.numAdvice x.cs.numFixed x.cs.numSelectors x.mode) s₀)

theorem Start.apart {s : ℕ} {s' : ℕ → ℕ} (h : Start lw s s') : RowsApart lw.height x.calcs s' := by
  obtain ⟨-, s₀, rfl, -⟩ := h
  exact RowsApart.stack _ _ _

/-- Success of `load`, and what it writes. -/
theorem load_iff (hx : x.Legal) (hn : x.native = fun s => .ok (π s)) :
    ((∃ L', x.load = .ok L') ↔ Capacity x.table x.calcs x.mode ∧
      AllChecks x.legacy x.STEP π (rowData x.table x.calcs)) ∧
    (∀ e, x.load = .error e →
      (e = .calcsTooSmall ∧ ¬ Capacity x.table x.calcs x.mode ∨
        e = .checkMismatch ∧ Capacity x.table x.calcs x.mode)) ∧
    ∀ L', x.load = .ok L' → ∃ s s', L'.ops = x.before.ops ++ ops lw s s' ∧
      (x.Fresh → s = 0 ∧ s' = stack lw.height 0) ∧ Start lw s s' := by
  have hload : x.load = Circuit.load x.legacy x.STEP (fun s => .ok (π s)) x.ch
      (conf lw x.cs.numAdvice x.cs.numFixed x.cs.numSelectors x.qEnable x.hashTable x.step) x.table
      x.calcs x.mode x.before := by
    unfold load
    rw [configured_eq lw, hn]
  have herr : ¬ (Capacity x.table x.calcs x.mode ∧
      AllChecks x.legacy x.STEP π (rowData x.table x.calcs)) →
      ∃ e, x.load = .error e ∧
        (e = .calcsTooSmall ∧ ¬ Capacity x.table x.calcs x.mode ∨
          e = .checkMismatch ∧ Capacity x.table x.calcs x.mode) := by
    intro h
    rw [hload]
    exact load_error x.legacy x.STEP lw _ _ _ _ _ _ _ _ _ _ (by tauto)
  have hok : Capacity x.table x.calcs x.mode →
      AllChecks x.legacy x.STEP π (rowData x.table x.calcs) →
      ∃ s s' L', x.load = .ok L' ∧ L'.ops = x.before.ops ++ ops lw s s' ∧
        (x.Fresh → s = 0 ∧ s' = stack lw.height 0) ∧ Start lw s s' := by
    intro h1 h2
    rw [hload]
    obtain ⟨s, s', L', e, o, f1, f2, st⟩ := load_ok x.legacy x.STEP lw x.cs.numAdvice x.cs.numFixed
      x.cs.numSelectors x.qEnable x.hashTable x.step hx.cols hx.enable x.table x.calcs x.mode x.before h1 h2
    exact ⟨s, stack lw.height s', L', e, o, fun h => ⟨f1 (h.table lw hx), by rw [f2 (h.chip lw)]⟩, st.1, s', rfl,
      st.2.1⟩
  refine ⟨⟨?_, ?_⟩, ?_, ?_⟩
  · rintro ⟨L', h⟩
    by_contra hc
    obtain ⟨e, he, -⟩ := herr hc
    rw [h] at he; cases he
  · rintro ⟨h1, h2⟩
    obtain ⟨s, s', L', e, -⟩ := hok h1 h2
    exact ⟨L', e⟩
  · intro e he
    by_cases hc : Capacity x.table x.calcs x.mode ∧ AllChecks x.legacy x.STEP π (rowData x.table x.calcs)
    · obtain ⟨s, s', L', e', -⟩ := hok hc.1 hc.2
      rw [he] at e'; cases e'
    · obtain ⟨e', he', h⟩ := herr hc
      rw [he] at he'; cases he'
      exact h
  · intro L' h
    by_cases hc : Capacity x.table x.calcs x.mode ∧ AllChecks x.legacy x.STEP π (rowData x.table x.calcs)
    · obtain ⟨s, s', L'', e', o, fr⟩ := hok hc.1 hc.2
      rw [h] at e'; cases e'
      exact ⟨s, s', o, fr⟩
    · obtain ⟨e', he', -⟩ := herr hc
      rw [h] at he'; cases he'

theorem newOps_eq {L' : Layouter F} {s : ℕ} {s' : ℕ → ℕ} (h : L'.ops = x.before.ops ++ ops lw s s') :
    x.newOps L' = ops lw s s' := by
  unfold newOps
  rw [h, List.drop_left]

theorem Laid.fixed_new {L' : Layouter F} {post : List (Op F)} {g : Grid F} (hl : x.Laid L' post g)
    {s : ℕ} {s' : ℕ → ℕ} (h : L'.ops = x.before.ops ++ ops lw s s') (c : ℕ) (hc : x.FixedCol c) (r : ℕ)
    (hr : r < g.n) (hu : c = x.cs.numFixed → r < g.usable) : g.fixed c r = finalFixed (ops lw s s') c r := by
  rw [hl.fixed c hc r hr hu, h]
  exact finalFixed_between (fun o ho r v hw => hl.quietFixed o (by simp [ho]) c r v hw hc)
    (fun o ho r v hw => hl.quietFixed o (by simp [ho]) c r v hw hc) r

theorem Laid.selector_new {L' : Layouter F} {post : List (Op F)} {g : Grid F} (hl : x.Laid L' post g)
    {s : ℕ} {s' : ℕ → ℕ} (h : L'.ops = x.before.ops ++ ops lw s s') (c : ℕ) (hc : x.Sel c) (r : ℕ)
    (hr : r < g.n) : g.selector c r = finalSelector (ops lw s s') c r := by
  rw [hl.selector c hc r hr, h]
  exact finalSelector_between (fun r ho => hl.quietSel c r (by simp [ho]) hc)
    (fun r ho => hl.quietSel c r (by simp [ho]) hc) r

/-- A laid-out grid has its enabled rows in one place. -/
theorem Laid.enabled (hx : x.Legal) {L' : Layouter F} {post : List (Op F)} {g : Grid F}
    (hl : x.Laid L' post g) {s : ℕ} {s' : ℕ → ℕ} (h : L'.ops = x.before.ops ++ ops lw s s') :
    x.EnabledAfter g s := by
  refine ⟨?_, fun r hr => ?_⟩
  · have hm : Op.selector x.cs.numSelectors (s + x.calcs) ∈ ops lw s s' := by
      rw [← finalSelector_iff]
      exact (load_selector _ _ _ _ _ _ _ _ _ _ _ _ _ s s' _).mpr (Or.inr rfl)
    have := hl.fits _ (by rw [newOps_eq lw h]; exact hm)
    simp only [Op.bottom] at this
    omega
  · rw [hl.fixed_new lw h _ (Or.inl rfl) r hr (fun e => absurd e (by have := hx.enable; omega))]
    exact load_qEnable _ _ _ _ _ _ _ _ _ _ _ _ _ hx.enable s s' r

/-- `L'` holds what `load` writes, with the table from row `s` on and the permutations anywhere. -/
structure Placed (L' : Layouter F) (s : ℕ) (s' : ℕ → ℕ) : Prop where
  apart : RowsApart lw.height x.calcs s'
  ops_eq : L'.ops = x.before.ops ++ ops lw s s'

/-- In every satisfying grid of any placement, the table columns obey the row constraints. -/
theorem Placed.rows {lw : x.ch.Lawful π} (hx : x.Legal) {L' : Layouter F} {s : ℕ} {s' : ℕ → ℕ}
    (hp : Placed lw L' s s') {post : List (Op F)} {g : Grid F} (hl : x.Laid L' post g)
    (hs : x.Satisfies L' g) :
    x.EnabledAfter g s ∧
      Rows x.legacy x.STEP π (view x.cs.numAdvice x.hashTable g) (specFlag x.legacy x.step) s x.calcs := by
  have ho := hp.ops_eq
  refine ⟨hl.enabled lw hx ho, ?_⟩
  have hnew := newOps_eq lw ho
  have hfits := hl.fits
  have hcp := hs.copies
  rw [hnew] at hfits hcp
  have hg := hs.gates
  rw [newGates_eq lw] at hg
  have hlk := hs.lookups
  rw [newLookups_eq lw] at hlk
  refine (rows_of_grid x.legacy x.STEP π lw x.cs.numAdvice x.cs.numFixed x.cs.numSelectors x.qEnable
    x.hashTable x.step (rowAt x.table) x.calcs x.mode s s' g hp.apart hl.usable_le hx.enable hfits ?_ ?_ hcp
    (fun p hp => hg p (List.mem_append_left _ hp)) (hlk _ (by simp))
    (fun p hp => hg p (List.mem_append_right _ hp))).2
  · intro c hc r hr hu
    exact hl.fixed_new lw ho c ((fixedCol_iff lw c).mpr hc) r hr hu
  · intro c h1 h2 r hr
    exact hl.selector_new lw ho c ((sel_iff lw c).mpr ⟨h1, h2⟩) r hr

/-- Success of `load` under another floor planner, and what it writes. -/
theorem loadPlanned_iff (plan : ℕ → ℕ) (hn : x.native = fun s => .ok (π s)) (hm : x.mode = .serial) :
    ((∃ L', x.loadPlanned plan = .ok L') ↔ Capacity x.table x.calcs .serial ∧
      AllChecks x.legacy x.STEP π (rowData x.table x.calcs)) ∧
    (∀ e, x.loadPlanned plan = .error e →
      (e = .calcsTooSmall ∧ ¬ Capacity x.table x.calcs .serial ∨
        e = .checkMismatch ∧ Capacity x.table x.calcs .serial)) ∧
    ∀ L', x.loadPlanned plan = .ok L' →
      L'.ops = x.before.ops ++ ops lw (plan 0) fun i => plan (i + 1) := by
  have hload : x.loadPlanned plan = Circuit.loadPlanned x.legacy x.STEP (fun s => .ok (π s)) x.ch
      (conf lw x.cs.numAdvice x.cs.numFixed x.cs.numSelectors x.qEnable x.hashTable x.step) x.table
      x.calcs plan x.before := by
    unfold loadPlanned
    rw [configured_eq lw, hn]
  rw [hload]
  by_cases hc : Capacity x.table x.calcs .serial ∧ AllChecks x.legacy x.STEP π (rowData x.table x.calcs)
  · obtain ⟨L', e, o⟩ := loadPlanned_ok x.legacy x.STEP lw x.cs.numAdvice x.cs.numFixed
      x.cs.numSelectors x.qEnable x.hashTable x.step x.table x.calcs plan x.before hc.1 hc.2
    refine ⟨⟨fun _ => hc, fun _ => ⟨L', e⟩⟩, fun p hp => ?_, fun L₁ h₁ => ?_⟩
    · rw [e] at hp; cases hp
    · rw [e] at h₁
      cases h₁
      rw [o, ops, hm]
      rfl
  · obtain ⟨e, h1, h2⟩ := loadPlanned_error x.legacy x.STEP lw x.cs.numAdvice x.cs.numFixed
      x.cs.numSelectors x.qEnable x.hashTable x.step x.table x.calcs plan x.before (by tauto)
    refine ⟨⟨fun ⟨L', h⟩ => ?_, fun h => absurd h hc⟩, fun p hp => ?_, fun L₁ h₁ => ?_⟩
    · rw [h1] at h; cases h
    · rw [h1] at hp; cases hp; exact h2
    · rw [h1] at h₁; cases h₁

/-- Wherever the floor planner puts the regions, `load` writes the same. -/
theorem Loads.placed (lw : x.ch.Lawful π) (hx : x.Legal) (hn : x.native = fun s => .ok (π s))
    {L' : Layouter F} (h : x.Loads L') :
    ∃ s s', Placed lw L' s s' ∧ (x.load = .ok L' → x.Fresh → s = 0) := by
  rcases h with h | ⟨plan, ⟨hm, hp⟩, h⟩
  · obtain ⟨s, s', ho, hf, st⟩ := (load_iff lw hx hn).2.2 L' h
    exact ⟨s, s', ⟨st.apart, ho⟩, fun _ h => (hf h).1⟩
  · by_cases hl : x.load = .ok L'
    · obtain ⟨s, s', ho, hf, st⟩ := (load_iff lw hx hn).2.2 L' hl
      exact ⟨s, s', ⟨st.apart, ho⟩, fun _ h => (hf h).1⟩
    · have hcfg : x.configured.1.permuteConfig =
          lw.cfg (x.cs.numAdvice + 8) (x.cs.numFixed + 1) (x.cs.numSelectors + 1) := by
        rw [configured_eq lw]
        rfl
      rw [hcfg, permuteRows_eq] at hp
      exact ⟨plan 0, _, ⟨hp, (loadPlanned_iff lw plan hn hm).2.2 L' h⟩, fun h => absurd h hl⟩

/-- In every satisfying grid, the table columns obey the row constraints. -/
theorem rows (lw : x.ch.Lawful π) (hx : x.Legal) (hn : x.native = fun s => .ok (π s)) {L' : Layouter F}
    (hload : x.Loads L') {post : List (Op F)} {g : Grid F} (hl : x.Laid L' post g)
    (hs : x.Satisfies L' g) :
    ∃ s, x.EnabledAfter g s ∧ (x.load = .ok L' → x.Fresh → s = 0) ∧
      Rows x.legacy x.STEP π (view x.cs.numAdvice x.hashTable g) (specFlag x.legacy x.step) s x.calcs := by
  obtain ⟨s, s', hp, hf⟩ := hload.placed lw hx hn
  have := Placed.rows hx hp hl hs
  exact ⟨s, this.1, hf, this.2⟩

end
end Run
end Circuit
