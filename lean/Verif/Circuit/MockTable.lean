import Verif.Circuit.MockChip
import Verif.Circuit.TableAccept

/-!
# The hash table under the mock prover
-/

set_option linter.unusedVariables false
set_option linter.unusedSectionVars false
set_option linter.unusedSimpArgs false

open Halo2 Base.Bn256

namespace Circuit

/-- `bnChip_lawful` together with the facts about the mock prover. -/
theorem bnChip_mock (k : ChipKind) :
    ∃ ch, bnChip k = .ok ch ∧ ∃ lw : ch.Lawful specPerm, lw.Mock := by
  obtain ⟨rc, h1, h2, h3, h4⟩ := Septidon.bn_table
  have hmi : Base.mdsInv mds = .ok (fun i j => ((Matrix.of mds)⁻¹) i j) := by
    rw [Base.mdsInv_eq, if_neg det_ne_zero]
  have hinv : Matrix.of mds * Matrix.of (fun i j => ((Matrix.of mds)⁻¹) i j) = 1 :=
    Matrix.mul_nonsing_inv _ (by rw [isUnit_iff_ne_zero]; exact det_ne_zero)
  have p2 : Pow5.perm (Props.pow5Bn rc fun i j => ((Matrix.of mds)⁻¹) i j) = specPerm := by
    rw [← h4]
    unfold Pow5.perm Septidon.perm
    have : (Props.pow5Bn rc fun i j => ((Matrix.of mds)⁻¹) i j).rc = Septidon.table rc := rfl
    rw [this]
    have e2 : (Props.pow5Bn rc fun i j => ((Matrix.of mds)⁻¹) i j).mReg = mds := rfl
    have e3 : (Props.pow5Bn rc fun i j => ((Matrix.of mds)⁻¹) i j).fullRounds / 2 = 4 := by
      show (8 : ℕ) / 2 = 4
      norm_num
    have e4 : (Props.pow5Bn rc fun i j => ((Matrix.of mds)⁻¹) i j).partialRounds = 57 := rfl
    rw [e2, e3, e4]
  have sep : ∀ π, Septidon.perm mds (Septidon.table rc) = π →
      ∃ lw : (Septidon.chip mds (Septidon.table rc)).Lawful π, lw.Mock := by
    rintro _ rfl
    exact ⟨Septidon.lawful mds (Septidon.table rc) h3, Septidon.lawful_mock mds (Septidon.table rc) h3⟩
  have pow : ∀ (tbl : List (Base.State Fr 3)) π,
      Pow5.perm (Props.pow5Bn tbl fun i j => ((Matrix.of mds)⁻¹) i j) = π →
      ∃ lw : (Pow5.chip (Props.pow5Bn tbl fun i j => ((Matrix.of mds)⁻¹) i j)).Lawful π, lw.Mock := by
    rintro tbl _ rfl
    exact ⟨Pow5.lawful (Props.pow5Bn tbl fun i j => ((Matrix.of mds)⁻¹) i j) hinv,
      Pow5.lawful_mock (Props.pow5Bn tbl fun i j => ((Matrix.of mds)⁻¹) i j) hinv⟩
  cases k with
  | septidon =>
    refine ⟨Septidon.chip mds (Septidon.table rc), ?_, sep _ h4⟩
    simp only [bnChip, h1]
    rfl
  | pow5 c =>
    cases c with
    | false =>
      refine ⟨Pow5.chip (Props.pow5Bn roundConstants fun i j => ((Matrix.of mds)⁻¹) i j), ?_, pow _ _ rfl⟩
      simp only [bnChip, hmi]
    | true =>
      refine ⟨Pow5.chip (Props.pow5Bn rc fun i j => ((Matrix.of mds)⁻¹) i j), ?_, pow _ _ p2⟩
      simp only [bnChip, h1, hmi]

theorem Run.IsBn.mock {x : Run Fr} {k : ChipKind} {short : Bool} (h : x.IsBn k short) :
    ∃ lw : x.ch.Lawful specPerm, lw.Mock := by
  obtain ⟨ch, h1, lw⟩ := bnChip_mock k
  have := h.1.symm.trans h1
  injection this with this
  obtain ⟨ch', native, legacy, STEP, step, cs, q, ht, t, calcs, mode, L⟩ := x
  simp only at this
  subst this
  exact lw

namespace Table
open Expr
variable {F : Type} [Field F] [DecidableEq F]
variable (legacy : Bool) (a f σ q : ℕ) (ht : Fin 6 → ℕ) (step : ℕ) (g : Grid F)

/-- Poison cannot pass the enabling column. -/
theorem polys_clean_off (r : ℕ) (hr : r < g.n) (h : g.fixed q r = 0) :
    ∀ e ∈ tablePolys (F := F) legacy a f σ q ht step, e.Clean g r := by
  have hq : (Expr.fixed q 0 : Expr F).Clean g r := clean_fixed g r q 0
  have h0 : (Expr.fixed q 0 : Expr F).eval g r = 0 := by rw [eval_fixed, g.rot_zero hr, h]
  have h1 : ∀ e : Expr F, (Expr.fixed q 0 * e).Clean g r := fun e => Clean.mul_zero e hq h0
  have h2 : ∀ e e' : Expr F, (Expr.fixed q 0 * e * e').Clean g r := fun e e' =>
    Clean.mul_zero e' (h1 e) (by rw [eval_mul, h0, zero_mul])
  simp only [tablePolys, controlConstrainGate, controlStepGate, hashIndexGate, inputConstrainGate,
    tcols, List.forall_mem_append, List.forall_mem_cons, List.not_mem_nil, false_imp_iff,
    implies_true, and_true, h1, h2]

theorem polys_clean_on (r : ℕ) (hu : g.usable ≤ g.n) (h0 : 0 < r) (hr : r < g.usable) :
    ∀ e ∈ tablePolys (F := F) legacy a f σ q ht step, e.Clean g r := by
  have h1 : g.rot r 0 < g.usable := by rw [g.rot_zero (by omega)]; exact hr
  have h2 : g.rot r (-1) < g.usable := by
    rw [g.rot_of_lt (r - 1) (by omega) (by omega)]; omega
  have key : ∀ e ∈ tablePolys (F := F) legacy a f σ q ht step, ∀ k ∈ e.queries, k.2 = 0 ∨ k.2 = -1 := by
    simp only [tablePolys, controlConstrainGate, controlStepGate, hashIndexGate, inputConstrainGate,
      tcols, List.forall_mem_append, List.forall_mem_cons, List.not_mem_nil, false_imp_iff,
      implies_true, and_true, queries_mul, queries_fixed, queries_sub, queries_add, queries_advice,
      queries_const, true_or, or_true]
  intro e he
  refine clean_of_queries e fun k hk i _ => ?_
  rcases key e he k hk with h | h <;> rw [h] <;> assumption

theorem tableGates_unpoisoned (s N : ℕ) (hu : g.usable ≤ g.n) (hN : s + N < g.usable)
    (hq : ∀ r < g.n, g.fixed q r = if s < r ∧ r ≤ s + N then 1 else 0)
    (hσ : ∀ r < g.n, g.selector σ r = true ↔ r = s ∨ r = s + N) :
    ∀ p ∈ tableGates legacy a f σ q ht step, p.Unpoisoned g := by
  have hp : ∀ e ∈ tablePolys (F := F) legacy a f σ q ht step, ∀ r < g.n,
      e.Clean g r ∧ (g.usable ≤ r → e.eval g r = 0) := by
    intro e he r hr
    by_cases hen : s < r ∧ r ≤ s + N
    · exact ⟨polys_clean_on legacy a f σ q ht step g r hu (by omega) (by omega) e he, fun h => by omega⟩
    · have h0 : g.fixed q r = 0 := by rw [hq r hr, if_neg hen]
      exact ⟨polys_clean_off legacy a f σ q ht step g r hr h0 e he,
        fun _ => polys_off legacy a f σ q ht step g r hr h0 e he⟩
  have hc : (⟨"custom row", customRowGate (tcols a f σ q ht)⟩ : Gate F).Unpoisoned g := by
    refine Gate.unpoisoned_of_assigned (s := σ) hu ?_ fun r hr hs => ?_
    · simp only [customRowGate, tcols, List.forall_mem_cons, List.not_mem_nil, false_imp_iff, implies_true,
        and_true]
      exact ⟨⟨_, rfl⟩, ⟨_, rfl⟩, ⟨_, rfl⟩⟩
    · have hr' : r < g.usable := by rcases (hσ r hr).mp hs with h | h <;> omega
      refine ⟨hr', fun e he k hk => ⟨r, ?_, hr'⟩⟩
      have : k.2 = 0 := by
        revert k e
        simp [customRowGate, tcols]
      omega
  simp only [tablePolys, List.forall_mem_append] at hp
  simp only [tableGates, List.forall_mem_cons, List.not_mem_nil, false_imp_iff, implies_true, and_true]
  exact ⟨hc, hp.1, hp.2.1, hp.2.2.1, hp.2.2.2⟩

/-- The lookup input is poisoned at most on row 0, where it queries the last row; and there only if the
block mark is not zero. -/
theorem controlRange_clean (r : ℕ) (hu : g.usable ≤ g.n) (hr : r < g.usable)
    (h : r = 0 → g.usable < g.n → g.advice (ht 5) 0 = 0) :
    (controlRangeInput (F := F) (tcols a f σ q ht)).Clean g r := by
  have h1 : (Expr.advice (ht 5) 0 : Expr F).Clean g r :=
    clean_advice g r (by rw [g.rot_zero (by omega)]; exact hr)
  by_cases h0 : r = 0 ∧ g.usable < g.n
  · refine Clean.mul_zero _ h1 ?_
    obtain ⟨rfl, h0⟩ := h0
    change g.advice (ht 5) (g.rot 0 0) = 0
    rw [g.rot_zero (by omega)]
    exact h rfl h0
  · refine Clean.mul h1 (clean_advice g r ?_)
    by_cases hr0 : r = 0
    · have : g.rot r (-1) < g.n := g.rot_lt _ _ (by omega)
      omega
    · rw [g.rot_of_lt (r - 1) (by omega) (by omega)]; omega

end Table

namespace Run
open Table
variable {F : Type} [Field F] [DecidableEq F] (x : Run F)

/-- The mock prover finds no fault with the gates on the first `rows` rows, the lookups and the copy
constraints of the hash table. -/
structure MockAccepts (L' : Layouter F) (g : Grid F) (rows : ℕ) : Prop where
  gates : ∀ p ∈ x.newGates, p.Mock g rows
  lookups : ∀ l ∈ x.newLookups, l.Mock g
  copies : CopiesHold g (x.newOps L')

variable {x} {π : (Fin 3 → F) → Fin 3 → F}

/-- No gate of the hash table is ever poisoned. -/
theorem unpoisoned (lw : x.ch.Lawful π) (hm : lw.Mock) (hx : x.Legal) (hn : x.native = fun s => .ok (π s))
    {L' : Layouter F} (hload : x.Loads L') {post : List (Op F)} {g : Grid F} (hl : x.Laid L' post g) :
    ∀ p ∈ x.newGates, p.Unpoisoned g := by
  obtain ⟨s, s', hp, -⟩ := hload.placed lw hx hn
  have ho := hp.ops_eq
  have hen := hl.enabled lw hx ho
  have hun := hl.usable_le
  have hfits := hl.fits
  rw [newOps_eq lw ho] at hfits
  have hfixed := fun c hc r hr hu => hl.fixed_new lw ho c ((fixedCol_iff lw c).mpr hc) r hr hu
  have hselector := fun c h1 h2 r hr => hl.selector_new lw ho c ((sel_iff lw c).mpr ⟨h1, h2⟩) r hr
  have hσ : ∀ r < g.n, g.selector x.cs.numSelectors r = true ↔ r = s ∨ r = s + x.calcs := by
    intro r hr
    rw [hselector x.cs.numSelectors le_rfl (by omega) r hr]
    exact load_selector _ _ _ _ _ _ _ _ _ _ _ _ _ s s' r
  rw [newGates_eq lw]
  intro p hp'
  rcases List.mem_append.mp hp' with h | h
  · exact tableGates_unpoisoned _ _ _ _ _ _ _ g s x.calcs hun hen.1 hen.2 hσ p h
  · refine hm.unpoisoned (x.cs.numAdvice + 8) (x.cs.numFixed + 1) (x.cs.numSelectors + 1)
      (inWords x.legacy x.STEP π lw x.cs.numAdvice x.cs.numFixed x.cs.numSelectors x.qEnable x.hashTable
        x.step (rowAt x.table) x.calcs s) s' g
      (by rw [length_inWords]; exact hp.apart) hun
      (fun o hm => hfits o ((mem_loadOps x.legacy x.STEP π lw _ _ _ _ _ _ _ _ _ s s' o).mpr
        (Or.inr (Or.inr (Or.inr (Or.inl hm))))))
      (fun c h1 h2 r hr => ?_) (fun c h1 h2 r hr => ?_) p h
    · rw [hfixed c (Or.inr ⟨by omega, by omega⟩) r hr (fun e => absurd e (by omega))]
      exact load_chipFixed _ _ _ _ _ _ _ _ _ _ _ _ _ hx.enable s s' c r h1
    · rw [hselector c (by omega) (by omega) r hr]
      exact load_chipSelector _ _ _ _ _ _ _ _ _ _ _ _ _ s s' c r h1

/-- Whatever the mock prover accepts satisfies the circuit; the converse needs the block mark of row 0. -/
theorem mock_iff (lw : x.ch.Lawful π) (hm : lw.Mock) (hx : x.Legal) (hn : x.native = fun s => .ok (π s))
    {L' : Layouter F} (hload : x.Loads L') {post : List (Op F)} {g : Grid F} (hl : x.Laid L' post g)
    {rows : ℕ} (h1 : g.usable ≤ rows) (h2 : rows ≤ g.n) :
    (x.MockAccepts L' g rows → x.Satisfies L' g) ∧
    (x.Satisfies L' g → (0 < g.usable → g.usable < g.n → x.col g 5 0 = 0) → x.MockAccepts L' g rows) := by
  have hun := unpoisoned lw hm hx hn hload hl
  refine ⟨fun h => ⟨fun p hp => ((hun p hp).mock_iff h1 h2).mp (h.gates p hp), fun l hl' r hr => ?_, h.copies⟩,
    fun h h0 => ⟨fun p hp => ((hun p hp).mock_iff h1 h2).mpr (h.gates p hp), ?_, h.copies⟩⟩
  · obtain ⟨r', hr', e⟩ := h.lookups l hl' r hr
    exact ⟨r', hr', Expr.eval_of_mock g r _ _ e⟩
  · intro l hl' r hr
    obtain ⟨r', hr', e⟩ := h.lookups l hl' r hr
    refine ⟨r', hr', ?_⟩
    rw [← e]
    rw [newLookups_eq lw] at hl'
    rw [List.mem_singleton.mp hl']
    exact controlRange_clean _ _ _ _ _ g r hl.usable_le hr fun h h' => h0 (by omega) h'

/-- On row 0 the lookup queries the last row of the grid; the mock prover refuses a block mark there if
that row is a blinding row. -/
theorem mock_head {L' : Layouter F} {g : Grid F} {rows : ℕ} (lw : x.ch.Lawful π) (h : x.MockAccepts L' g rows)
    (hn : 0 < g.usable) (hu : g.usable < g.n) : x.col g 5 0 = 0 := by
  by_contra h0
  have hl := h.lookups _ (by rw [newLookups_eq lw]; exact List.mem_singleton.mpr rfl) 0 hn
  obtain ⟨r', -, e⟩ := hl
  have e1 : g.rot 0 0 = 0 := g.rot_zero (by omega)
  have e2 : ¬ g.rot 0 (-1) < g.usable := by
    have h1 : g.rot 0 (-1) = g.n - 1 := by
      have h2 : ((((0 : ℕ) : ℤ) + -1) % (g.n : ℤ)) = (g.n : ℤ) - 1 := by
        rw [← Int.add_emod_right]
        exact Int.emod_eq_of_lt (by omega) (by omega)
      unfold Grid.rot
      rw [h2]
      omega
    omega
  simp only [controlRangeInput, tcols, Expr.mock, e1, if_pos hn, if_neg e2] at e
  rw [if_neg (show ¬ g.advice (x.hashTable 5) 0 = 0 from h0)] at e
  cases e

/-- The honest witness has no block mark on row 0. -/
theorem Honest.head0 (lw : x.ch.Lawful π) (hx : x.Legal) (hn : x.native = fun s => .ok (π s))
    {L' : Layouter F} (hload : x.Loads L') {post : List (Op F)} {g : Grid F} (hh : x.Honest L' post g) :
    x.col g 5 0 = 0 := by
  obtain ⟨s, s', hp, -⟩ := hload.placed lw hx hn
  have ho := hp.ops_eq
  have hen := hh.toLaid.enabled lw hx ho
  obtain ⟨hv, hout⟩ := honestView x.legacy x.STEP π lw x.cs.numAdvice x.cs.numFixed x.cs.numSelectors
    x.qEnable x.hashTable x.step (rowAt x.table) x.calcs x.mode hx.cols hx.inj s s' g hen.1 (by
      intro c hc r hr hne
      rw [hh.advice c ((adviceCol_iff lw c).mpr hc) r hr, ho]
      exact finalAdvice_between (fun r v ho => hh.quietAdvice c r v (by simp [ho]) ((adviceCol_iff lw c).mpr hc))
        (fun r v ho => hh.quietAdvice c r v (by simp [ho]) ((adviceCol_iff lw c).mpr hc)) r)
  rcases Nat.eq_zero_or_pos s with rfl | h
  · exact hv.head0
  · exact hout 0 (by have := hen.1; omega) (Or.inl h)

/-! ## Regions -/

theorem within_sels {A B S : ℕ → Prop} : ∀ {e : Expr F}, e.Within A B S → ∀ k ∈ e.sels, S k
  | .const _, _, k, hk => by cases hk
  | .selector i, h, k, hk => by rw [List.mem_singleton.mp hk]; exact h
  | .fixed _ _, _, k, hk => by cases hk
  | .advice _ _, _, k, hk => by cases hk
  | .neg e, h, k, hk => within_sels (e := e) h k hk
  | .add a b, h, k, hk => (List.mem_append.mp hk).elim (within_sels (e := a) h.1 k) (within_sels (e := b) h.2 k)
  | .mul a b, h, k, hk => (List.mem_append.mp hk).elim (within_sels (e := a) h.1 k) (within_sels (e := b) h.2 k)
  | .scaled a _, h, k, hk => within_sels (e := a) h k hk

/-- The gates of the table query one selector. -/
theorem tableGates_sels (legacy : Bool) (a f σ q : ℕ) (ht : Fin 6 → ℕ) (step : ℕ) :
    ∀ p ∈ tableGates (F := F) legacy a f σ q ht step, ∀ e ∈ p.polys, ∀ k ∈ e.sels, k = σ ∧
      ∀ e' ∈ p.polys, ∀ y ∈ e'.queries, y.2 = 0 ∧ ∃ i, (i = 1 ∨ i = 2 ∨ i = 3) ∧ y.1 = .advice (ht i) := by
  have h1 : ∀ e ∈ customRowGate (F := F) (tcols a f σ q ht), (∀ k ∈ e.sels, k = σ) ∧
      ∀ y ∈ e.queries, y.2 = 0 ∧ ∃ i, (i = 1 ∨ i = 2 ∨ i = 3) ∧ y.1 = .advice (ht i) := by
    simp only [customRowGate, tcols, List.forall_mem_cons, List.not_mem_nil, false_imp_iff, implies_true,
      and_true, Expr.sels_mul, Expr.sels_selector, Expr.sels_advice, Expr.queries_mul, Expr.queries_selector,
      Expr.queries_advice, List.append_nil, List.nil_append]
    exact ⟨⟨trivial, trivial, 1, by simp, rfl⟩, ⟨trivial, trivial, 2, by simp, rfl⟩, trivial, trivial, 3, by simp, rfl⟩
  have h2 : ∀ e ∈ tablePolys (F := F) legacy a f σ q ht step, e.sels = [] := by
    simp only [tablePolys, controlConstrainGate, controlStepGate, hashIndexGate, inputConstrainGate,
      tcols, List.forall_mem_append, List.forall_mem_cons, List.not_mem_nil, false_imp_iff,
      implies_true, and_true, Expr.sels_mul, Expr.sels_fixed, Expr.sels_sub, Expr.sels_add, Expr.sels_advice,
      Expr.sels_const, List.append_nil]
  simp only [tablePolys, List.forall_mem_append] at h2
  intro p hp e he k hk
  simp only [tableGates, List.mem_cons, List.not_mem_nil, or_false] at hp
  rcases hp with rfl | rfl | rfl | rfl | rfl
  · exact ⟨(h1 e he).1 k hk, fun e' he' => (h1 e' he').2⟩
  · rw [h2.1 e he] at hk; cases hk
  · rw [h2.2.1 e he] at hk; cases hk
  · rw [h2.2.2.1 e he] at hk; cases hk
  · rw [h2.2.2.2 e he] at hk; cases hk

/-- A region that enables only the selector for empty rows, and assigns the three cells there. -/
def CustomRegion (σ : ℕ) (ht : Fin 6 → ℕ) (R : List (Op F)) : Prop :=
  ∀ k r, Op.selector k r ∈ R → k = σ ∧
    ∀ i : Fin 6, (i = 1 ∨ i = 2 ∨ i = 3) → ∃ v, Op.advice (ht i) r v ∈ R

theorem CustomRegion.assigned (lw : x.ch.Lawful π) {R : List (Op F)}
    (h : CustomRegion x.cs.numSelectors x.hashTable R) : ∀ p ∈ x.newGates, p.CellsAssigned R := by
  rw [newGates_eq lw]
  intro p hp k r hk ⟨e₀, he₀, hs⟩ e he y hy
  obtain ⟨rfl, hR⟩ := h k r hk
  rcases List.mem_append.mp hp with h' | h'
  · obtain ⟨h1, i, hi, h2⟩ := (tableGates_sels _ _ _ _ _ _ _ p h' e₀ he₀ _ hs).2 e he y hy
    obtain ⟨v, hv⟩ := hR i hi
    exact ⟨r, by omega, _, hv, h2, rfl⟩
  · have := within_sels (lw.within _ _ _ p h' e₀ he₀) _ hs
    omega

/-- A region of the chip. -/
theorem chipRegion_assigned (lw : x.ch.Lawful π) (hm : lw.Mock) (w : Words F 3) (p : ℕ → ℕ) :
    ∀ q ∈ x.newGates, q.CellsAssigned
      (lw.ops (x.cs.numAdvice + 8) (x.cs.numFixed + 1) (x.cs.numSelectors + 1) [w] p) := by
  rw [newGates_eq lw]
  intro q hq
  rcases List.mem_append.mp hq with h | h
  · intro k r hk ⟨e₀, he₀, hs⟩
    have := (tableGates_sels _ _ _ _ _ _ _ q h e₀ he₀ _ hs).1
    rcases lw.shape _ _ _ _ _ _ hk with ⟨_, _, _, e, _⟩ | ⟨_, _, _, e, _⟩ | ⟨_, _, e, h1, _⟩ |
      ⟨_, _, _, _, e, _⟩ <;> cases e
    omega
  · exact hm.assigned _ _ _ w p q h

theorem fillOps_words (legacy : Bool) (STEP : ℕ) {P : Type} (cfg : SpongeConfig P) (start : ℕ)
    (rows : List (RowData F)) : ∀ (off : ℕ) (st : FillState F) (j : ℕ), j < rows.length →
      ∀ i : Fin 6, (i = 1 ∨ i = 2 ∨ i = 3) →
      ∃ v, Op.advice (cfg.hashTable i) (start + (off + j)) v ∈ fillOps legacy STEP π cfg start off st rows := by
  induction rows with
  | nil => intro off st j hj; simp at hj
  | cons row rest ih =>
    intro off st j hj i hi
    cases j with
    | zero =>
      have : ∃ v, Op.advice (cfg.hashTable i) (start + off) v ∈ (rowW legacy π cfg start off st row).ops := by
        rw [rowW_ops]
        rcases hi with rfl | rfl | rfl
        · exact ⟨(row.inp.getD (0, 0)).1, by simp only [List.mem_cons, true_or, or_true]⟩
        · exact ⟨(row.inp.getD (0, 0)).2, by simp only [List.mem_cons, true_or, or_true]⟩
        · exact ⟨specFlag legacy (row.control.getD 0), by simp only [List.mem_cons, true_or, or_true]⟩
      obtain ⟨v, hv⟩ := this
      exact ⟨v, List.mem_append_left _ ((mem_rowOps _ _ _ _ _ _ _ _ _).mpr (Or.inl hv))⟩
    | succ j =>
      obtain ⟨v, hv⟩ := ih (off + 1) (stepSt legacy STEP π off st row) j (by simpa using hj) i hi
      refine ⟨v, List.mem_append_right _ ?_⟩
      rw [show off + (j + 1) = off + 1 + j by omega]
      exact hv

theorem fillOps_sels (legacy : Bool) (STEP : ℕ) {P : Type} (cfg : SpongeConfig P) (start : ℕ)
    (rows : List (RowData F)) : ∀ (off : ℕ) (st : FillState F) (k r : ℕ),
      Op.selector k r ∉ fillOps legacy STEP π cfg start off st rows := by
  induction rows with
  | nil => intro off st k r; simp [fillOps]
  | cons row rest ih =>
    intro off st k r h
    rcases List.mem_append.mp h with h | h
    · rcases (mem_rowOps _ _ _ _ _ _ _ _ _).mp h with h | ⟨-, i, -, -, h⟩
      · rw [rowW_ops] at h
        simp only [List.mem_cons, List.not_mem_nil, or_false, reduceCtorEq] at h
      · cases h
    · exact ih _ _ _ _ h

theorem custom_region {P : Type} (cfg : SpongeConfig P) (s : ℕ) :
    CustomRegion cfg.sCustom cfg.hashTable (customOps (F := F) cfg s) := by
  intro k r hk
  rcases (mem_customOps cfg s _).mp hk with h | ⟨c, h, -⟩
  · cases h
    exact ⟨rfl, fun i _ => ⟨0, (mem_customOps cfg s _).mpr (Or.inr ⟨_, rfl, Or.inl ⟨i, rfl⟩⟩)⟩⟩
  · cases h

/-- The region of the table in serial mode. -/
theorem serial_region (legacy : Bool) (STEP : ℕ) {P : Type} (cfg : SpongeConfig P) (s : ℕ)
    (rows : List (RowData F)) : CustomRegion cfg.sCustom cfg.hashTable
      (tableOps legacy STEP π cfg s rows ++ [.selector cfg.sCustom (s + rows.length)]) := by
  intro k r hk
  have hc := custom_region (F := F) cfg s
  rcases List.mem_append.mp hk with h | h
  · rcases List.mem_append.mp h with h | h
    · obtain ⟨h1, h2⟩ := hc k r h
      refine ⟨h1, fun i hi => ?_⟩
      obtain ⟨v, hv⟩ := h2 i hi
      exact ⟨v, List.mem_append_left _ (List.mem_append_left _ hv)⟩
    · exact absurd h (fillOps_sels _ _ _ _ _ _ _ _ _)
  · cases List.mem_singleton.mp h
    refine ⟨rfl, fun i hi => ?_⟩
    cases hl : rows.length with
    | zero =>
      obtain ⟨v, hv⟩ := (hc cfg.sCustom s ((mem_customOps cfg s _).mpr (Or.inl rfl))).2 i hi
      exact ⟨v, List.mem_append_left _ (List.mem_append_left _ hv)⟩
    | succ n =>
      obtain ⟨v, hv⟩ := fillOps_words (π := π) legacy STEP cfg s rows 1 st0 n (by omega) i hi
      rw [Nat.add_comm 1 n] at hv
      exact ⟨v, List.mem_append_left _ (List.mem_append_right _ hv)⟩

/-- The region of a chunk in parallel mode. -/
theorem partial_region (legacy : Bool) (STEP : ℕ) {P : Type} (cfg : SpongeConfig P) (data : List (RowData F))
    (hne : data ≠ []) (isLast : Bool) (s : ℕ) (w : W F (List (WordPair F)))
    (h : fillPartial legacy STEP (fun s => .ok (π s)) cfg data isLast s = .ok w) :
    CustomRegion cfg.sCustom cfg.hashTable w.ops := by
  have hw : w.ops = fillOps legacy STEP π cfg s 0 st0 data ++
      if isLast then [.selector cfg.sCustom (s + (data.length - 1))] else [] := by
    unfold fillPartial at h
    rw [fillRowsPartial_eq] at h
    by_cases hc : ChecksOK legacy STEP π 0 (⟨true, 0, fun _ => 0⟩ : FillState F) data
    · rw [fillRows_ok _ _ _ _ _ _ _ _ hc] at h
      simp only [bind, Except.bind, pure, Except.pure] at h
      injection h with h
      rw [← h]
      cases isLast <;> simp [enableSelector, bind, pure, st0]
    · rw [fillRows_error _ _ _ _ _ _ _ _ hc] at h
      simp only [bind, Except.bind] at h
      cases h
  rw [hw]
  intro k r hk
  rcases List.mem_append.mp hk with h | h
  · exact absurd h (fillOps_sels _ _ _ _ _ _ _ _ _)
  · cases isLast with
    | false => cases h
    | true =>
      cases List.mem_singleton.mp h
      refine ⟨rfl, fun i hi => ?_⟩
      have := List.length_pos_of_ne_nil hne
      obtain ⟨v, hv⟩ := fillOps_words (π := π) legacy STEP cfg s data 0 st0 (data.length - 1) (by omega) i hi
      rw [Nat.zero_add] at hv
      exact ⟨v, List.mem_append_left _ hv⟩

/-! ## The regions of `load` -/

theorem assignSerial_assigned (lw : x.ch.Lawful π) (hn : x.native = fun s => .ok (π s))
    {L L' : Layouter F} {ws : List (WordPair F)}
    (h : assignSerial x.legacy x.STEP x.native x.configured.1 x.table x.calcs L = .ok (ws, L')) :
    ∃ R, L'.ops = L.ops ++ R ∧ ∀ p ∈ x.newGates, p.CellsAssigned R := by
  rw [hn, configured_eq lw] at h
  by_cases hc : ¬ (x.table.inputs.length ≤ x.calcs ∧ x.table.controls.length ≤ x.calcs) ∨
      ¬ AllChecks x.legacy x.STEP π (rowData x.table x.calcs)
  · obtain ⟨e, he, -⟩ := serial_error x.legacy x.STEP π
      (conf lw x.cs.numAdvice x.cs.numFixed x.cs.numSelectors x.qEnable x.hashTable x.step) x.table x.calcs L hc
    rw [he] at h
    cases h
  · push Not at hc
    obtain ⟨s, L'', he, ho, -⟩ := serial_ok x.legacy x.STEP π
      (conf lw x.cs.numAdvice x.cs.numFixed x.cs.numSelectors x.qEnable x.hashTable x.step) x.table x.calcs L
      hc.1 hc.2
    rw [he] at h
    cases h
    refine ⟨_, ho, CustomRegion.assigned lw ?_⟩
    have := serial_region (π := π) x.legacy x.STEP
      (conf lw x.cs.numAdvice x.cs.numFixed x.cs.numSelectors x.qEnable x.hashTable x.step) s
      (rowData x.table x.calcs)
    rw [show (rowData x.table x.calcs).length = x.calcs by simp [rowData_eq]] at this
    exact this

theorem fillCustom_assigned (lw : x.ch.Lawful π) (start : ℕ) :
    ∀ p ∈ x.newGates, p.CellsAssigned (fillCustom (F := F) x.configured.1 start).ops := by
  rw [configured_eq lw]
  exact CustomRegion.assigned lw (custom_region
    (conf lw x.cs.numAdvice x.cs.numFixed x.cs.numSelectors x.qEnable x.hashTable x.step) start)

theorem fillPartial_assigned (lw : x.ch.Lawful π) (hn : x.native = fun s => .ok (π s)) (minLen : ℕ)
    {data : List (RowData F)} (hd : data ∈ chunks x.STEP (rowData x.table x.calcs) minLen) (isLast : Bool)
    (start : ℕ) {w : W F (List (WordPair F))}
    (h : fillPartial x.legacy x.STEP x.native x.configured.1 data isLast start = .ok w) :
    ∀ p ∈ x.newGates, p.CellsAssigned w.ops := by
  rw [hn, configured_eq lw] at h
  rw [chunks_eq] at hd
  exact CustomRegion.assigned lw (partial_region (π := π) x.legacy x.STEP
    (conf lw x.cs.numAdvice x.cs.numFixed x.cs.numSelectors x.qEnable x.hashTable x.step) data
    (chunksFrom_ne _ _ _ _ data hd) isLast start w h)

theorem permute_assigned (lw : x.ch.Lawful π) (hm : lw.Mock) {L L' : Layouter F} {w o : Words F 3}
    (h : x.ch.permute x.configured.1.permuteConfig L w = .ok (o, L')) :
    ∃ R, L'.ops = L.ops ++ R ∧ ∀ p ∈ x.newGates, p.CellsAssigned R := by
  rw [configured_eq lw] at h
  obtain ⟨s, L'', he, ho, -⟩ := lw.serial (x.cs.numAdvice + 8) (x.cs.numFixed + 1) (x.cs.numSelectors + 1) L [w]
  simp only [conf] at h
  simp only [mapPermute, h, bind, Except.bind, pure, Except.pure] at he
  injection he with he
  have e2 : L' = L'' := congrArg Prod.snd he
  rw [e2]
  exact ⟨_, ho, chipRegion_assigned lw hm w _⟩

theorem ops_split (lw : x.ch.Lawful π) (hm : lw.Mock) (ws : List (Words F 3)) : ∀ p : ℕ → ℕ,
    ∃ Rs : List (List (Op F)), Rs.length = ws.length ∧
      lw.ops (x.cs.numAdvice + 8) (x.cs.numFixed + 1) (x.cs.numSelectors + 1) ws p = Rs.flatten ∧
      ∀ R ∈ Rs, ∀ q ∈ x.newGates, q.CellsAssigned R := by
  induction ws with
  | nil => intro p; exact ⟨[], rfl, lw.ops_nil _ _ _ _, by simp⟩
  | cons w ws ih =>
    intro p
    obtain ⟨Rs, h1, h2, h3⟩ := ih fun i => p (i + 1)
    refine ⟨lw.ops (x.cs.numAdvice + 8) (x.cs.numFixed + 1) (x.cs.numSelectors + 1) [w] (fun _ => p 0) :: Rs, by simp [h1], ?_, ?_⟩
    · rw [lw.ops_cons, h2, List.flatten_cons]
    · intro R hR
      rcases List.mem_cons.mp hR with rfl | hR
      · exact chipRegion_assigned lw hm w _
      · exact h3 R hR

theorem permuteBatch_assigned (lw : x.ch.Lawful π) (hm : lw.Mock) {threads : ℕ} {L L' : Layouter F}
    {ws os : List (Words F 3)}
    (h : x.ch.permuteBatch x.configured.1.permuteConfig threads L ws = .ok (os, L')) :
    ∃ Rs : List (List (Op F)), Rs.length = ws.length ∧ L'.ops = L.ops ++ Rs.flatten ∧
      ∀ R ∈ Rs, ∀ p ∈ x.newGates, p.CellsAssigned R := by
  rw [configured_eq lw] at h
  obtain ⟨s, L'', he, ho, -⟩ := lw.batch (x.cs.numAdvice + 8) (x.cs.numFixed + 1) (x.cs.numSelectors + 1) L
    threads ws
  simp only [conf] at h
  rw [he] at h
  cases h
  obtain ⟨Rs, h1, h2, h3⟩ := ops_split lw hm ws (stack lw.height s)
  exact ⟨Rs, h1, by rw [ho, h2], h3⟩

end Run
end Circuit
