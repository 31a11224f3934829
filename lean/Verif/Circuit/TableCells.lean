import Verif.Circuit.TableExact
import Verif.Circuit.ChipExact

/-!
# The hash table, cell by cell

Which advice cells of the hash table and of its permutation chip the constraints determine, and that
nothing else is constrained.
-/

set_option linter.unusedVariables false
set_option linter.unusedSectionVars false
set_option linter.unusedSimpArgs false

open Halo2

namespace Circuit.Run

open Table

variable {F : Type} [Field F] [DecidableEq F] {x : Run F} {π : (Fin 3 → F) → Fin 3 → F}

/-- The input words of the permutations. -/
abbrev ins (lw : x.ch.Lawful π) (s : ℕ) : List (Words F 3) :=
  inWords x.legacy x.STEP π lw x.cs.numAdvice x.cs.numFixed x.cs.numSelectors x.qEnable
    x.hashTable x.step (rowAt x.table) x.calcs s

theorem ins_length (lw : x.ch.Lawful π) (s : ℕ) : (ins lw s).length = x.calcs :=
  length_inWords _ _ _ _ _ _ _ _ _ _ _ _ _

/-- The operations of the chip within a run. -/
abbrev chipOps (lw : x.ch.Lawful π) (s : ℕ) (s' : ℕ → ℕ) : List (Op F) :=
  lw.ops (x.cs.numAdvice + 8) (x.cs.numFixed + 1) (x.cs.numSelectors + 1) (ins lw s) s'

section
variable {lw : x.ch.Lawful π} {L' : Layouter F} {s : ℕ} {s' : ℕ → ℕ}

theorem Placed.mem_chip (hp : Placed lw L' s s') {o : Op F} (ho : o ∈ chipOps lw s s') : o ∈ x.newOps L' := by
  rw [newOps_eq lw hp.ops_eq]
  exact (mem_loadOps x.legacy x.STEP π lw x.cs.numAdvice x.cs.numFixed x.cs.numSelectors x.qEnable
    x.hashTable x.step (rowAt x.table) x.calcs _ s s' _).mpr (Or.inr (Or.inr (Or.inr (Or.inl ho))))

/-- Cells of the chip columns are written by the chip only. -/
theorem Placed.chip_mem (hp : Placed lw L' s s') (hx : x.Legal) {o : Op F} (ho : o ∈ x.newOps L')
    (hc : (∃ c r v, o = .advice c r v ∧ x.cs.numAdvice + 8 ≤ c) ∨
      ∃ c r v, o = .fixed c r v ∧ x.cs.numFixed + 1 ≤ c) : o ∈ chipOps lw s s' := by
  rw [newOps_eq lw hp.ops_eq] at ho
  rcases (mem_loadOps x.legacy x.STEP π lw x.cs.numAdvice x.cs.numFixed x.cs.numSelectors x.qEnable
    x.hashTable x.step (rowAt x.table) x.calcs _ s s' _).mp ho with h | h | h | h | h
  · exfalso
    rcases (mem_rangeOps x.legacy x.STEP x.cs.numFixed _).mp h with ⟨i, hi, rfl⟩ | rfl
    · rcases hc with ⟨c, r, v, e, -⟩ | ⟨c, r, v, e, h'⟩ <;> cases e
      omega
    · rcases hc with ⟨c, r, v, e, -⟩ | ⟨c, r, v, e, h'⟩ <;> cases e
  · exfalso
    obtain ⟨c, h1, h2, -⟩ := tableOps_cols x.legacy x.STEP π _ h
    rcases hc with ⟨c', r, v, rfl, h'⟩ | ⟨c', r, v, rfl, h'⟩
    · cases h1
      have := hx.cols
      rcases h2 with ⟨i, e⟩ | ⟨i, e⟩ | e | e
      · have := hx.cols i
        simp only [conf] at e
        omega
      · simp only [conf] at e
        omega
      · simp only [conf] at e
        omega
      · simp only [conf] at e
        omega
    · cases h1
      have := hx.enable
      simp only [TableCol, conf] at h2
      omega
  · have := mem_tailOps x.cs.numSelectors x.calcs s x.mode _ h
    rcases hc with ⟨c, r, v, rfl, -⟩ | ⟨c, r, v, rfl, h'⟩ <;> cases this
  · exact h
  · obtain ⟨q', hq', k, rfl⟩ := (mem_finalOps _ _ _).mp h
    rcases hc with ⟨c, r, v, e, -⟩ | ⟨c, r, v, e, h'⟩ <;> cases e

/-- The advice cells written in the chip columns. -/
theorem Placed.written (hp : Placed lw L' s s') (ex : lw.Exact) (hx : x.Legal) {c r : ℕ} :
    (x.cs.numAdvice + 8 ≤ c ∧ ∃ v, Op.advice c r v ∈ x.newOps L') ↔
      ∃ i < x.calcs, ex.Bound (x.cs.numAdvice + 8) (s' i) c r ∨ ex.Free (x.cs.numAdvice + 8) (s' i) c r := by
  have hw := ex.written (x.cs.numAdvice + 8) (x.cs.numFixed + 1) (x.cs.numSelectors + 1) (ins lw s) s' c r
  rw [ins_length] at hw
  rw [← hw]
  constructor
  · rintro ⟨hc, v, h⟩
    exact ⟨v, hp.chip_mem hx h (Or.inl ⟨c, r, v, rfl, hc⟩)⟩
  · rintro ⟨v, h⟩
    obtain ⟨i, -, h'⟩ := hw.mp ⟨v, h⟩
    exact ⟨(ex.own _ _ _ _ h').1, v, hp.mem_chip h⟩

/-- What the gates of the chip say in a laid-out grid. -/
theorem Placed.chip_iff (hp : Placed lw L' s s') (ex : lw.Exact) (hx : x.Legal) {post : List (Op F)} {g : Grid F}
    (hl : x.Laid L' post g) :
    (∀ q ∈ lw.gates (x.cs.numAdvice + 8) (x.cs.numFixed + 1) (x.cs.numSelectors + 1), q.Holds g) ↔
      ∀ i < x.calcs, ∀ c r, ex.Bound (x.cs.numAdvice + 8) (s' i) c r →
        g.advice c r = ex.value (x.cs.numAdvice + 8) (s' i) c r
          fun k : Fin 3 => g.advice (x.cs.numAdvice + 8 + k) (s' i) := by
  have hfits := hl.fits
  have hun := hl.usable_le
  have := ex.gates_iff (x.cs.numAdvice + 8) (x.cs.numFixed + 1) (x.cs.numSelectors + 1) (ins lw s) s' g
    (by rw [ins_length]; exact hp.apart)
    (fun o ho => by have := hfits o (hp.mem_chip ho); omega)
    (fun c h1 h2 r hr => by
      rw [hl.fixed_new lw hp.ops_eq c ((fixedCol_iff lw c).mpr (Or.inr ⟨by omega, h2⟩)) r hr
        (fun e => absurd e (by omega))]
      exact load_chipFixed _ _ _ _ _ _ _ _ _ _ _ _ _ hx.enable s s' c r h1)
    (fun c h1 h2 r hr => by
      rw [hl.selector_new lw hp.ops_eq c ((sel_iff lw c).mpr ⟨by omega, h2⟩) r hr]
      exact load_chipSelector _ _ _ _ _ _ _ _ _ _ _ _ _ s s' c r h1)
  rw [ins_length] at this
  exact this

/-- The first row of each permutation region is tied to a row of the table. -/
theorem Placed.start_eq (hp : Placed lw L' s s') (ex : lw.Exact) {g : Grid F} (hs : x.Satisfies L' g) (i : ℕ)
    (hi : i < x.calcs) (k : Fin 3) :
    g.advice (x.cs.numAdvice + 8 + k) (s' i) = g.advice (x.cs.numAdvice + k) (s + i + 1) := by
  have hi' : i < (ins lw s).length := by rw [ins_length]; exact hi
  have := hs.copies ⟨.advice (x.cs.numAdvice + 8 + k), s' i⟩ ((ins lw s)[i] k).cell
    (hp.mem_chip ((ex.copies _ _ _ _ _ _ _).mpr ⟨i, hi', k, rfl, rfl⟩))
  rw [inWords_cell] at this
  exact this

/-- Two satisfying grids with the same inputs of the permutations have the same bound cells. -/
theorem Placed.bound_eq (hp : Placed lw L' s s') (ex : lw.Exact) (hx : x.Legal) {post post' : List (Op F)}
    {g g' : Grid F} (hl : x.Laid L' post g) (hs : x.Satisfies L' g) (hl' : x.Laid L' post' g')
    (hs' : x.Satisfies L' g')
    (hin : ∀ i < x.calcs, ∀ k : Fin 3, g.advice (x.cs.numAdvice + k) (s + i + 1) =
      g'.advice (x.cs.numAdvice + k) (s + i + 1)) {i : ℕ} (hi : i < x.calcs) {c r : ℕ}
    (hb : ex.Bound (x.cs.numAdvice + 8) (s' i) c r) : g.advice c r = g'.advice c r := by
  have hg := hs.gates
  have hg' := hs'.gates
  rw [newGates_eq lw] at hg hg'
  rw [(hp.chip_iff ex hx hl).mp (fun q hq => hg q (List.mem_append_right _ hq)) i hi c r hb,
    (hp.chip_iff ex hx hl').mp (fun q hq => hg' q (List.mem_append_right _ hq)) i hi c r hb]
  congr 1
  funext k
  rw [hp.start_eq ex hs i hi k, hp.start_eq ex hs' i hi k, hin i hi k]

/-- A grid that agrees with an accepted one on the determined cells is accepted, as long as the digest cell
of the row before the table equals the state cell there, and the range check holds outside the table. -/
theorem Placed.satisfies (hp : Placed lw L' s s') (ex : lw.Exact) (hx : x.Legal)
    (hbig : ∀ m : ℕ, m < 2 ^ 200 → (m : F) = 0 → m = 0) {post : List (Op F)}
    {g : Grid F} (hl : x.Laid L' post g) (hs : x.Satisfies L' g) (h0 : 0 < x.calcs) {g' : Grid F}
    (hn' : g.n = g'.n) (hu' : g.usable = g'.usable) (hfx : g.fixed = g'.fixed)
    (hsl : g.selector = g'.selector)
    (htab : ∀ r, s < r → r ≤ s + x.calcs → ∀ i : Fin 6, (i = 0 → r < s + x.calcs) →
      g'.advice (x.hashTable i) r = g.advice (x.hashTable i) r)
    (hzero : ∀ i : Fin 6, i = 1 ∨ i = 2 ∨ i = 3 → g'.advice (x.hashTable i) s = g.advice (x.hashTable i) s)
    (haux : ∀ r, s < r → r ≤ s + x.calcs → ∀ i < 7,
      g'.advice (x.cs.numAdvice + i) r = g.advice (x.cs.numAdvice + i) r)
    (hcaux : ∀ r, s < r → r ≤ s + x.calcs → g.advice (x.hashTable 3) r ≠ 0 →
      g'.advice (x.cs.numAdvice + 7) r = g.advice (x.cs.numAdvice + 7) r)
    (hchip : ∀ i < x.calcs, ∀ c r, ex.Bound (x.cs.numAdvice + 8) (s' i) c r → g'.advice c r = g.advice c r)
    (htie : g'.advice (x.hashTable 0) s = g'.advice (x.cs.numAdvice + 5) s)
    (hrow : ∀ r < g.usable, ¬ (s < r ∧ r ≤ s + x.calcs) → ∃ i ≤ x.STEP,
      g'.advice (x.hashTable 5) r * g'.advice (x.hashTable 3) (g.rot r (-1)) = specFlag x.legacy i) :
    x.Laid L' post g' ∧ x.Satisfies L' g' := by
  have ho := hp.ops_eq
  have hun := hl.usable_le
  obtain ⟨hen, R⟩ := Placed.rows hx hp hl hs
  have hl' : x.Laid L' post g' :=
    ⟨by rw [← hn', ← hu']; exact hl.usable_le, by rw [← hu']; exact hl.fits, hl.quietFixed, hl.quietSel,
      by rw [← hfx, ← hn', ← hu']; exact hl.fixed, by rw [← hsl, ← hn']; exact hl.selector⟩
  have hgs := hs.gates
  rw [newGates_eq lw] at hgs
  have hN : s + x.calcs < g.n := by have := hen.1; omega
  -- the rows of `g'`
  have a0 : ∀ r, s < r → r < s + x.calcs → (view x.cs.numAdvice x.hashTable g').idx r =
      (view x.cs.numAdvice x.hashTable g).idx r := fun r h1 h2 => htab r h1 (by omega) 0 (fun _ => h2)
  have a1 : ∀ r, s ≤ r → r ≤ s + x.calcs → (view x.cs.numAdvice x.hashTable g').w0 r =
      (view x.cs.numAdvice x.hashTable g).w0 r := fun r h1 h2 => by
    rcases Nat.eq_or_lt_of_le h1 with rfl | h1
    · exact hzero 1 (by decide)
    · exact htab r h1 h2 1 (fun h => absurd h (by decide))
  have a2 : ∀ r, s ≤ r → r ≤ s + x.calcs → (view x.cs.numAdvice x.hashTable g').w1 r =
      (view x.cs.numAdvice x.hashTable g).w1 r := fun r h1 h2 => by
    rcases Nat.eq_or_lt_of_le h1 with rfl | h1
    · exact hzero 2 (by decide)
    · exact htab r h1 h2 2 (fun h => absurd h (by decide))
  have a3 : ∀ r, s ≤ r → r ≤ s + x.calcs → (view x.cs.numAdvice x.hashTable g').ctrl r =
      (view x.cs.numAdvice x.hashTable g).ctrl r := fun r h1 h2 => by
    rcases Nat.eq_or_lt_of_le h1 with rfl | h1
    · exact hzero 3 (by decide)
    · exact htab r h1 h2 3 (fun h => absurd h (by decide))
  have a4 : ∀ r, s < r → r ≤ s + x.calcs → (view x.cs.numAdvice x.hashTable g').dom r =
      (view x.cs.numAdvice x.hashTable g).dom r := fun r h1 h2 => htab r h1 h2 4 (fun h => absurd h (by decide))
  have a5 : ∀ r, s < r → r ≤ s + x.calcs → (view x.cs.numAdvice x.hashTable g').head r =
      (view x.cs.numAdvice x.hashTable g).head r := fun r h1 h2 => htab r h1 h2 5 (fun h => absurd h (by decide))
  have a6 : ∀ r, s < r → r ≤ s + x.calcs → (view x.cs.numAdvice x.hashTable g').cont r =
      (view x.cs.numAdvice x.hashTable g).cont r := fun r h1 h2 => haux r h1 h2 6 (by decide)
  have a7 : ∀ r, s < r → r ≤ s + x.calcs → (view x.cs.numAdvice x.hashTable g).ctrl r *
      (view x.cs.numAdvice x.hashTable g').caux r = (view x.cs.numAdvice x.hashTable g).ctrl r *
      (view x.cs.numAdvice x.hashTable g).caux r := fun r h1 h2 => by
    by_cases hz : (view x.cs.numAdvice x.hashTable g).ctrl r = 0
    · rw [hz, zero_mul, zero_mul]
    · congr 1
      exact hcaux r h1 h2 hz
  have a8 : ∀ r, s < r → r ≤ s + x.calcs → (view x.cs.numAdvice x.hashTable g').inp r =
      (view x.cs.numAdvice x.hashTable g).inp r := fun r h1 h2 => by
    funext k
    rw [view_inp, view_inp]
    exact haux r h1 h2 k (by omega)
  have a9 : ∀ r, s < r → r ≤ s + x.calcs → (view x.cs.numAdvice x.hashTable g').out r =
      (view x.cs.numAdvice x.hashTable g).out r := fun r h1 h2 => by
    funext k
    fin_cases k
    · exact haux r h1 h2 5 (by omega)
    · exact haux r h1 h2 3 (by omega)
    · exact haux r h1 h2 4 (by omega)
  have hfirst : (view x.cs.numAdvice x.hashTable g).cont (s + 0 + 1) = 0 :=
    R.headRow 0 h0 (R.firstHead hbig rfl hx.step_lt hx.STEP_lt hx.calcs_lt h0)
  have heqs : ∀ j < x.calcs, RowEqs (view x.cs.numAdvice x.hashTable g') (specFlag x.legacy x.step)
      (s + j) (s + j + 1) := by
    intro j hj
    have e := R.eqs j hj
    have b1 := a1 (s + j + 1) (by omega) (by omega)
    have b2 := a2 (s + j + 1) (by omega) (by omega)
    have b3 := a3 (s + j + 1) (by omega) (by omega)
    have b3' := a3 (s + j) (by omega) (by omega)
    have b4 := a4 (s + j + 1) (by omega) (by omega)
    have b5 := a5 (s + j + 1) (by omega) (by omega)
    have b6 := a6 (s + j + 1) (by omega) (by omega)
    have b7 := a7 (s + j + 1) (by omega) (by omega)
    have b8 := a8 (s + j + 1) (by omega) (by omega)
    have hsame : (view x.cs.numAdvice x.hashTable g').cont (s + j + 1) *
        ((view x.cs.numAdvice x.hashTable g').idx (s + j + 1) -
          (view x.cs.numAdvice x.hashTable g').idx (s + j)) = 0 := by
      rw [b6]
      rcases R.flag j hj with ⟨h, -⟩ | ⟨-, h⟩
      · rw [h, zero_mul]
      · have hlt : j + 1 < x.calcs := by
          rcases Nat.lt_or_ge (j + 1) x.calcs with h' | h'
          · exact h'
          · exfalso
            have := R.lastHead h0
            rw [show s + x.calcs = s + j + 1 by omega, h] at this
            exact zero_ne_one this
        have hj0 : 0 < j := by
          rcases Nat.eq_zero_or_pos j with rfl | h'
          · have := (R.contRow 0 h0 h).1
            rw [hfirst] at this
            exact absurd this zero_ne_one
          · exact h'
        rw [a0 (s + j + 1) (by omega) (by omega), a0 (s + j) (by omega) (by omega)]
        exact e.same
    cases j with
    | zero =>
      refine ⟨?_, ?_, ?_, ?_, ?_, hsame, ?_, ?_, ?_, ?_, ?_⟩
      · rw [b6]; exact e.bool
      · rw [b3, b7]; exact e.caux
      · rw [b6, b3, b7]; exact e.contCtrl
      · rw [b6, b5]; exact e.head
      · rw [b6, hfirst, zero_mul]
      · have : (view x.cs.numAdvice x.hashTable g').out (s + 0) 0 = (view x.cs.numAdvice x.hashTable g').idx (s + 0) :=
          htie.symm
        rw [this, sub_self, mul_zero]
      · have := e.in1
        rw [hfirst] at this
        rw [b6, b1, b8, hfirst]
        linear_combination this
      · have := e.in2
        rw [hfirst] at this
        rw [b6, b2, b8, hfirst]
        linear_combination this
      · rw [b6, b8, b3, b4]; exact e.in0
      · rw [b6, hfirst, zero_mul]
    | succ j =>
      have c0 := a0 (s + (j + 1)) (by omega) (by omega)
      have c9 := a9 (s + (j + 1)) (by omega) (by omega)
      refine ⟨?_, ?_, ?_, ?_, ?_, hsame, ?_, ?_, ?_, ?_, ?_⟩
      · rw [b6]; exact e.bool
      · rw [b3, b7]; exact e.caux
      · rw [b6, b3, b7]; exact e.contCtrl
      · rw [b6, b5]; exact e.head
      · rw [b6, b3, b3']; exact e.step
      · rw [b6, c9, c0]; exact e.digest
      · rw [b6, c9, b1, b8]; exact e.in1
      · rw [b6, c9, b2, b8]; exact e.in2
      · rw [b6, b8, b3, b4]; exact e.in0
      · rw [b6, b8, c9, b4]; exact e.in0c
  refine ⟨hl', ?_, ?_, ?_⟩
  · rw [newGates_eq lw]
    intro p hpm
    rcases List.mem_append.mp hpm with hpm | hpm
    · have hσ : ∀ r < g.n, g.selector x.cs.numSelectors r = true ↔ r = s ∨ r = s + x.calcs := by
        intro r hr
        rw [hl.selector_new lw ho x.cs.numSelectors ((sel_iff lw _).mpr ⟨le_rfl, by omega⟩) r hr]
        exact load_selector _ _ _ _ _ _ _ _ _ _ _ _ _ s s' r
      refine (tableGates_iff x.legacy x.cs.numAdvice x.cs.numFixed x.cs.numSelectors
        x.qEnable x.hashTable x.step g' s x.calcs (by rw [← hn']; exact hN) (by rw [← hn', ← hfx]; exact hen.2)
        (by rw [← hn', ← hsl]; exact hσ)).mpr ⟨⟨?_, ?_, ?_⟩, ⟨?_, ?_, ?_⟩, heqs⟩ p hpm
      · exact (a1 s le_rfl (by omega)).trans R.first.w0
      · exact (a2 s le_rfl (by omega)).trans R.first.w1
      · exact (a3 s le_rfl (by omega)).trans R.first.ctrl
      · exact (a1 (s + x.calcs) (by omega) le_rfl).trans R.last.w0
      · exact (a2 (s + x.calcs) (by omega) le_rfl).trans R.last.w1
      · exact (a3 (s + x.calcs) (by omega) le_rfl).trans R.last.ctrl
    · refine (hp.chip_iff ex hx hl').mpr (fun i hi c r hb => ?_) p hpm
      rw [hchip i hi c r hb, (hp.chip_iff ex hx hl).mp (fun q hq => hgs q (List.mem_append_right _ hq)) i hi c r hb]
      congr 1
      funext k
      exact (hchip i hi _ _ (ex.start _ _ k)).symm
  · rw [newLookups_eq lw]
    intro l hl'' r hr
    simp only [List.mem_singleton] at hl''
    subst hl''
    have hfits := hl.fits
    rw [newOps_eq lw ho] at hfits
    have hst : x.STEP < g.usable := by
      have := hfits (.fixed x.cs.numFixed x.STEP (specFlag x.legacy x.STEP))
        ((mem_loadOps x.legacy x.STEP π lw _ _ _ _ _ _ _ _ _ s s' _).mpr
          (Or.inl ((mem_rangeOps _ _ _ _).mpr (Or.inl ⟨x.STEP, le_rfl, rfl⟩))))
      simpa [Op.bottom] using this
    have htable : ∀ i ≤ x.STEP, g.fixed x.cs.numFixed i = specFlag x.legacy i := by
      intro i hi
      rw [hl.fixed_new lw ho x.cs.numFixed ((fixedCol_iff lw _).mpr (Or.inr ⟨le_rfl, by omega⟩)) i (by omega)
        (fun _ => by omega)]
      refine (load_range x.legacy x.STEP π lw x.cs.numAdvice x.cs.numFixed x.cs.numSelectors x.qEnable
        x.hashTable x.step (rowAt x.table) x.calcs x.mode hx.enable s s' i).trans ?_
      rw [if_pos hi]
    have hin : ∀ (g₀ : Grid F), r < g₀.n → (controlRangeInput (F := F) (tcols x.cs.numAdvice x.cs.numFixed
        x.cs.numSelectors x.qEnable x.hashTable)).eval g₀ r = g₀.advice (x.hashTable 5) r *
            g₀.advice (x.hashTable 3) (g₀.rot r (-1)) := by
      intro g₀ h₀
      simp only [controlRangeInput, tcols, Expr.eval_mul, Expr.eval_advice, g₀.rot_zero h₀]
    have hrn : r < g'.n := by omega
    have hrot : g'.rot r (-1) = g.rot r (-1) := by rw [Grid.rot, Grid.rot, hn']
    by_cases hr1 : s < r ∧ r ≤ s + x.calcs
    · obtain ⟨j, rfl⟩ : ∃ j, r = s + j + 1 := ⟨r - s - 1, by omega⟩
      obtain ⟨i, hi, e⟩ := R.range j (by omega)
      refine ⟨i, by omega, ?_⟩
      rw [hin g' hrn, g'.rot_of_lt (s + j) (by push_cast; ring) (by omega), ← hfx, htable i hi, ← e]
      exact congrArg₂ (· * ·) (a5 (s + j + 1) (by omega) (by omega)) (a3 (s + j) (by omega) (by omega))
    · obtain ⟨i, hi, e⟩ := hrow r (by omega) hr1
      refine ⟨i, by omega, ?_⟩
      rw [← hfx, htable i hi, hin g' hrn, hrot]
      exact e
  · have hcs := hs.copies
    rw [newOps_eq lw ho] at hcs ⊢
    intro u v hm
    have := hcs u v hm
    suffices hh : g'.cell u = g.cell u ∧ g'.cell v = g.cell v by
      rw [hh.1, hh.2]; exact this
    rcases (mem_loadOps x.legacy x.STEP π lw x.cs.numAdvice x.cs.numFixed x.cs.numSelectors x.qEnable
      x.hashTable x.step (rowAt x.table) x.calcs _ s s' _).mp hm with h | h | h | h | h
    · rcases (mem_rangeOps x.legacy x.STEP x.cs.numFixed _).mp h with ⟨i, hi, h⟩ | h <;> cases h
    · rcases List.mem_append.mp h with h | h
      · rcases (mem_customOps _ s _).mp h with h | ⟨c', h, hc'⟩ <;> cases h
      · obtain ⟨j, hj, h⟩ := (mem_fillOps x.legacy x.STEP π _ s (rowAt x.table) x.calcs _).mp h
        rcases (mem_rowOps _ _ _ _ _ _ _ _ _).mp h with h | ⟨h1, i, h2, h3, h4⟩
        · rw [rowW_ops] at h
          simp only [List.mem_cons, List.not_mem_nil, or_false, reduceCtorEq] at h
        · cases h4
    · have := mem_tailOps x.cs.numSelectors x.calcs s x.mode _ h
      cases this
    · obtain ⟨i, hi, k, rfl, rfl⟩ := (ex.copies _ _ _ _ _ _ _).mp h
      rw [length_inWords] at hi
      refine ⟨hchip i hi _ _ (ex.start _ _ k), ?_⟩
      rw [inWords_cell]
      exact haux (s + (i + 1)) (by omega) (by omega) k (by omega)
    · obtain ⟨q', hq', k, e⟩ := (mem_finalOps _ _ _).mp h
      cases e
      obtain ⟨j, hj, rfl⟩ := List.mem_iff_getElem.mp hq'
      rw [List.length_zip] at hj
      have hj1 := hj
      rw [length_outWords] at hj1
      have hjc : j < x.calcs := lt_of_lt_of_le hj1 (min_le_left _ _)
      simp only [List.getElem_zip]
      constructor
      · rw [outWords_cell]
        fin_cases k
        · exact haux (s + (j + 1)) (by omega) (by omega) 5 (by omega)
        · exact haux (s + (j + 1)) (by omega) (by omega) 3 (by omega)
        · exact haux (s + (j + 1)) (by omega) (by omega) 4 (by omega)
      · obtain ⟨c, r, e, hb⟩ := ex.outs_bound (x.cs.numAdvice + 8) (x.cs.numFixed + 1) (x.cs.numSelectors + 1)
          (ins lw s) s' j (lt_of_lt_of_le hj (min_le_right _ _)) k
        rw [e]
        exact hchip j hjc c r hb

end

end Circuit.Run

namespace Circuit
open Base.Bn256

/-- The chip of a run over `bn256::Fr`, with the free cells. -/
theorem Run.IsBn.exact {x : Run Fr} {k : ChipKind} {short : Bool} (h : x.IsBn k short) :
    ∃ (lw : x.ch.Lawful specPerm) (ex : lw.Exact),
      ∀ a f σ (ws : List (Words Fr 3)) p c r, (∃ i < ws.length, ex.Free a (p i) c r) ↔
        k = .septidon ∧ c = a + 12 ∧
          (Op.fixed f (r + 7) 1 ∈ lw.ops a f σ ws p ∨ Op.fixed f (r + 3) 1 ∈ lw.ops a f σ ws p) := by
  obtain ⟨ch, h1, h2⟩ := bnChip_exact k
  have := h.1.symm.trans h1
  injection this with this
  obtain ⟨ch', native, legacy, STEP, step, cs, q, ht, t, calcs, mode, L⟩ := x
  simp only at this
  subst this
  exact h2

end Circuit
