import Verif.Circuit.TableAccept
import Verif.Circuit.TableShape

/-!
# Other witnesses for the hash table

`load` writes one witness. The circuit accepts every grid with the same fixed columns and selectors, the
same permutation chip and the same auxiliary state columns, whose six table columns and two control columns
meet the row equations.
-/

set_option linter.unusedVariables false
set_option linter.unusedSectionVars false
set_option linter.unusedSimpArgs false

open Halo2

namespace Circuit.Run

open Table

variable {F : Type} [Field F] [DecidableEq F] {x : Run F} {π : (Fin 3 → F) → Fin 3 → F}

/-- The range check is not switched off outside the table: it holds on every usable row. -/
theorem range_everywhere (lw : x.ch.Lawful π) (hx : x.Legal) (hn : x.native = fun s => .ok (π s))
    {L' : Layouter F} (hload : x.Loads L') {post : List (Op F)} {g : Grid F} (hl : x.Laid L' post g)
    (hs : x.Satisfies L' g) (r : ℕ) (hr : r < g.usable) :
    ∃ i ≤ x.STEP, g.advice (x.hashTable 5) r * g.advice (x.hashTable 3) (g.rot r (-1)) = specFlag x.legacy i := by
  obtain ⟨s, s', ⟨-, ho⟩, -⟩ := hload.placed lw hx hn
  have hun := hl.usable_le
  have hls := hs.lookups
  rw [newLookups_eq lw] at hls
  obtain ⟨r', hr', e⟩ := hls _ (List.mem_singleton.mpr rfl) r hr
  refine ⟨if r' ≤ x.STEP then r' else 0, by split_ifs <;> omega, ?_⟩
  rw [← load_range x.legacy x.STEP π lw x.cs.numAdvice x.cs.numFixed x.cs.numSelectors x.qEnable
      x.hashTable x.step (rowAt x.table) x.calcs x.mode hx.enable s s' r']
  refine Eq.trans ?_ (e.trans
    (hl.fixed_new lw ho x.cs.numFixed ((fixedCol_iff lw _).mpr (Or.inr ⟨le_rfl, by omega⟩)) r' (by omega) (fun _ => hr')))
  simp only [controlRangeInput, tcols, Expr.eval_mul, Expr.eval_advice, g.rot_zero (show r < g.n by omega)]

/-- In an accepted grid the table columns, `s_continue` and `control_aux` may be replaced by anything that
meets the row equations, the custom rows and the range condition (which is not switched off on the other
rows). -/
theorem satisfies_replace (lw : x.ch.Lawful π) (hx : x.Legal) (hn : x.native = fun s => .ok (π s))
    {L' : Layouter F} (hload : x.Loads L') {post : List (Op F)} {g : Grid F} (hl : x.Laid L' post g)
    (hs : x.Satisfies L' g) {s : ℕ} (hen : x.EnabledAfter g s) (h0 : 0 < x.calcs) {g' : Grid F}
    (hn' : g.n = g'.n) (hu' : g.usable = g'.usable) (hfx : g.fixed = g'.fixed)
    (hsl : g.selector = g'.selector)
    (haux : ∀ c, x.cs.numAdvice ≤ c → c < x.cs.numAdvice + 6 → g'.advice c = g.advice c)
    (hchip : ∀ c, x.cs.numAdvice + 8 ≤ c → g'.advice c = g.advice c)
    (hrow : ∀ r < g.usable, ¬ (s < r ∧ r ≤ s + x.calcs) → ∃ i ≤ x.STEP,
      g'.advice (x.hashTable 5) r * g'.advice (x.hashTable 3) (g.rot r (-1)) = specFlag x.legacy i)
    (hR : Rows x.legacy x.STEP π (view x.cs.numAdvice x.hashTable g') (specFlag x.legacy x.step) s x.calcs) :
    x.Laid L' post g' ∧ x.Satisfies L' g' := by
  obtain ⟨s₂, s', ⟨-, ho⟩, hf⟩ := hload.placed lw hx hn
  have hen₂ := hl.enabled lw hx ho
  have hun := hl.usable_le
  obtain rfl : s₂ = s := hen₂.unique hun hen h0
  obtain ⟨s₃, hen₃, -, R⟩ := rows lw hx hn hload hl hs
  obtain rfl : s₃ = s₂ := hen₃.unique hun hen h0
  refine ⟨⟨by rw [← hn', ← hu']; exact hl.usable_le, by rw [← hu']; exact hl.fits, hl.quietFixed, hl.quietSel,
    by rw [← hfx, ← hn', ← hu']; exact hl.fixed, by rw [← hsl, ← hn']; exact hl.selector⟩, ?_, ?_, ?_⟩
  · have hgs := hs.gates
    rw [newGates_eq lw] at hgs ⊢
    intro p hp
    rcases List.mem_append.mp hp with hp | hp
    · have hselector := fun c h1 h2 r hr => hl.selector_new lw ho c ((sel_iff lw c).mpr ⟨h1, h2⟩) r hr
      have hσ : ∀ r < g.n, g.selector x.cs.numSelectors r = true ↔ r = s₃ ∨ r = s₃ + x.calcs := by
        intro r hr
        rw [hselector x.cs.numSelectors le_rfl (by omega) r hr]
        exact load_selector _ _ _ _ _ _ _ _ _ _ _ _ _ s₃ s' r
      have hN : s₃ + x.calcs < g.n := by have := hen.1; omega
      exact (tableGates_iff x.legacy x.cs.numAdvice x.cs.numFixed x.cs.numSelectors
        x.qEnable x.hashTable x.step g' s₃ x.calcs (by rw [← hn']; exact hN) (by rw [← hn', ← hfx]; exact hen.2)
        (by rw [← hn', ← hsl]; exact hσ)).mpr ⟨hR.first, hR.last, hR.eqs⟩ p hp
    · intro e he r hr
      have hw := lw.within _ _ _ p hp e he
      rw [← hw.eval_congr hn' (fun c hc => (hchip c (by omega)).symm) (fun c _ => by rw [hfx])
        (fun c _ => by rw [hsl]) r]
      exact hgs p (List.mem_append_right _ hp) e he r (by rw [hn']; exact hr)
  · have hls := hs.lookups
    rw [newLookups_eq lw] at hls ⊢
    intro l hl' r hr
    simp only [List.mem_singleton] at hl'
    subst hl'
    have hfits := hl.fits
    rw [newOps_eq lw ho] at hfits
    have hst : x.STEP < g.usable := by
      have := hfits (.fixed x.cs.numFixed x.STEP (specFlag x.legacy x.STEP))
        ((mem_loadOps x.legacy x.STEP π lw _ _ _ _ _ _ _ _ _ s₃ s' _).mpr
          (Or.inl ((mem_rangeOps _ _ _ _).mpr (Or.inl ⟨x.STEP, le_rfl, rfl⟩))))
      simpa [Op.bottom] using this
    have htab : ∀ i ≤ x.STEP, g.fixed x.cs.numFixed i = specFlag x.legacy i := by
      intro i hi
      rw [hl.fixed_new lw ho x.cs.numFixed ((fixedCol_iff lw _).mpr (Or.inr ⟨le_rfl, by omega⟩)) i (by omega)
        (fun _ => by omega)]
      refine (load_range x.legacy x.STEP π lw x.cs.numAdvice x.cs.numFixed x.cs.numSelectors x.qEnable
        x.hashTable x.step (rowAt x.table) x.calcs x.mode hx.enable s₃ s' i).trans ?_
      rw [if_pos hi]
    have hin : ∀ (g₀ : Grid F), r < g₀.n → (controlRangeInput (F := F) (tcols x.cs.numAdvice x.cs.numFixed
        x.cs.numSelectors x.qEnable x.hashTable)).eval g₀ r = g₀.advice (x.hashTable 5) r *
            g₀.advice (x.hashTable 3) (g₀.rot r (-1)) := by
      intro g₀ h₀
      simp only [controlRangeInput, tcols, Expr.eval_mul, Expr.eval_advice, g₀.rot_zero h₀]
    have hrn : r < g'.n := by omega
    by_cases hr1 : s₃ < r ∧ r ≤ s₃ + x.calcs
    · obtain ⟨j, rfl⟩ : ∃ j, r = s₃ + j + 1 := ⟨r - s₃ - 1, by omega⟩
      obtain ⟨i, hi, e⟩ := hR.range j (by omega)
      refine ⟨i, by omega, ?_⟩
      rw [hin g' hrn, g'.rot_of_lt (s₃ + j) (by push_cast; ring) (by omega), ← hfx, htab i hi]
      exact e
    · obtain ⟨i, hi, e⟩ := hrow r (by omega) hr1
      refine ⟨i, by omega, ?_⟩
      have hrot : g'.rot r (-1) = g.rot r (-1) := by rw [Grid.rot, Grid.rot, hn']
      rw [← hfx, htab i hi, hin g' hrn, hrot]
      exact e
  · have hcs := hs.copies
    rw [newOps_eq lw ho] at hcs ⊢
    -- copies touch the state columns and the chip only
    have hcell : ∀ c : Cell, (∀ i, c.col = .advice i → g'.advice i = g.advice i) → g'.cell c = g.cell c := by
      rintro ⟨col, r⟩ hc
      cases col with
      | advice i => exact congrFun (hc i rfl) r
      | fixed i => exact (congrFun (congrFun hfx i) r).symm
    have heq : ∀ c ∈ lw.eqs (x.cs.numAdvice + 8) (x.cs.numFixed + 1) (x.cs.numSelectors + 1),
        ∀ i, c = .advice i → g'.advice i = g.advice i := by
      intro c hc i h
      rcases lw.eqs_own _ _ _ c hc with ⟨i', rfl, h1, -⟩ | ⟨i', rfl, -⟩
      · cases h; exact hchip _ (by omega)
      · cases h
    intro u v hm
    have := hcs u v hm
    suffices hh : (∀ i, u.col = .advice i → g'.advice i = g.advice i) ∧
        ∀ i, v.col = .advice i → g'.advice i = g.advice i by
      rw [hcell u hh.1, hcell v hh.2]; exact this
    rcases (mem_loadOps x.legacy x.STEP π lw x.cs.numAdvice x.cs.numFixed x.cs.numSelectors x.qEnable
      x.hashTable x.step (rowAt x.table) x.calcs _ s₃ s' _).mp hm with h | h | h | h | h
    · rcases (mem_rangeOps x.legacy x.STEP x.cs.numFixed _).mp h with ⟨i, hi, h⟩ | h <;> cases h
    · rcases List.mem_append.mp h with h | h
      · rcases (mem_customOps _ s₃ _).mp h with h | ⟨c', h, hc'⟩ <;> cases h
      · obtain ⟨j, hj, h⟩ := (mem_fillOps x.legacy x.STEP π _ s₃ (rowAt x.table) x.calcs _).mp h
        rcases (mem_rowOps _ _ _ _ _ _ _ _ _).mp h with h | ⟨h1, i, h2, h3, h4⟩
        · rw [rowW_ops] at h
          simp only [List.mem_cons, List.not_mem_nil, or_false, reduceCtorEq] at h
        · cases h4
    · have := mem_tailOps x.cs.numSelectors x.calcs s₃ x.mode _ h
      cases this
    · rcases lw.shape _ _ _ _ _ _ h with ⟨_, _, _, e, _⟩ | ⟨_, _, _, e, _⟩ | ⟨_, _, e, _⟩ | ⟨c, r, w, k, e, hw, hc⟩
      · cases e
      · cases e
      · cases e
      · cases e
        refine ⟨heq c hc, ?_⟩
        obtain ⟨j, hj, rfl⟩ := List.mem_iff_getElem.mp hw
        rw [inWords_cell]
        intro i h
        cases h
        exact haux _ (by omega) (by omega)
    · obtain ⟨q', hq', k, e⟩ := (mem_finalOps _ _ _).mp h
      cases e
      obtain ⟨h1, h2⟩ := List.of_mem_zip hq'
      constructor
      · obtain ⟨j, hj, e⟩ := List.mem_iff_getElem.mp h1
        have := outWords_cell x.legacy x.STEP π lw x.cs.numAdvice x.cs.numFixed x.cs.numSelectors x.qEnable
          x.hashTable x.step (rowAt x.table) x.calcs s₃ j hj k
        rw [e] at this
        rw [this]
        intro i h
        cases h
        fin_cases k
        · exact haux _ (by simp [outCol]) (by simp [outCol])
        · exact haux _ (by simp [outCol]) (by simp [outCol])
        · exact haux _ (by simp [outCol]) (by simp [outCol])
      · exact heq _ (lw.outs_eq _ _ _ _ _ _ h2 k)

/-- The row before row 0 is the last one. -/
theorem rot_zero_prev (g : Grid F) (hp : 0 < g.n) : g.rot 0 (-1) = g.n - 1 := by
  unfold Grid.rot
  have : ((0 : ℕ) + (-1) : ℤ) % (g.n : ℤ) = (g.n : ℤ) - 1 := by
    rw [show ((0 : ℕ) + (-1) : ℤ) = (g.n - 1) + g.n * (-1) by push_cast; ring, Int.add_mul_emod_self_left,
      Int.emod_eq_of_lt (by omega) (by omega)]
  omega

/-- `satisfies_replace` for changes on enabled rows only. -/
theorem satisfies_override (lw : x.ch.Lawful π) (hx : x.Legal) (hn : x.native = fun s => .ok (π s))
    {L' : Layouter F} (hload : x.Loads L') {post : List (Op F)} {g : Grid F} (hl : x.Laid L' post g)
    (hs : x.Satisfies L' g) {s : ℕ} (hen : x.EnabledAfter g s) (h0 : 0 < x.calcs) {g' : Grid F}
    (hn' : g.n = g'.n) (hu' : g.usable = g'.usable) (hfx : g.fixed = g'.fixed)
    (hsl : g.selector = g'.selector)
    (haux : ∀ c, x.cs.numAdvice ≤ c → c < x.cs.numAdvice + 6 → g'.advice c = g.advice c)
    (hchip : ∀ c, x.cs.numAdvice + 8 ≤ c → g'.advice c = g.advice c)
    (hrow : ∀ i r, r ≤ s ∨ s + x.calcs < r → g'.advice (x.hashTable i) r = g.advice (x.hashTable i) r)
    (hR : Rows x.legacy x.STEP π (view x.cs.numAdvice x.hashTable g') (specFlag x.legacy x.step) s x.calcs) :
    x.Laid L' post g' ∧ x.Satisfies L' g' := by
  have hun := hl.usable_le
  obtain ⟨s₃, hen₃, -, R⟩ := rows lw hx hn hload hl hs
  obtain rfl : s₃ = s := hen₃.unique hun hen h0
  refine satisfies_replace lw hx hn hload hl hs hen h0 hn' hu' hfx hsl haux hchip (fun r hr hr1 => ?_) hR
  obtain ⟨i, hi, e⟩ := range_everywhere lw hx hn hload hl hs r hr
  refine ⟨i, hi, Eq.trans ?_ e⟩
  rw [hrow 5 r (by omega)]
  have h1 : g.advice (x.hashTable 3) (s₃ + x.calcs) = 0 := R.last.ctrl
  have h2 : g'.advice (x.hashTable 3) (s₃ + x.calcs) = 0 := hR.last.ctrl
  have h4 : g.rot r (-1) ≤ s₃ ∨ s₃ + x.calcs ≤ g.rot r (-1) := by
    rcases Nat.eq_zero_or_pos r with rfl | hr0
    · right
      have := rot_zero_prev g (by omega)
      have := hen.1
      omega
    · rw [g.rot_of_lt (r - 1) (by omega) (by omega)]
      omega
  rcases h4 with h4 | h4
  · rw [hrow 3 _ (Or.inl h4)]
  · rcases Nat.lt_or_eq_of_le h4 with h4 | h4
    · rw [hrow 3 _ (Or.inr h4)]
    · rw [← h4, h1, h2]

/-- The table columns and the two control columns of `v` written over the enabled rows of `g`. -/
def putView (x : Run F) (v : View F) (s : ℕ) (g : Grid F) : Grid F :=
  { g with advice := fun c r =>
      if s < r ∧ r ≤ s + x.calcs then
        if c = x.hashTable 0 then v.idx r else
        if c = x.hashTable 1 then v.w0 r else
        if c = x.hashTable 2 then v.w1 r else
        if c = x.hashTable 3 then v.ctrl r else
        if c = x.hashTable 4 then v.dom r else
        if c = x.hashTable 5 then v.head r else
        if c = x.cs.numAdvice + 6 then v.cont r else
        if c = x.cs.numAdvice + 7 then v.caux r else g.advice c r
      else g.advice c r }

theorem putView_off (v : View F) (s : ℕ) (g : Grid F) (c r : ℕ) (h : ¬ (s < r ∧ r ≤ s + x.calcs)) :
    (x.putView v s g).advice c r = g.advice c r := if_neg h

theorem putView_other (v : View F) (s : ℕ) (g : Grid F) (c r : ℕ) (h : ∀ i, c ≠ x.hashTable i)
    (h6 : c ≠ x.cs.numAdvice + 6) (h7 : c ≠ x.cs.numAdvice + 7) :
    (x.putView v s g).advice c r = g.advice c r := by
  simp only [putView, if_neg (h 0), if_neg (h 1), if_neg (h 2), if_neg (h 3), if_neg (h 4), if_neg (h 5),
    if_neg h6, if_neg h7, ite_self]

theorem putView_on (hx : x.Legal) (v : View F) (s : ℕ) (g : Grid F) (r : ℕ) (h : s < r ∧ r ≤ s + x.calcs) :
    (x.putView v s g).advice (x.hashTable 0) r = v.idx r ∧
    (x.putView v s g).advice (x.hashTable 1) r = v.w0 r ∧
    (x.putView v s g).advice (x.hashTable 2) r = v.w1 r ∧
    (x.putView v s g).advice (x.hashTable 3) r = v.ctrl r ∧
    (x.putView v s g).advice (x.hashTable 4) r = v.dom r ∧
    (x.putView v s g).advice (x.hashTable 5) r = v.head r ∧
    (x.putView v s g).advice (x.cs.numAdvice + 6) r = v.cont r ∧
    (x.putView v s g).advice (x.cs.numAdvice + 7) r = v.caux r := by
  have hne : ∀ i j : Fin 6, i ≠ j → x.hashTable i ≠ x.hashTable j := fun i j hij h => hij (hx.inj h)
  have h6 : ∀ i, x.cs.numAdvice + 6 ≠ x.hashTable i := fun i => by have := hx.cols i; omega
  have h7 : ∀ i, x.cs.numAdvice + 7 ≠ x.hashTable i := fun i => by have := hx.cols i; omega
  simp only [putView, if_pos h, if_true]
  refine ⟨trivial, ?_, ?_, ?_, ?_, ?_, ?_, ?_⟩
  · rw [if_neg (hne 1 0 (by decide))]
  · rw [if_neg (hne 2 0 (by decide)), if_neg (hne 2 1 (by decide))]
  · rw [if_neg (hne 3 0 (by decide)), if_neg (hne 3 1 (by decide)), if_neg (hne 3 2 (by decide))]
  · rw [if_neg (hne 4 0 (by decide)), if_neg (hne 4 1 (by decide)), if_neg (hne 4 2 (by decide)),
      if_neg (hne 4 3 (by decide))]
  · rw [if_neg (hne 5 0 (by decide)), if_neg (hne 5 1 (by decide)), if_neg (hne 5 2 (by decide)),
      if_neg (hne 5 3 (by decide)), if_neg (hne 5 4 (by decide))]
  · rw [if_neg (h6 0), if_neg (h6 1), if_neg (h6 2), if_neg (h6 3), if_neg (h6 4), if_neg (h6 5)]
  · rw [if_neg (h7 0), if_neg (h7 1), if_neg (h7 2), if_neg (h7 3), if_neg (h7 4), if_neg (h7 5),
      if_neg (by omega)]

/-- The two views agree on row `r`. -/
structure AgreeAt (v w : View F) (r : ℕ) : Prop where
  idx : v.idx r = w.idx r
  w0 : v.w0 r = w.w0 r
  w1 : v.w1 r = w.w1 r
  ctrl : v.ctrl r = w.ctrl r
  dom : v.dom r = w.dom r
  head : v.head r = w.head r
  cont : v.cont r = w.cont r
  caux : v.caux r = w.caux r
  inp : v.inp r = w.inp r
  out : v.out r = w.out r

/-- Every solution of the row equations on the enabled rows extends to an accepted grid with the given
fixed columns, selectors and foreign advice, and the row before the enabled ones is all zero. -/
theorem exists_grid (lw : x.ch.Lawful π) (hbig : ∀ m : ℕ, m < 2 ^ 200 → (m : F) = 0 → m = 0)
    (hx : x.Legal) (hn : x.native = fun s => .ok (π s)) {L' : Layouter F} (hload : x.Loads L')
    {post : List (Op F)} {g : Grid F} (hl : x.Laid L' post g)
    (hq : ∀ c r v, Op.advice c r v ∈ x.before.ops ++ post → ¬ x.AdviceCol c)
    {s : ℕ} (hen : x.EnabledAfter g s) (h0 : 0 < x.calcs) (v : View F)
    (hR : Rows x.legacy x.STEP π v (specFlag x.legacy x.step) s x.calcs) :
    ∃ g', x.Laid L' post g' ∧ x.Satisfies L' g' ∧ g'.n = g.n ∧ g'.usable = g.usable ∧ g'.fixed = g.fixed ∧
      g'.selector = g.selector ∧ (∀ c, ¬ x.AdviceCol c → g'.advice c = g.advice c) ∧
      (∀ r, s < r → r ≤ s + x.calcs → AgreeAt (view x.cs.numAdvice x.hashTable g') v r) ∧
      ∀ i, x.col g' i s = 0 := by
  -- the permutations of `v`, one per row, as a table of blocks of one row
  obtain ⟨t, ht⟩ : ∃ t : HashTable F, t = ⟨(List.range x.calcs).map fun j => (v.inp (s + j + 1) 1, v.inp (s + j + 1) 2),
    [], (List.range x.calcs).map fun j => some (v.inp (s + j + 1) 0), []⟩ := ⟨_, rfl⟩
  have hrowAt : ∀ j < x.calcs, rowAt t j =
      ⟨some (v.inp (s + j + 1) 1, v.inp (s + j + 1) 2), none, some (v.inp (s + j + 1) 0), none⟩ := by
    intro j hj
    rw [ht]
    simp only [rowAt, List.getElem?_map, List.getElem?_range hj, List.getElem?_nil, Option.map_some,
      Option.join_some, Option.join_none]
  have hctl : ∀ j, ctl (rowAt t) j = 0 := by
    intro j; rw [ht]; simp [ctl, rowAt]
  have hlegal' : (x.reload t x.mode).Legal :=
    ⟨hx.cols, hx.inj, hx.enable, hx.STEP_lt, hx.step_lt, hx.calcs_lt, by
      intro c hc; rw [ht] at hc; simp [Run.reload] at hc⟩
  have hcap : Capacity t x.calcs x.mode := by
    rw [ht]
    cases x.mode with
    | serial => simp [Capacity]
    | parallel => trivial
  have hck : AllChecks x.legacy x.STEP π (rowData t x.calcs) := by
    rw [rowData_eq, allChecks_iff]
    intro j hj ck h
    rw [hrowAt j hj] at h
    cases h
  obtain ⟨L₂, s₁, s', hload₂, ho, ho₂⟩ := hload.reload lw hx hlegal' hn hcap hck
  have hlaid₂ := Run.laid_reload lw ho ho₂ hl
  have hon := Run.honest_fill hlaid₂ hq
  obtain ⟨g₁, hg₁⟩ : ∃ g₁, g₁ = (x.reload t x.mode).fillAdvice L₂ post g := ⟨_, rfl⟩
  rw [← hg₁] at hon
  obtain ⟨s₂, hen₂, -, hv, hiff⟩ := Run.honest_iff (x := x.reload t x.mode) lw hbig hlegal' hn hload₂ hon
  have hen₁ : (x.reload t x.mode).EnabledAfter g₁ s := by
    rw [hg₁]; exact hen
  obtain rfl : s₂ = s := hen₂.unique hon.usable_le hen₁ h0
  have hfirst := hR.firstHead hbig rfl hx.step_lt hx.STEP_lt hx.calcs_lt h0
  have hwf : WellFormed x.STEP x.step (rowAt t) x.calcs := by
    refine ⟨fun j hj hgt => ?_, fun j hj => ⟨?_, hctl j⟩⟩
    · rw [hctl] at hgt; omega
    · have hh : v.head (s₂ + j + 1) = 1 := by
        have := hR.lastHead h0
        rwa [← hj, ← Nat.add_assoc] at this
      have hc := hR.headRow j (by omega) hh
      have e := hR.eqs j (by omega)
      have e1 := e.in1
      have e2 := e.in2
      have l0 := hR.last.w0
      have l1 := hR.last.w1
      rw [← hj, ← Nat.add_assoc] at l0 l1
      rw [hc, l0] at e1
      rw [hc, l1] at e2
      rw [hrowAt j (by omega)]
      refine Prod.ext ?_ ?_
      · change v.inp (s₂ + j + 1) 1 = 0
        linear_combination -e1
      · change v.inp (s₂ + j + 1) 2 = 0
        linear_combination -e2
  have hsat := hiff.mpr hwf
  have hl₁ := Run.laid_reload (x := x.reload t x.mode) (t := x.table) (m := x.mode) lw ho₂ ho hon.toLaid
  have hs₁ := Run.satisfies_reload (x := x.reload t x.mode) (t := x.table) (m := x.mode) lw ho₂ ho hsat
  change x.Laid L' post g₁ at hl₁
  change x.Satisfies L' g₁ at hs₁
  have hen₃ : x.EnabledAfter g₁ s₂ := hen₁
  have hnew : ∀ j, (Table.seq x.legacy x.STEP π (rowAt t) j).isNew = true := by
    intro j
    cases j with
    | zero => rfl
    | succ j => rw [isNew_succ, hctl]; simp
  have hsz : (specFlag x.legacy 0 : F) = 0 := by rw [specFlag_small (by norm_num)]; simp
  have hinst : ∀ j < x.calcs, inState x.legacy (Table.seq x.legacy x.STEP π (rowAt t) j) (rowAt t j) =
      v.inp (s₂ + j + 1) := by
    intro j hj
    unfold inState
    rw [if_pos (hnew j), if_pos (hnew j), if_pos (hnew j), hrowAt j hj]
    funext k
    fin_cases k
    · change specFlag x.legacy 0 + v.inp (s₂ + j + 1) 0 = _
      rw [hsz, zero_add]
      rfl
    · rfl
    · rfl
  obtain ⟨g', hg'⟩ : ∃ g', g' = x.putView v s₂ g₁ := ⟨_, rfl⟩
  have hagree : ∀ r, s₂ < r → r ≤ s₂ + x.calcs → AgreeAt (view x.cs.numAdvice x.hashTable g') v r := by
    intro r h1 h2
    obtain ⟨j, rfl⟩ : ∃ j, r = s₂ + j + 1 := ⟨r - s₂ - 1, by omega⟩
    obtain ⟨a0, a1, a2, a3, a4, a5, a6, a7⟩ := putView_on (x := x) hx v s₂ g₁ (s₂ + j + 1) ⟨h1, h2⟩
    have hoth : ∀ i : Fin 6, g'.advice (x.cs.numAdvice + i) (s₂ + j + 1) =
        g₁.advice (x.cs.numAdvice + i) (s₂ + j + 1) := by
      intro i
      rw [hg']
      exact putView_other _ _ _ _ _ (fun i' => by have := hx.cols i'; omega) (by omega) (by omega)
    have hi := hv.inp j (show j < x.calcs by omega)
    have ho := hv.out j (show j < x.calcs by omega)
    have hi' : (view x.cs.numAdvice x.hashTable g₁).inp (s₂ + j + 1) = v.inp (s₂ + j + 1) :=
      Eq.trans hi (hinst j (by omega))
    have ho' : (view x.cs.numAdvice x.hashTable g₁).out (s₂ + j + 1) = v.out (s₂ + j + 1) := by
      refine Eq.trans ho ?_
      rw [hR.perm j (by omega)]
      exact congrArg π (hinst j (by omega))
    refine ⟨?_, ?_, ?_, ?_, ?_, ?_, ?_, ?_, ?_, ?_⟩
    · rw [← a0, hg']; rfl
    · rw [← a1, hg']; rfl
    · rw [← a2, hg']; rfl
    · rw [← a3, hg']; rfl
    · rw [← a4, hg']; rfl
    · rw [← a5, hg']; rfl
    · rw [← a6, hg']; rfl
    · rw [← a7, hg']; rfl
    · rw [← hi']
      have o0 := hoth 0
      have o1 := hoth 1
      have o2 := hoth 2
      funext k
      fin_cases k
      · exact o0
      · exact o1
      · exact o2
    · rw [← ho']
      have o0 := hoth 5
      have o1 := hoth 3
      have o2 := hoth 4
      funext k
      fin_cases k
      · exact o0
      · exact o1
      · exact o2
  -- the row before the enabled ones
  have hz : ∀ c, g'.advice c s₂ = g₁.advice c s₂ := by
    intro c; rw [hg']; exact putView_off _ _ _ _ _ (by omega)
  have hidx : (view x.cs.numAdvice x.hashTable g').idx s₂ = 0 := Eq.trans (hz _) (hv.idx0 h0)
  have hout : ∀ k, (view x.cs.numAdvice x.hashTable g').out s₂ k = 0 := by
    intro k
    refine Eq.trans ?_ (hv.out0 k)
    fin_cases k
    · exact hz _
    · exact hz _
    · exact hz _
  have hctl0 : (view x.cs.numAdvice x.hashTable g').ctrl s₂ = 0 := Eq.trans (hz _) hv.ctrl0
  have hR' : Rows x.legacy x.STEP π (view x.cs.numAdvice x.hashTable g') (specFlag x.legacy x.step) s₂ x.calcs := by
    have hN := hagree (s₂ + x.calcs) (by omega) le_rfl
    refine ⟨⟨Eq.trans (hz _) hv.w00, Eq.trans (hz _) hv.w10, hctl0⟩,
      ⟨hN.w0.trans hR.last.w0, hN.w1.trans hR.last.w1, hN.ctrl.trans hR.last.ctrl⟩,
      fun j hj => ?_, fun j hj => ?_, fun j hj => ?_⟩
    · have ha := hagree (s₂ + j + 1) (by omega) (by omega)
      have e := hR.eqs j hj
      cases j with
      | zero =>
        have hc := hR.headRow 0 h0 hfirst
        refine ⟨?_, ?_, ?_, ?_, ?_, ?_, ?_, ?_, ?_, ?_, ?_⟩
        · rw [ha.cont]; exact e.bool
        · rw [ha.ctrl, ha.caux]; exact e.caux
        · rw [ha.cont, ha.ctrl, ha.caux]; exact e.contCtrl
        · rw [ha.cont, ha.head]; exact e.head
        · rw [ha.cont, hc, zero_mul]
        · rw [ha.cont, hc, zero_mul]
        · simp only [Nat.add_zero]
          rw [hidx, hout, sub_zero, mul_zero]
        · rw [ha.cont, ha.w0, ha.inp]
          have := e.in1
          rw [hc] at this ⊢
          linear_combination this
        · rw [ha.cont, ha.w1, ha.inp]
          have := e.in2
          rw [hc] at this ⊢
          linear_combination this
        · rw [ha.cont, ha.inp, ha.ctrl, ha.dom]; exact e.in0
        · rw [ha.cont, hc, zero_mul]
      | succ j =>
        have hp := hagree (s₂ + (j + 1)) (by omega) (by omega)
        refine ⟨?_, ?_, ?_, ?_, ?_, ?_, ?_, ?_, ?_, ?_, ?_⟩
        · rw [ha.cont]; exact e.bool
        · rw [ha.ctrl, ha.caux]; exact e.caux
        · rw [ha.cont, ha.ctrl, ha.caux]; exact e.contCtrl
        · rw [ha.cont, ha.head]; exact e.head
        · rw [ha.cont, ha.ctrl, hp.ctrl]; exact e.step
        · rw [ha.cont, ha.idx, hp.idx]; exact e.same
        · rw [ha.cont, hp.idx, hp.out]; exact e.digest
        · rw [ha.cont, ha.w0, ha.inp, hp.out]; exact e.in1
        · rw [ha.cont, ha.w1, ha.inp, hp.out]; exact e.in2
        · rw [ha.cont, ha.inp, ha.ctrl, ha.dom]; exact e.in0
        · rw [ha.cont, ha.inp, ha.dom, hp.out]; exact e.in0c
    · have ha := hagree (s₂ + j + 1) (by omega) (by omega)
      rw [ha.out, ha.inp]
      exact hR.perm j hj
    · have ha := hagree (s₂ + j + 1) (by omega) (by omega)
      obtain ⟨i, hi, e⟩ := hR.range j hj
      cases j with
      | zero => exact ⟨0, by omega, by simp only [Nat.add_zero]; rw [hctl0, mul_zero, hsz]⟩
      | succ j =>
        have hp := hagree (s₂ + (j + 1)) (by omega) (by omega)
        exact ⟨i, hi, by rw [ha.head, hp.ctrl]; exact e⟩
  have hfn : g₁.n = g'.n := by rw [hg']; rfl
  have hfu : g₁.usable = g'.usable := by rw [hg']; rfl
  have hff : g₁.fixed = g'.fixed := by rw [hg']; rfl
  have hfs : g₁.selector = g'.selector := by rw [hg']; rfl
  obtain ⟨hl', hs'⟩ := satisfies_override lw hx hn hload hl₁ hs₁ hen₃ h0 hfn hfu hff hfs
    (fun c h1 h2 => by
      rw [hg']; funext r
      exact putView_other _ _ _ _ _ (fun i' => by have := hx.cols i'; omega) (by omega) (by omega))
    (fun c h1 => by
      rw [hg']; funext r
      exact putView_other _ _ _ _ _ (fun i' => by have := hx.cols i'; omega) (by omega) (by omega))
    (fun i r hr => by rw [hg']; exact putView_off _ _ _ _ _ (by omega)) hR'
  refine ⟨g', hl', hs', by rw [← hfn, hg₁]; rfl, by rw [← hfu, hg₁]; rfl, by rw [← hff, hg₁]; rfl,
    by rw [← hfs, hg₁]; rfl, fun c hc => ?_, hagree, fun i => ?_⟩
  swap
  · fin_cases i
    exacts [hidx, Eq.trans (hz _) hv.w00, Eq.trans (hz _) hv.w10, hctl0, Eq.trans (hz _) hv.dom0,
      Eq.trans (hz _) hv.head0]
  have hc' := fun h => hc ((adviceCol_iff lw c).mpr h)
  rw [hg', hg₁]
  funext r
  rw [putView_other _ _ _ _ _ (fun i h => hc' (Or.inl ⟨i, h⟩)) (fun h => hc' (Or.inr ⟨by omega, by omega⟩))
    (fun h => hc' (Or.inr ⟨by omega, by omega⟩))]
  exact if_neg hc

end Circuit.Run
