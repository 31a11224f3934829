import Verif.Circuit.TableComplete

/-!
# Acceptance of the honest grid
-/

set_option linter.unusedVariables false
set_option linter.unusedSectionVars false
set_option linter.unusedSimpArgs false

open Halo2

namespace Circuit.Table

variable {F : Type} [Field F] [DecidableEq F] (legacy : Bool) (STEP : ℕ)
  (π : (Fin 3 → F) → Fin 3 → F)

section Words
variable {ch : Chip F 3} (lw : ch.Lawful π) (a f σ q : ℕ) (ht : Fin 6 → ℕ) (step : ℕ)
  (row : ℕ → RowData F) (N : ℕ) (mode : LoadMode)

theorem inWords_value (s j : ℕ) (hj : j < (inWords legacy STEP π lw a f σ q ht step row N s).length)
    (k : Fin 3) : ((inWords legacy STEP π lw a f σ q ht step row N s)[j] k).value =
      inState legacy (seq legacy STEP π row j) (row j) k := by
  have h : (inWords legacy STEP π lw a f σ q ht step row N s)[j] =
      (rowW legacy π (conf lw a f σ q ht step) s (j + 1) (seq legacy STEP π row j) (row j)).val.1 := by
    rw [List.getElem_of_eq (inWords_eq legacy STEP π lw a f σ q ht step row N s) hj, List.getElem_map,
      List.getElem_range]
  rw [h, rowW_val]
  fin_cases k <;> rfl

/-- The final copies and the copies of the chip hold in the honest grid. -/
theorem honest_copies (s : ℕ) (s' : ℕ → ℕ) (g : Grid F)
    (hv : HonestView legacy STEP π row (view a ht g) s N)
    (hchip : Carries g (lw.outs (a + 8) (f + 1) (σ + 1) (inWords legacy STEP π lw a f σ q ht step row N s) s') ∧
      (Carries g (inWords legacy STEP π lw a f σ q ht step row N s) →
        CopiesHold g (lw.ops (a + 8) (f + 1) (σ + 1) (inWords legacy STEP π lw a f σ q ht step row N s) s'))) :
    CopiesHold g (loadOps legacy STEP π lw a f σ q ht step ((List.range N).map row)
        (tailOps σ s N mode) s s') := by
  intro x y hm
  rcases (mem_loadOps legacy STEP π lw a f σ q ht step row N _ s s' _).mp hm with h | h | h | h | h
  · rcases (mem_rangeOps legacy STEP f _).mp h with ⟨i, hi, h⟩ | h <;> cases h
  · rcases List.mem_append.mp h with h | h
    · rcases (mem_customOps _ s _).mp h with h | ⟨c', h, hc'⟩ <;> cases h
    · obtain ⟨j, hj, h⟩ := (mem_fillOps legacy STEP π _ s row N _).mp h
      rcases (mem_rowOps _ _ _ _ _ _ _ _ _).mp h with h | ⟨h1, i, h2, h3, h4⟩
      · rw [rowW_ops] at h
        simp only [List.mem_cons, List.not_mem_nil, or_false, reduceCtorEq] at h
      · cases h4
  · have := mem_tailOps σ N s mode _ h
    cases this
  · refine hchip.2 ?_ x y h
    intro w hw k
    obtain ⟨j, hj, rfl⟩ := List.mem_iff_getElem.mp hw
    have hj' : j < N := by rwa [length_inWords] at hj
    rw [inWords_value, inWords_cell]
    have := congrFun (hv.inp j hj') k
    rw [view_inp] at this
    exact this
  · obtain ⟨q', hq', k, e⟩ := (mem_finalOps _ _ _).mp h
    cases e
    obtain ⟨j, hj, e⟩ := List.mem_iff_getElem.mp hq'
    rw [List.length_zip] at hj
    have hj1 : j < (outWords legacy STEP π lw a f σ q ht step row N s).length := by omega
    have hj2 : j < (lw.outs (a + 8) (f + 1) (σ + 1)
      (inWords legacy STEP π lw a f σ q ht step row N s) s').length := by omega
    have hjN : j < N := by rwa [length_outWords] at hj1
    have hj3 : j < (inWords legacy STEP π lw a f σ q ht step row N s).length := by
      rw [length_inWords]; exact hjN
    rw [List.getElem_zip] at e
    subst e
    rw [outWords_cell, hchip.1 _ (List.getElem_mem _) k]
    have hval := (List.forall₂_iff_get.mp (lw.values (a + 8) (f + 1) (σ + 1)
      (inWords legacy STEP π lw a f σ q ht step row N s) s')).2 j hj3 hj2 k
    simp only [List.get_eq_getElem] at hval
    rw [hval]
    simp only [inWords_value]
    have := congrFun (hv.out j hjN) k
    rw [view_out] at this
    exact this

end Words
end Circuit.Table

namespace Circuit.Run
open Table
variable {F : Type} [Field F] [DecidableEq F] {x : Run F} {π : (Fin 3 → F) → Fin 3 → F}

theorem EnabledAfter.unique {g : Grid F} (hun : g.usable ≤ g.n) {s s₂ : ℕ} (hen₂ : x.EnabledAfter g s₂)
    (hen : x.EnabledAfter g s) (h0 : 0 < x.calcs) : s₂ = s := by
  have h1 := hen.2 (s + 1) (by have := hen.1; omega)
  have h2 := hen₂.2 (s + 1) (by have := hen.1; omega)
  have h3 := hen.2 (s₂ + 1) (by have := hen₂.1; omega)
  have h4 := hen₂.2 (s₂ + 1) (by have := hen₂.1; omega)
  rw [if_pos (by omega)] at h1 h4
  rw [h1] at h2
  rw [h4] at h3
  have h5 : s₂ < s + 1 ∧ s + 1 ≤ s₂ + x.calcs := by
    by_contra hc; rw [if_neg hc] at h2; exact one_ne_zero h2
  have h6 : s < s₂ + 1 ∧ s₂ + 1 ≤ s + x.calcs := by
    by_contra hc; rw [if_neg hc] at h3; exact one_ne_zero h3
  omega

theorem ctl_lt (hx : x.Legal) (j : ℕ) : ctl (rowAt x.table) j < 2 ^ 64 := by
  unfold ctl rowAt
  simp only
  cases h : x.table.controls[j]? with
  | none => norm_num
  | some c => exact hx.controls_lt c (List.mem_of_getElem? h)

/-- A grid that is honest up to the digest on the last enabled row is accepted exactly for
well-formed tables, in any placement. -/
theorem Placed.nearHonest_iff {lw : x.ch.Lawful π} (hbig : ∀ m : ℕ, m < 2 ^ 200 → (m : F) = 0 → m = 0)
    (hx : x.Legal) {L' : Layouter F} {s : ℕ} {s' : ℕ → ℕ} (hp : Placed lw L' s s')
    {post : List (Op F)} {g : Grid F} (hl : x.Laid L' post g)
    (hquiet : ∀ c r v, Op.advice c r v ∈ x.before.ops ++ post → ¬ x.AdviceCol c) (s₀ : ℕ)
    (hen₀ : x.EnabledAfter g s₀)
    (hadv₀ : ∀ c, x.AdviceCol c → ∀ r < g.usable, (c = x.hashTable 0 → 0 < x.calcs → r ≠ s₀ + x.calcs) →
      g.advice c r = finalAdvice (L'.ops ++ post) c r) :
    x.EnabledAfter g s ∧
      HonestView x.legacy x.STEP π (rowAt x.table) (view x.cs.numAdvice x.hashTable g) s x.calcs ∧
      (x.Satisfies L' g ↔ WellFormed x.STEP x.step (rowAt x.table) x.calcs) := by
  have ho := hp.ops_eq
  have hen := hl.enabled lw hx ho
  have hun := hl.usable_le
  have hs₀ : 0 < x.calcs → s₀ = s := fun h => hen₀.unique hun hen h
  have hnew := newOps_eq lw ho
  have hfits := hl.fits
  rw [hnew] at hfits
  have hfixed := fun c hc r hr hu => hl.fixed_new lw ho c ((fixedCol_iff lw c).mpr hc) r hr hu
  have hselector := fun c h1 h2 r hr => hl.selector_new lw ho c ((sel_iff lw c).mpr ⟨h1, h2⟩) r hr
  have hadv : ∀ c, (∃ i, c = x.hashTable i) ∨ (x.cs.numAdvice ≤ c ∧ c < x.cs.numAdvice + 8 + lw.nA) →
      ∀ r < g.usable, (c = x.hashTable 0 → r ≠ s + x.calcs) →
      g.advice c r = finalAdvice (ops lw s s') c r := by
    intro c hc r hr hne
    rw [hadv₀ c ((adviceCol_iff lw c).mpr hc) r hr (fun h h0 => by rw [hs₀ h0]; exact hne h), ho]
    refine finalAdvice_between (fun r v ho => hquiet c r v (by simp [ho]) ((adviceCol_iff lw c).mpr hc))
      (fun r v ho => hquiet c r v (by simp [ho]) ((adviceCol_iff lw c).mpr hc)) r
  obtain ⟨hv, hout⟩ := honestView x.legacy x.STEP π lw x.cs.numAdvice x.cs.numFixed x.cs.numSelectors
    x.qEnable x.hashTable x.step (rowAt x.table) x.calcs x.mode hx.cols hx.inj s s' g hen.1 hadv
  refine ⟨hen, hv, fun hs => ?_, fun hw => ?_⟩
  · have R := (hp.rows hx hl hs).2
    exact hv.wellFormed (fun j _ => ctl_lt hx j) hx.step_lt hbig R.last R.eqs
  · have hq : ∀ r < g.n, g.fixed x.qEnable r = if s < r ∧ r ≤ s + x.calcs then 1 else 0 := hen.2
    have hσ : ∀ r < g.n, g.selector x.cs.numSelectors r = true ↔ r = s ∨ r = s + x.calcs := by
      intro r hr
      rw [hselector x.cs.numSelectors le_rfl (by omega) r hr]
      exact load_selector _ _ _ _ _ _ _ _ _ _ _ _ _ s s' r
    have hN : s + x.calcs < g.n := by have := hen.1; omega
    have hchip := lw.complete (x.cs.numAdvice + 8) (x.cs.numFixed + 1) (x.cs.numSelectors + 1)
      (inWords x.legacy x.STEP π lw x.cs.numAdvice x.cs.numFixed x.cs.numSelectors x.qEnable x.hashTable
        x.step (rowAt x.table) x.calcs s) s' g
      (by rw [length_inWords]; exact hp.apart) hun
      (fun o hm => hfits o ((mem_loadOps x.legacy x.STEP π lw _ _ _ _ _ _ _ _ _ s s' o).mpr
        (Or.inr (Or.inr (Or.inr (Or.inl hm))))))
      (fun c h1 h2 r hr => by
        rw [hfixed c (Or.inr ⟨by omega, by omega⟩) r hr (fun e => absurd e (by omega))]
        exact load_chipFixed _ _ _ _ _ _ _ _ _ _ _ _ _ hx.enable s s' c r h1)
      (fun c h1 h2 r hr => by
        rw [hselector c (by omega) (by omega) r hr]
        exact load_chipSelector _ _ _ _ _ _ _ _ _ _ _ _ _ s s' c r h1)
      (fun c h1 h2 r hr => by
        rw [hadv c (Or.inr ⟨by omega, by omega⟩) r hr (fun h => by have := hx.cols 0; omega)]
        unfold ops loadOps
        refine finalAdvice_between (fun r v hm => ?_) (fun r v hm => ?_) r
        · simp only [List.mem_append] at hm
          rcases hm with h | h | h
          · rcases (mem_rangeOps x.legacy x.STEP x.cs.numFixed _).mp h with ⟨i, hi, h⟩ | h <;> cases h
          · rcases List.mem_append.mp h with h | h
            · rcases (mem_customOps _ s _).mp h with h | ⟨c', h, hc'⟩
              · cases h
              · cases h
                rcases hc' with ⟨i, e⟩ | ⟨i, e⟩ | e | e
                · have := hx.cols i; simp only [conf] at e; omega
                · simp only [conf] at e; omega
                · simp only [conf] at e; omega
                · simp only [conf] at e; omega
            · obtain ⟨j, hj, h⟩ := (mem_fillOps x.legacy x.STEP π _ s (rowAt x.table) x.calcs _).mp h
              have b := hx.cols
              have b0 := hx.cols 0
              have b1 := hx.cols 1
              have b2 := hx.cols 2
              have b3 := hx.cols 3
              have b4 := hx.cols 4
              have b5 := hx.cols 5
              rcases (mem_rowOps _ _ _ _ _ _ _ _ _).mp h with h | ⟨-, i, -, -, h4⟩
              · rw [rowW_ops] at h
                simp only [List.mem_cons, List.not_mem_nil, or_false, reduceCtorEq, false_or,
                  Op.advice.injEq, conf, Fin.isValue, Fin.val_zero, Fin.val_one, Fin.coe_ofNat_eq_mod,
                  Nat.reduceMod] at h
                omega
              · cases h4
                simp only [conf] at h1
                omega
          · have := mem_tailOps x.cs.numSelectors x.calcs s x.mode _ h
            cases this
        · obtain ⟨_, _, _, h⟩ := (mem_finalOps _ _ _).mp hm
          cases h)
    have hzero : (specFlag x.legacy 0 : F) = 0 := by rw [specFlag_small (by norm_num)]; simp
    refine ⟨?_, ?_, ?_⟩
    · rw [newGates_eq lw]
      intro p hp
      rcases List.mem_append.mp hp with hp | hp
      · exact (tableGates_iff x.legacy x.cs.numAdvice x.cs.numFixed x.cs.numSelectors x.qEnable x.hashTable
          x.step g s x.calcs hN hq hσ).mpr
          (hv.eqs (fun j _ => ctl_lt hx j) hx.step_lt hx.STEP_lt hbig hw) p hp
      · exact hchip.1 p hp
    · rw [newLookups_eq lw]
      intro l hl' r hr
      simp only [List.mem_singleton] at hl'
      subst hl'
      have hst : x.STEP < g.usable := by
        have := hfits (.fixed x.cs.numFixed x.STEP (specFlag x.legacy x.STEP))
          ((mem_loadOps x.legacy x.STEP π lw _ _ _ _ _ _ _ _ _ s s' _).mpr
            (Or.inl ((mem_rangeOps _ _ _ _).mpr (Or.inl ⟨x.STEP, le_rfl, rfl⟩))))
        simpa [Op.bottom] using this
      have htab : ∀ i ≤ x.STEP, g.fixed x.cs.numFixed i = specFlag x.legacy i := by
        intro i hi
        rw [hfixed x.cs.numFixed (Or.inr ⟨le_rfl, by omega⟩) i (by omega) (fun _ => by omega)]
        refine (load_range x.legacy x.STEP π lw x.cs.numAdvice x.cs.numFixed x.cs.numSelectors x.qEnable
          x.hashTable x.step (rowAt x.table) x.calcs x.mode hx.enable s s' i).trans ?_
        rw [if_pos hi]
      have hin : (controlRangeInput (F := F) (tcols x.cs.numAdvice x.cs.numFixed x.cs.numSelectors x.qEnable
          x.hashTable)).eval g r = (view x.cs.numAdvice x.hashTable g).head r *
            (view x.cs.numAdvice x.hashTable g).ctrl (g.rot r (-1)) := by
        simp only [controlRangeInput, tcols, Expr.eval_mul, Expr.eval_advice, g.rot_zero (by omega : r < g.n)]
        rfl
      have hzr : (view x.cs.numAdvice x.hashTable g).head r = 0 → ∃ r' < g.usable,
          (controlRangeInput (F := F) (tcols x.cs.numAdvice x.cs.numFixed x.cs.numSelectors x.qEnable
            x.hashTable)).eval g r = g.fixed x.cs.numFixed r' := by
        intro h
        refine ⟨0, by omega, ?_⟩
        rw [hin, h, zero_mul, htab 0 (by omega), hzero]
      by_cases hrow : s < r ∧ r ≤ s + x.calcs
      · obtain ⟨j, rfl⟩ : ∃ j, r = s + (j + 1) := ⟨r - s - 1, by omega⟩
        have hj : j < x.calcs := by omega
        by_cases hnew : (seq x.legacy x.STEP π (rowAt x.table) j).isNew = true
        · have hh1 : (view x.cs.numAdvice x.hashTable g).head (s + (j + 1)) = 1 := by
            rw [hv.head j hj, if_pos hnew]
          have hrot : g.rot (s + (j + 1)) (-1) = s + j :=
            g.rot_of_lt _ (by push_cast; ring) (by omega)
          cases j with
          | zero =>
            refine ⟨0, by omega, ?_⟩
            have h0 : (view x.cs.numAdvice x.hashTable g).ctrl (s + 0) = 0 := hv.ctrl0
            rw [hin, hrot, h0, mul_zero, htab 0 (by omega), hzero]
          | succ j =>
            rw [isNew_succ, decide_eq_true_eq] at hnew
            refine ⟨ctl (rowAt x.table) j, by omega, ?_⟩
            rw [hin, hrot, hh1, one_mul, hv.ctrl j (by omega), htab _ hnew]
        · exact hzr (by rw [hv.head j hj, if_neg hnew])
      · rcases Nat.lt_trichotomy r s with h | rfl | h
        · exact hzr (hout r hr (Or.inl h))
        · exact hzr hv.head0
        · exact hzr (hout r hr (Or.inr (by omega)))
    · rw [hnew]
      exact honest_copies x.legacy x.STEP π lw _ _ _ _ _ _ _ _ _ s s' g hv hchip.2

/-- The honest grid of any placement is accepted exactly for well-formed tables. -/
theorem Placed.honest_iff {lw : x.ch.Lawful π} (hbig : ∀ m : ℕ, m < 2 ^ 200 → (m : F) = 0 → m = 0)
    (hx : x.Legal) {L' : Layouter F} {s : ℕ} {s' : ℕ → ℕ} (hp : Placed lw L' s s')
    {post : List (Op F)} {g : Grid F} (hh : x.Honest L' post g) :
    x.EnabledAfter g s ∧
      HonestView x.legacy x.STEP π (rowAt x.table) (view x.cs.numAdvice x.hashTable g) s x.calcs ∧
      (x.Satisfies L' g ↔ WellFormed x.STEP x.step (rowAt x.table) x.calcs) :=
  hp.nearHonest_iff hbig hx hh.toLaid hh.quietAdvice s (hh.toLaid.enabled lw hx hp.ops_eq)
    fun c hc r hr _ => hh.advice c hc r hr

/-- A grid that is honest up to the digest on the last enabled row is accepted exactly for
well-formed tables. -/
theorem nearHonest_iff (lw : x.ch.Lawful π) (hbig : ∀ m : ℕ, m < 2 ^ 200 → (m : F) = 0 → m = 0)
    (hx : x.Legal) (hn : x.native = fun s => .ok (π s)) {L' : Layouter F}
    (hload : x.Loads L') {post : List (Op F)} {g : Grid F} (hl : x.Laid L' post g)
    (hquiet : ∀ c r v, Op.advice c r v ∈ x.before.ops ++ post → ¬ x.AdviceCol c) (s₀ : ℕ)
    (hen₀ : x.EnabledAfter g s₀)
    (hadv₀ : ∀ c, x.AdviceCol c → ∀ r < g.usable, (c = x.hashTable 0 → 0 < x.calcs → r ≠ s₀ + x.calcs) →
      g.advice c r = finalAdvice (L'.ops ++ post) c r) :
    ∃ s, x.EnabledAfter g s ∧ (x.load = .ok L' → x.Fresh → s = 0) ∧
      HonestView x.legacy x.STEP π (rowAt x.table) (view x.cs.numAdvice x.hashTable g) s x.calcs ∧
      (x.Satisfies L' g ↔ WellFormed x.STEP x.step (rowAt x.table) x.calcs) := by
  obtain ⟨s, s', hp, hf⟩ := hload.placed lw hx hn
  have := hp.nearHonest_iff hbig hx hl hquiet s₀ hen₀ hadv₀
  exact ⟨s, this.1, hf, this.2⟩

/-- The honest grid is accepted exactly for well-formed tables. -/
theorem honest_iff (lw : x.ch.Lawful π) (hbig : ∀ m : ℕ, m < 2 ^ 200 → (m : F) = 0 → m = 0)
    (hx : x.Legal) (hn : x.native = fun s => .ok (π s)) {L' : Layouter F}
    (hload : x.Loads L') {post : List (Op F)} {g : Grid F} (hh : x.Honest L' post g) :
    ∃ s, x.EnabledAfter g s ∧ (x.load = .ok L' → x.Fresh → s = 0) ∧
      HonestView x.legacy x.STEP π (rowAt x.table) (view x.cs.numAdvice x.hashTable g) s x.calcs ∧
      (x.Satisfies L' g ↔ WellFormed x.STEP x.step (rowAt x.table) x.calcs) := by
  obtain ⟨s, s', hp, -⟩ := hload.placed lw hx hn
  exact nearHonest_iff lw hbig hx hn hload hh.toLaid hh.quietAdvice s (hh.toLaid.enabled lw hx hp.ops_eq)
    fun c hc r hr _ => hh.advice c hc r hr

/-- An empty circuit has an honest grid. -/
theorem exists_honest {L' : Layouter F} (hb : x.before.ops = []) :
    ∃ g, x.Honest L' [] g := by
  obtain ⟨B, hB⟩ : ∃ B, ∀ o ∈ x.newOps L', o.bottom ≤ B := by
    generalize x.newOps L' = l
    induction l with
    | nil => exact ⟨0, by simp⟩
    | cons o l ih =>
      obtain ⟨B, hB⟩ := ih
      refine ⟨max B o.bottom, fun o' ho' => ?_⟩
      rcases List.mem_cons.mp ho' with rfl | h
      · omega
      · have := hB o' h; omega
  exact ⟨⟨B, B, finalAdvice L'.ops, finalFixed L'.ops, finalSelector L'.ops⟩,
    ⟨le_rfl, hB, by simp [hb], by simp [hb], by simp, by simp⟩, by simp [hb], by simp⟩

/-- The grid with another digest on row `r`. -/
def setDigest (x : Run F) (g : Grid F) (r : ℕ) (d : F) : Grid F :=
  { g with advice := fun c r' => if c = x.hashTable 0 ∧ r' = r then d else g.advice c r' }

/-- The digest of the last enabled row can be replaced in any accepted grid. -/
theorem satisfies_setDigest (lw : x.ch.Lawful π) (hx : x.Legal) (hn : x.native = fun s => .ok (π s))
    {L' : Layouter F} (hload : x.Loads L') {post : List (Op F)} {g : Grid F} (hl : x.Laid L' post g)
    (hs : x.Satisfies L' g) {s : ℕ} (hen : x.EnabledAfter g s) (h0 : 0 < x.calcs) (d : F) :
    x.Laid L' post (x.setDigest g (s + x.calcs) d) ∧
      x.Satisfies L' (x.setDigest g (s + x.calcs) d) := by
  obtain ⟨s₂, s', ⟨-, ho⟩, hf⟩ := hload.placed lw hx hn
  have hen₂ := hl.enabled lw hx ho
  have hun := hl.usable_le
  obtain rfl : s₂ = s := hen₂.unique hun hen h0
  obtain ⟨s₃, hen₃, -, R⟩ := rows lw hx hn hload hl hs
  obtain rfl : s₃ = s₂ := hen₃.unique hun hen h0
  generalize hg' : x.setDigest g (s₃ + x.calcs) d = g'
  have hn' : g.n = g'.n := by rw [← hg']; rfl
  have hu' : g.usable = g'.usable := by rw [← hg']; rfl
  have hfx : g.fixed = g'.fixed := by rw [← hg']; rfl
  have hsl : g.selector = g'.selector := by rw [← hg']; rfl
  have hcol : ∀ c, c ≠ x.hashTable 0 → g'.advice c = g.advice c := by
    intro c hc
    rw [← hg']
    funext r
    simp only [setDigest]
    rw [if_neg (fun h => hc h.1)]
  have hrow : ∀ c r, r ≠ s₃ + x.calcs → g'.advice c r = g.advice c r := by
    intro c r hr
    rw [← hg']
    simp only [setDigest]
    rw [if_neg (fun h => hr h.2)]
  have hne : ∀ i : Fin 6, i ≠ 0 → x.hashTable i ≠ x.hashTable 0 := fun i hi h => hi (hx.inj h)
  have hlt := hx.cols 0
  refine ⟨⟨by rw [← hn', ← hu']; exact hl.usable_le, by rw [← hu']; exact hl.fits, hl.quietFixed, hl.quietSel,
    by rw [← hfx, ← hn', ← hu']; exact hl.fixed, by rw [← hsl, ← hn']; exact hl.selector⟩, ?_, ?_, ?_⟩
  · have hgs := hs.gates
    rw [newGates_eq lw] at hgs ⊢
    intro p hp
    rcases List.mem_append.mp hp with hp | hp
    · have hselector := fun c h1 h2 r hr => hl.selector_new lw ho c ((sel_iff lw c).mpr ⟨h1, h2⟩) r hr
      have hσ : ∀ r < g.n, g.selector x.cs.numSelectors r = true ↔ r = s₃ ∨ r = s₃ + x.calcs := by
        intro r hr
        rw [hselector x.cs.numSelectors le_rfl (by omega) r hr]
        exact load_selector _ _ _ _ _ _ _ _ _ _ _ _ _ s₃ s' r
      have hN : s₃ + x.calcs < g.n := by have := hen.1; omega
      obtain ⟨z1, z2, he⟩ := (tableGates_iff x.legacy x.cs.numAdvice x.cs.numFixed x.cs.numSelectors
        x.qEnable x.hashTable x.step g s₃ x.calcs hN hen.2 hσ).mp fun p hp => hgs p (List.mem_append_left _ hp)
      refine (tableGates_iff x.legacy x.cs.numAdvice x.cs.numFixed x.cs.numSelectors
        x.qEnable x.hashTable x.step g' s₃ x.calcs (by rw [← hn']; exact hN) (by rw [← hn', ← hfx]; exact hen.2)
        (by rw [← hn', ← hsl]; exact hσ)).mpr ?_ p hp
      have hv : view x.cs.numAdvice x.hashTable g' =
          { view x.cs.numAdvice x.hashTable g with idx := g'.advice (x.hashTable 0) } := by
        unfold view
        simp only [hcol _ (hne 1 (by decide)), hcol _ (hne 2 (by decide)), hcol _ (hne 3 (by decide)),
          hcol _ (hne 4 (by decide)), hcol _ (hne 5 (by decide)),
          hcol x.cs.numAdvice (by omega), hcol (x.cs.numAdvice + 1) (by omega),
          hcol (x.cs.numAdvice + 2) (by omega), hcol (x.cs.numAdvice + 3) (by omega),
          hcol (x.cs.numAdvice + 4) (by omega), hcol (x.cs.numAdvice + 5) (by omega),
          hcol (x.cs.numAdvice + 6) (by omega), hcol (x.cs.numAdvice + 7) (by omega)]
      rw [hv]
      refine ⟨⟨z1.1, z1.2, z1.3⟩, ⟨z2.1, z2.2, z2.3⟩, fun j hj => ?_⟩
      have e := he j hj
      have hp : g'.advice (x.hashTable 0) (s₃ + j) = (view x.cs.numAdvice x.hashTable g).idx (s₃ + j) :=
        hrow _ _ (by omega)
      refine ⟨e.bool, e.caux, e.contCtrl, e.head, e.step, ?_, ?_, e.in1, e.in2, e.in0, e.in0c⟩
      · by_cases hj' : j + 1 = x.calcs
        · have h1 := R.lastHead h0
          have h2 := e.head
          rw [show s₃ + j + 1 = s₃ + x.calcs by omega] at h2 ⊢
          rw [h1] at h2
          have : (view x.cs.numAdvice x.hashTable g).cont (s₃ + x.calcs) = 0 := by linear_combination -h2
          simp only [this, zero_mul]
        · simp only [hp]
          rw [hrow _ _ (by omega)]
          exact e.same
      · simp only [hp]
        exact e.digest
    · intro e he r hr
      have hw := lw.within _ _ _ p hp e he
      rw [← hw.eval_congr hn' (fun c hc => (hcol c (by omega)).symm) (fun c _ => by rw [hfx])
        (fun c _ => by rw [hsl]) r]
      exact hgs p (List.mem_append_right _ hp) e he r (by rw [hn']; exact hr)
  · have hls := hs.lookups
    rw [newLookups_eq lw] at hls ⊢
    intro l hl' r hr
    simp only [List.mem_singleton] at hl'
    subst hl'
    obtain ⟨r', hr', e⟩ := hls _ (List.mem_singleton.mpr rfl) r (by rw [hu']; exact hr)
    refine ⟨r', by rw [← hu']; exact hr', ?_⟩
    rw [← hfx, ← e]
    have h3 := hcol _ (hne 3 (by decide))
    have h5 := hcol _ (hne 5 (by decide))
    simp only [controlRangeInput, tcols, Expr.eval_mul, Expr.eval_advice, Grid.rot, ← hn', h3, h5]
  · have hcs := hs.copies
    rw [newOps_eq lw ho] at hcs ⊢
    -- no copy touches the digest column
    have hcell : ∀ c : Cell, c.col ≠ .advice (x.hashTable 0) → g'.cell c = g.cell c := by
      rintro ⟨col, r⟩ hc
      cases col with
      | advice i => exact congrFun (hcol i (fun h => hc (by rw [h]))) r
      | fixed i => exact (congrFun (congrFun hfx i) r).symm
    have heq : ∀ c ∈ lw.eqs (x.cs.numAdvice + 8) (x.cs.numFixed + 1) (x.cs.numSelectors + 1),
        c ≠ .advice (x.hashTable 0) := by
      intro c hc h
      rcases lw.eqs_own _ _ _ c hc with ⟨i, rfl, h1, -⟩ | ⟨i, rfl, -⟩
      · cases h; omega
      · cases h
    intro u v hm
    have := hcs u v hm
    suffices hh : u.col ≠ .advice (x.hashTable 0) ∧ v.col ≠ .advice (x.hashTable 0) by
      rw [hcell u hh.1, hcell v hh.2]; exact this
    rcases (mem_loadOps x.legacy x.STEP π lw x.cs.numAdvice x.cs.numFixed x.cs.numSelectors x.qEnable
      x.hashTable x.step (rowAt x.table) x.calcs _ s₃ s' _).mp hm with h | h | h | h | h
    · rcases (mem_rangeOps x.legacy x.STEP x.cs.numFixed _).mp h with ⟨i, hi, h⟩ | h <;> cases h
    · rcases List.mem_append.mp h with h | h
      · rcases (mem_customOps _ s₃ _).mp h with h | ⟨c', h, hc'⟩ <;> cases h
      · obtain ⟨j, hj, h⟩ := (mem_fillOps x.legacy x.STEP π _ s₃ (rowAt x.table) x.calcs _).mp h
        rcases (mem_rowOps _ _ _ _ _ _ _ _ _).mp h with h | ⟨h1, i, h2, h3, h4⟩
        · rw [rowW_ops] at h
          simp only [List.mem_cons, List.not_mem_nil, or_false, reduceCtorEq] at h
        · cases h4
    · have := mem_tailOps x.cs.numSelectors x.calcs s₃ x.mode _ h
      cases this
    · rcases lw.shape _ _ _ _ _ _ h with ⟨_, _, _, e, _⟩ | ⟨_, _, _, e, _⟩ | ⟨_, _, e, _⟩ | ⟨c, r, w, k, e, hw, hc⟩
      · cases e
      · cases e
      · cases e
      · cases e
        refine ⟨heq c hc, ?_⟩
        obtain ⟨j, hj, rfl⟩ := List.mem_iff_getElem.mp hw
        rw [inWords_cell]
        intro h
        fin_cases k <;> (simp at h; try omega)
    · obtain ⟨q', hq', k, e⟩ := (mem_finalOps _ _ _).mp h
      cases e
      obtain ⟨h1, h2⟩ := List.of_mem_zip hq'
      constructor
      · obtain ⟨j, hj, e⟩ := List.mem_iff_getElem.mp h1
        have := outWords_cell x.legacy x.STEP π lw x.cs.numAdvice x.cs.numFixed x.cs.numSelectors x.qEnable
          x.hashTable x.step (rowAt x.table) x.calcs s₃ j hj k
        rw [e] at this
        rw [this]
        intro h
        simp only [Col.advice.injEq] at h
        fin_cases k <;> (simp [outCol] at h; omega)
      · exact heq _ (lw.outs_eq _ _ _ _ _ _ h2 k)

end Circuit.Run
