import Verif.Circuit.TableExact

/-!
# What the floor planner knows after `load`, and the cells of the caller's columns outside the table
-/

set_option linter.unusedVariables false
set_option linter.unusedSectionVars false

open Halo2

namespace Circuit.Run

open Table

variable {F : Type} [Field F] [DecidableEq F] {x : Run F} {π : (Fin 3 → F) → Fin 3 → F}

/-- The first free rows of the caller's columns after `load`. -/
theorem load_ends (lw : x.ch.Lawful π) (hx : x.Legal) (hn : x.native = fun s => .ok (π s)) {L' : Layouter F}
    (h : x.load = .ok L') :
    ∃ s s', L'.ops = x.before.ops ++ ops lw s s' ∧
      (∀ i, L'.colEnd (.advice (x.hashTable i)) = match x.mode with
        | .serial => s + 1 + x.calcs
        | .parallel _ => s + 1) ∧
      L'.colEnd (.fixed x.qEnable) = match x.mode with
        | .serial => if 0 < x.calcs then s + 1 + x.calcs else x.before.colEnd (.fixed x.qEnable)
        | .parallel _ => x.before.colEnd (.fixed x.qEnable) := by
  obtain ⟨h1, h2⟩ := (load_iff lw hx hn).1.mp ⟨L', h⟩
  obtain ⟨s, s', L'', e, o, -, -, -, -, k1, k2⟩ := load_ok x.legacy x.STEP lw x.cs.numAdvice x.cs.numFixed
      x.cs.numSelectors x.qEnable x.hashTable x.step hx.cols hx.enable x.table x.calcs x.mode x.before h1 h2
  have hload : x.load = Circuit.load x.legacy x.STEP (fun s => .ok (π s)) x.ch
      (conf lw x.cs.numAdvice x.cs.numFixed x.cs.numSelectors x.qEnable x.hashTable x.step) x.table
      x.calcs x.mode x.before := by
    unfold load
    rw [configured_eq lw, hn]
  rw [hload, e] at h
  injection h with h
  subst h
  have hq : ¬ OwnCol lw.nA lw.nF lw.nS (x.cs.numAdvice + 8) (x.cs.numFixed + 1) (x.cs.numSelectors + 1)
      (.fixed x.qEnable) := by
    rintro (⟨i, -, h⟩ | ⟨i, -, h⟩ | ⟨i, -, h⟩)
    · cases h
    · injection h with h
      have := hx.enable
      omega
    · cases h
  refine ⟨s, stack lw.height s', o, fun i => ?_, ?_⟩
  · rw [k1 (.advice (x.hashTable i)) ⟨Or.inl ⟨i, rfl⟩, fun h => by cases h⟩]
    cases x.mode with
    | serial => rfl
    | parallel threads =>
      simp only [tableEnd]
      rw [if_neg]
      intro h
      injection h with h
      have := hx.cols i
      simp only [conf] at h
      omega
  · cases hm : x.mode with
    | serial =>
      simp only
      split_ifs with h0
      · rw [k1 (.fixed x.qEnable) ⟨rfl, fun _ => ⟨hm, h0⟩⟩, hm]
        rfl
      · exact k2 _ (fun h => h0 (h.2 rfl).2) hq
    | parallel threads =>
      refine k2 _ (fun h => ?_) hq
      have := (h.2 rfl).1
      rw [hm] at this
      cases this

/-- The equations of the table only look at rows `s` to `s + N`. -/
theorem rows_congr {legacy : Bool} {STEP a : ℕ} {ht : Fin 6 → ℕ} {g g' : Grid F} {K : F} {s N : ℕ}
    (hc : ∀ c r, s ≤ r → r ≤ s + N → g'.advice c r = g.advice c r)
    (R : Rows legacy STEP π (view a ht g) K s N) : Rows legacy STEP π (view a ht g') K s N := by
  have hz : ∀ r, s ≤ r → r ≤ s + N → ZeroRow (view a ht g) r → ZeroRow (view a ht g') r := by
    rintro r h1 h2 ⟨e1, e2, e3⟩
    simp only [view] at e1 e2 e3
    exact ⟨by simp only [view, hc _ r h1 h2, e1], by simp only [view, hc _ r h1 h2, e2],
      by simp only [view, hc _ r h1 h2, e3]⟩
  refine ⟨hz s le_rfl (by omega) R.first, hz _ (by omega) le_rfl R.last, fun j hj => ?_, fun j hj => ?_,
    fun j hj => ?_⟩
  · have h1 := fun c => hc c (s + j) (by omega) (by omega)
    have h2 := fun c => hc c (s + j + 1) (by omega) (by omega)
    obtain ⟨e1, e2, e3, e4, e5, e6, e7, e8, e9, e10, e11⟩ := R.eqs j hj
    simp only [view] at e1 e2 e3 e4 e5 e6 e7 e8 e9 e10 e11
    constructor <;> simp only [view, h1, h2] <;> assumption
  · have h2 := fun c => hc c (s + j + 1) (by omega) (by omega)
    have := R.perm j hj
    simp only [view] at this ⊢
    simp only [h2]
    exact this
  · have h1 := fun c => hc c (s + j) (by omega) (by omega)
    have h2 := fun c => hc c (s + j + 1) (by omega) (by omega)
    have := R.range j hj
    simp only [view] at this ⊢
    simp only [h1, h2]
    exact this

/-- Changing the caller's columns outside the rows of the table keeps an accepted grid accepted exactly if the
range check holds on those rows. -/
theorem satisfies_outside (lw : x.ch.Lawful π) (hx : x.Legal) (hn : x.native = fun s => .ok (π s))
    {L' : Layouter F} (hload : x.Loads L') {post : List (Op F)} {g : Grid F} (hl : x.Laid L' post g)
    (hs : x.Satisfies L' g) {s : ℕ} (hen : x.EnabledAfter g s) (h0 : 0 < x.calcs) {g' : Grid F}
    (hn' : g'.n = g.n) (hu' : g'.usable = g.usable) (hfx : g'.fixed = g.fixed) (hsl : g'.selector = g.selector)
    (hcol : ∀ c, (∀ i, c ≠ x.hashTable i) → g'.advice c = g.advice c)
    (hrow : ∀ i r, s ≤ r → r ≤ s + x.calcs → g'.advice (x.hashTable i) r = g.advice (x.hashTable i) r) :
    x.Satisfies L' g' ↔ ∀ r < g.usable, ¬ (s < r ∧ r ≤ s + x.calcs) → ∃ i ≤ x.STEP,
      g'.advice (x.hashTable 5) r * g'.advice (x.hashTable 3) (g.rot r (-1)) = specFlag x.legacy i := by
  constructor
  · intro hs' r hr hr'
    have hl' : x.Laid L' post g' := ⟨by rw [hn', hu']; exact hl.usable_le, by rw [hu']; exact hl.fits,
      hl.quietFixed, hl.quietSel, by rw [hfx, hn', hu']; exact hl.fixed, by rw [hsl, hn']; exact hl.selector⟩
    have := range_everywhere lw hx hn hload hl' hs' r (by rw [hu']; exact hr)
    have hrot : g'.rot r (-1) = g.rot r (-1) := by rw [Grid.rot, Grid.rot, hn']
    rwa [hrot] at this
  · intro hr
    obtain ⟨s₃, hen₃, -, R⟩ := rows lw hx hn hload hl hs
    obtain rfl : s₃ = s := hen₃.unique hl.usable_le hen h0
    refine (satisfies_replace lw hx hn hload hl hs hen h0 hn'.symm hu'.symm hfx.symm hsl.symm
      (fun c h _ => hcol c fun i e => ?_) (fun c h => hcol c fun i e => ?_) hr (rows_congr (fun c r h1 h2 => ?_) R)).2
    · have := hx.cols i; omega
    · have := hx.cols i; omega
    · by_cases hc : ∃ i, c = x.hashTable i
      · obtain ⟨i, rfl⟩ := hc
        exact hrow i r h1 h2
      · rw [hcol c fun i e => hc ⟨i, e⟩]

end Circuit.Run
