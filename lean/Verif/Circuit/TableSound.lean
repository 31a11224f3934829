import Verif.Circuit.TableTrace
import Verif.Spec

/-!
# Soundness of the hash table: what the constraints imply
-/

set_option linter.unusedVariables false
set_option linter.unusedSectionVars false
set_option linter.unusedSimpArgs false

open Halo2

namespace Circuit.Table

variable {F : Type} [Field F] [DecidableEq F] (legacy : Bool) (STEP : ℕ)
  (π : (Fin 3 → F) → Fin 3 → F)

/-- The constraints on a table of `N` enabled rows below row `s`. -/
structure Rows (v : View F) (K : F) (s N : ℕ) : Prop where
  first : ZeroRow v s
  last : ZeroRow v (s + N)
  eqs : ∀ j < N, RowEqs v K (s + j) (s + j + 1)
  perm : ∀ j < N, v.out (s + j + 1) = π (v.inp (s + j + 1))
  range : ∀ j < N, ∃ i ≤ STEP, v.head (s + j + 1) * v.ctrl (s + j) = specFlag legacy i

section Accept
variable {ch : Chip F 3} (lw : ch.Lawful π) (a f σ q : ℕ) (ht : Fin 6 → ℕ) (step : ℕ)
  (row : ℕ → RowData F) (N : ℕ) (mode : LoadMode)

theorem inWords_eq (s : ℕ) : inWords legacy STEP π lw a f σ q ht step row N s =
    (List.range N).map fun j =>
      (rowW legacy π (conf lw a f σ q ht step) s (j + 1) (seq legacy STEP π row j) (row j)).val.1 := by
  rw [inWords, tablePairs_eq, List.map_map]
  rfl

theorem outWords_eq (s : ℕ) : outWords legacy STEP π lw a f σ q ht step row N s =
    (List.range N).map fun j =>
      (rowW legacy π (conf lw a f σ q ht step) s (j + 1) (seq legacy STEP π row j) (row j)).val.2 := by
  rw [outWords, tablePairs_eq, List.map_map]
  rfl

theorem length_inWords (s : ℕ) : (inWords legacy STEP π lw a f σ q ht step row N s).length = N := by
  simp [inWords, tablePairs_eq]

theorem inWords_cell (s j : ℕ) (hj : j < (inWords legacy STEP π lw a f σ q ht step row N s).length)
    (k : Fin 3) : ((inWords legacy STEP π lw a f σ q ht step row N s)[j] k).cell =
      ⟨.advice (a + k), s + (j + 1)⟩ := by
  have h : (inWords legacy STEP π lw a f σ q ht step row N s)[j] =
      (rowW legacy π (conf lw a f σ q ht step) s (j + 1) (seq legacy STEP π row j) (row j)).val.1 := by
    rw [List.getElem_of_eq (inWords_eq legacy STEP π lw a f σ q ht step row N s) hj, List.getElem_map,
      List.getElem_range]
  rw [h, rowW_val]
  fin_cases k <;> rfl

theorem length_outWords (s : ℕ) : (outWords legacy STEP π lw a f σ q ht step row N s).length = N := by
  simp [outWords, tablePairs_eq]

/-- Column of output word `k`. -/
def outCol (a : ℕ) : Fin 3 → ℕ := ![a + 5, a + 3, a + 4]

theorem outWords_cell (s j : ℕ) (hj : j < (outWords legacy STEP π lw a f σ q ht step row N s).length)
    (k : Fin 3) : ((outWords legacy STEP π lw a f σ q ht step row N s)[j] k).cell =
      ⟨.advice (outCol a k), s + (j + 1)⟩ := by
  have h : (outWords legacy STEP π lw a f σ q ht step row N s)[j] =
      (rowW legacy π (conf lw a f σ q ht step) s (j + 1) (seq legacy STEP π row j) (row j)).val.2 := by
    rw [List.getElem_of_eq (outWords_eq legacy STEP π lw a f σ q ht step row N s) hj, List.getElem_map,
      List.getElem_range]
  rw [h, rowW_val]
  fin_cases k <;> rfl

theorem view_inp (g : Grid F) (r : ℕ) (k : Fin 3) : (view a ht g).inp r k = g.advice (a + k) r := by
  fin_cases k <;> rfl

theorem view_out (g : Grid F) (r : ℕ) (k : Fin 3) : (view a ht g).out r k = g.advice (outCol a k) r := by
  fin_cases k <;> rfl

/-- The permutation constraints. -/
theorem perm_of_copies (s : ℕ) (s' : ℕ → ℕ) (g : Grid F) (hap : RowsApart lw.height N s')
    (hfit : Fits (lw.ops (a + 8) (f + 1) (σ + 1) (inWords legacy STEP π lw a f σ q ht step row N s) s') g.n)
    (hfix : ∀ c, f + 1 ≤ c → c < f + 1 + lw.nF → ∀ r < g.n, g.fixed c r =
      finalFixed (loadOps legacy STEP π lw a f σ q ht step ((List.range N).map row)
        (tailOps σ s N mode) s s') c r)
    (hsel : ∀ c, σ + 1 ≤ c → c < σ + 1 + lw.nS → ∀ r < g.n, g.selector c r =
      finalSelector (loadOps legacy STEP π lw a f σ q ht step ((List.range N).map row)
        (tailOps σ s N mode) s s') c r)
    (hq : q < f)
    (hcp : CopiesHold g (loadOps legacy STEP π lw a f σ q ht step ((List.range N).map row)
        (tailOps σ s N mode) s s'))
    (hg : ∀ p ∈ lw.gates (a + 8) (f + 1) (σ + 1), p.Holds g) (j : ℕ) (hj : j < N) :
    (view a ht g).out (s + j + 1) = π ((view a ht g).inp (s + j + 1)) := by
  have hs := lw.sound (a + 8) (f + 1) (σ + 1) (inWords legacy STEP π lw a f σ q ht step row N s) s' g
    (by rw [length_inWords]; exact hap) hfit
    (fun c h1 h2 r hr => by
      rw [hfix c h1 h2 r hr, load_chipFixed legacy STEP π lw a f σ q ht step row N mode hq s s' c r h1])
    (fun c h1 h2 r hr => by
      rw [hsel c h1 h2 r hr, load_chipSelector legacy STEP π lw a f σ q ht step row N mode s s' c r h1])
    (fun x y hm => hcp x y ((mem_loadOps legacy STEP π lw a f σ q ht step row N _ s s' _).mpr
      (Or.inr (Or.inr (Or.inr (Or.inl hm))))))
    hg
  have hlen := hs.length_eq
  rw [length_inWords] at hlen
  have hget := (List.forall₂_iff_get.mp hs).2 j (by rw [length_inWords]; exact hj) (by rw [← hlen]; exact hj)
  simp only [List.get_eq_getElem] at hget
  funext k
  have hk := hget k
  have hj1 : j < (outWords legacy STEP π lw a f σ q ht step row N s).length := by
    rw [length_outWords]; exact hj
  have hj2 : j < (lw.outs (a + 8) (f + 1) (σ + 1)
      (inWords legacy STEP π lw a f σ q ht step row N s) s').length := by rw [← hlen]; exact hj
  have hfin : g.cell ((outWords legacy STEP π lw a f σ q ht step row N s)[j] k).cell =
      g.cell ((lw.outs (a + 8) (f + 1) (σ + 1)
        (inWords legacy STEP π lw a f σ q ht step row N s) s')[j] k).cell := by
    refine hcp _ _ ((mem_loadOps legacy STEP π lw a f σ q ht step row N _ s s' _).mpr
      (Or.inr (Or.inr (Or.inr (Or.inr ((mem_finalOps _ _ _).mpr
        ⟨((outWords legacy STEP π lw a f σ q ht step row N s)[j],
          (lw.outs (a + 8) (f + 1) (σ + 1)
            (inWords legacy STEP π lw a f σ q ht step row N s) s')[j]), ?_, k, rfl⟩))))))
    rw [List.mem_iff_getElem]
    refine ⟨j, ?_, ?_⟩
    · rw [List.length_zip, length_outWords, ← hlen, min_self]; exact hj
    · simp only [List.getElem_zip]
  rw [hk, outWords_cell] at hfin
  simp only [inWords_cell] at hfin
  rw [view_out]
  refine hfin.trans ?_
  congr 1
  funext k'
  rw [view_inp]
  rfl

/-- From the constraints on the grid to the constraints on rows. -/
theorem rows_of_grid (s : ℕ) (s' : ℕ → ℕ) (g : Grid F) (hap : RowsApart lw.height N s')
    (hun : g.usable ≤ g.n) (hq : q < f)
    (hfit : Fits (loadOps legacy STEP π lw a f σ q ht step ((List.range N).map row)
        (tailOps σ s N mode) s s') g.usable)
    (hfix : ∀ c, c = q ∨ (f ≤ c ∧ c < f + 1 + lw.nF) → ∀ r < g.n, (c = f → r < g.usable) → g.fixed c r =
      finalFixed (loadOps legacy STEP π lw a f σ q ht step ((List.range N).map row)
        (tailOps σ s N mode) s s') c r)
    (hsel : ∀ c, σ ≤ c → c < σ + 1 + lw.nS → ∀ r < g.n, g.selector c r =
      finalSelector (loadOps legacy STEP π lw a f σ q ht step ((List.range N).map row)
        (tailOps σ s N mode) s s') c r)
    (hcp : CopiesHold g (loadOps legacy STEP π lw a f σ q ht step ((List.range N).map row)
        (tailOps σ s N mode) s s'))
    (hg : ∀ p ∈ tableGates legacy a f σ q ht step, p.Holds g)
    (hl : (⟨"control range check", controlRangeInput (tcols a f σ q ht), f⟩ : Lookup F).Holds g)
    (hg' : ∀ p ∈ lw.gates (a + 8) (f + 1) (σ + 1), p.Holds g) :
    s + N < g.usable ∧ Rows legacy STEP π (view a ht g) (specFlag legacy step) s N := by
  have hs : s + N < g.usable := by
    have hm : Op.selector σ (s + N) ∈ loadOps legacy STEP π lw a f σ q ht step ((List.range N).map row)
        (tailOps σ s N mode) s s' := by
      rw [← finalSelector_iff]
      exact (load_selector legacy STEP π lw a f σ q ht step row N mode s s' _).mpr (Or.inr rfl)
    have := hfit _ hm
    simp only [Op.bottom] at this
    omega
  have hqv : ∀ r < g.n, g.fixed q r = if s < r ∧ r ≤ s + N then 1 else 0 := by
    intro r hr
    rw [hfix q (Or.inl rfl) r hr (fun e => absurd e (by omega)), load_qEnable legacy STEP π lw a f σ q ht step row N mode hq]
  have hσ : ∀ r < g.n, g.selector σ r = true ↔ r = s ∨ r = s + N := by
    intro r hr
    rw [hsel σ le_rfl (by omega) r hr, load_selector]
  obtain ⟨h1, h2, h3⟩ := (tableGates_iff legacy a f σ q ht step g s N (by omega) hqv hσ).mp hg
  refine ⟨hs, h1, h2, h3, fun j hj => ?_, fun j hj => ?_⟩
  · refine perm_of_copies legacy STEP π lw a f σ q ht step row N mode s s' g hap ?_ ?_ ?_ hq hcp hg' j hj
    · intro o ho
      have := hfit o ((mem_loadOps legacy STEP π lw a f σ q ht step row N _ s s' o).mpr
        (Or.inr (Or.inr (Or.inr (Or.inl ho)))))
      omega
    · intro c h1 h2 r hr
      exact hfix c (Or.inr ⟨by omega, h2⟩) r hr (fun e => absurd e (by omega))
    · intro c h1 h2
      exact hsel c (by omega) h2
  · obtain ⟨r', hr', e⟩ := hl (s + j + 1) (by omega)
    rw [show (g.fixed _ r') = _ from hfix f (Or.inr ⟨le_rfl, by omega⟩) r' (by omega) (fun _ => hr'),
      load_range legacy STEP π lw a f σ q ht step row N mode hq] at e
    refine ⟨if r' ≤ STEP then r' else 0, ?_, ?_⟩
    · split <;> omega
    · rw [← e]
      simp only [controlRangeInput, tcols, Expr.eval_mul, Expr.eval_advice]
      rw [g.rot_zero (by omega), g.rot_of_lt (s + j) (by push_cast; ring) (by omega)]
      rfl

end Accept

/-! ## Consequences -/

variable {legacy STEP π} {v : View F} {K : F} {s N : ℕ} (R : Rows legacy STEP π v K s N)
include R

theorem Rows.flag (j : ℕ) (hj : j < N) :
    (v.cont (s + j + 1) = 0 ∧ v.head (s + j + 1) = 1) ∨
      (v.cont (s + j + 1) = 1 ∧ v.head (s + j + 1) = 0) := by
  have e := R.eqs j hj
  have hh := e.head
  rcases mul_eq_zero.mp e.bool with h | h
  · left
    refine ⟨h, ?_⟩
    rw [h] at hh
    linear_combination -hh
  · right
    have h1 : v.cont (s + j + 1) = 1 := by linear_combination -h
    refine ⟨h1, ?_⟩
    rw [h1] at hh
    linear_combination -hh

/-- Heads and continuations. -/
theorem Rows.headRow (j : ℕ) (hj : j < N) (h : v.head (s + j + 1) = 1) :
    v.cont (s + j + 1) = 0 := by
  rcases R.flag j hj with ⟨h1, h2⟩ | ⟨h1, h2⟩
  · exact h1
  · rw [h2] at h; exact absurd h (by simp)

theorem Rows.contRow (j : ℕ) (hj : j < N) (h : v.head (s + j + 1) = 0) :
    v.cont (s + j + 1) = 1 ∧ v.ctrl (s + j + 1) ≠ 0 ∧ v.ctrl (s + j + 1) + K = v.ctrl (s + j) ∧
      v.idx (s + j + 1) = v.idx (s + j) := by
  rcases R.flag j hj with ⟨h1, h2⟩ | ⟨h1, h2⟩
  · rw [h2] at h; exact absurd h (by simp)
  · have e := R.eqs j hj
    refine ⟨h1, fun h0 => ?_, ?_, ?_⟩
    · have := e.contCtrl
      rw [h1, h0] at this
      simp at this
    · have := e.step
      rw [h1] at this
      linear_combination this
    · have := e.same
      rw [h1] at this
      linear_combination this

/-- The row before a head: digest and control range. -/
theorem Rows.endRow (j : ℕ) (hj : j < N) (h : v.head (s + j + 1) = 1) :
    v.idx (s + j) = v.out (s + j) 0 ∧ ∃ i ≤ STEP, v.ctrl (s + j) = specFlag legacy i := by
  have e := (R.eqs j hj).digest
  rw [R.headRow j hj h] at e
  refine ⟨by linear_combination -e, ?_⟩
  obtain ⟨i, hi, hr⟩ := R.range j hj
  refine ⟨i, hi, ?_⟩
  rw [← hr, h, one_mul]

theorem Rows.lastHead (h : 0 < N) : v.head (s + N) = 1 := by
  obtain ⟨j, rfl⟩ : ∃ j, N = j + 1 := ⟨N - 1, by omega⟩
  rcases R.flag j (by omega) with ⟨-, h2⟩ | ⟨-, h2⟩
  · exact h2
  · exact absurd R.last.ctrl (R.contRow j (by omega) h2).2.1

/-- From row `a` on, as long as the rows are continuations, the control counts down by `K`. -/
theorem Rows.countdown (a m : ℕ) (h : a + m ≤ N) (hc : ∀ j, a < j → j ≤ a + m → v.head (s + j) = 0) :
    v.ctrl (s + (a + m)) + m * K = v.ctrl (s + a) := by
  induction m with
  | zero => simp
  | succ m ih =>
    have h1 := ih (by omega) fun j h1 h2 => hc j h1 (by omega)
    have h2 := (R.contRow (a + m) (by omega) (hc (a + m + 1) (by omega) (by omega))).2.2.1
    have e : s + (a + (m + 1)) = s + (a + m) + 1 := by omega
    rw [e]
    push_cast
    linear_combination h1 + h2

omit R in
/-- Every row before the last one has a next head. -/
theorem exists_next (P : ℕ → Prop) (a N : ℕ) (h : a < N) (hN : P N) :
    ∃ b, a ≤ b ∧ b < N ∧ P (b + 1) ∧ ∀ j, a < j → j ≤ b → ¬ P j := by
  classical
  have hex : ∃ m, P (a + 1 + m) := ⟨N - a - 1, by rw [show a + 1 + (N - a - 1) = N by omega]; exact hN⟩
  refine ⟨a + Nat.find hex, by omega, ?_, ?_, ?_⟩
  · have : Nat.find hex ≤ N - a - 1 := Nat.find_min' hex (by
      rw [show a + 1 + (N - a - 1) = N by omega]; exact hN)
    omega
  · have := Nat.find_spec hex
    rwa [show a + Nat.find hex + 1 = a + 1 + Nat.find hex by omega]
  · intro j h1 h2 hp
    refine Nat.find_min hex (m := j - a - 1) (by omega) ?_
    rwa [show a + 1 + (j - a - 1) = j by omega]

/-- The block that contains row `a < N`. -/
theorem Rows.next (a : ℕ) (h : a < N) :
    ∃ b, a ≤ b ∧ b < N ∧ v.head (s + b + 1) = 1 ∧ ∀ j, a < j → j ≤ b → v.head (s + j) = 0 := by
  obtain ⟨b, h1, h2, h3, h4⟩ := exists_next (fun j => v.head (s + j) = 1) a N h (R.lastHead (by omega))
  refine ⟨b, h1, h2, h3, fun j hj1 hj2 => ?_⟩
  have := h4 j hj1 hj2
  obtain ⟨i, rfl⟩ : ∃ i, j = i + 1 := ⟨j - 1, by omega⟩
  rcases R.flag i (by omega) with ⟨-, h⟩ | ⟨-, h⟩
  · exact absurd h this
  · exact h

omit R in
/-- The flags of small numbers do not wrap. -/
theorem specFlag_small {x : ℕ} (h : x < 2 ^ 64) :
    (specFlag legacy x : F) = ((x * Base.domainSpec legacy : ℕ) : F) := by
  unfold specFlag
  rw [Nat.mod_eq_of_lt]
  unfold Base.domainSpec
  split <;> omega

/-- A row with control 0 is not continued. -/
theorem Rows.zeroCtrl (hbig : ∀ m : ℕ, m < 2 ^ 200 → (m : F) = 0 → m = 0) {step : ℕ}
    (hK : K = specFlag legacy step) (hstep : step < 2 ^ 64) (hSTEP : STEP < 2 ^ 64) (hN : N < 2 ^ 64)
    (a : ℕ) (ha : a < N) (h0 : v.ctrl (s + a) = 0) : v.head (s + a + 1) = 1 := by
  obtain ⟨b, h1, h2, h3, h4⟩ := R.next a ha
  rcases Nat.eq_or_lt_of_le h1 with rfl | hlt
  · exact h3
  exfalso
  have hcd := R.countdown a (b - a) (by omega) fun j hj1 hj2 => h4 j hj1 (by omega)
  rw [h0, show a + (b - a) = b by omega] at hcd
  obtain ⟨i, hi, hc⟩ := (R.endRow b h2 h3).2
  have hne : v.ctrl (s + b) ≠ 0 := by
    obtain ⟨b', rfl⟩ : ∃ b', b = b' + 1 := ⟨b - 1, by omega⟩
    exact (R.contRow b' (by omega) (h4 (b' + 1) (by omega) le_rfl)).2.1
  rw [hc] at hcd hne
  rw [hK, specFlag_small (by omega : i < 2 ^ 64), specFlag_small hstep] at hcd
  have hsum : ((i * Base.domainSpec legacy + (b - a) * (step * Base.domainSpec legacy) : ℕ) : F) = 0 := by
    push_cast [Nat.cast_sub h1] at hcd ⊢
    exact hcd
  have hd : Base.domainSpec legacy ≤ 2 ^ 64 := by unfold Base.domainSpec; split <;> omega
  have hlt2 : i * Base.domainSpec legacy + (b - a) * (step * Base.domainSpec legacy) < 2 ^ 200 := by
    have e1 : i * Base.domainSpec legacy ≤ 2 ^ 64 * 2 ^ 64 := Nat.mul_le_mul (by omega) hd
    have e2 : (b - a) * (step * Base.domainSpec legacy) ≤ 2 ^ 64 * (2 ^ 64 * 2 ^ 64) :=
      Nat.mul_le_mul (by omega) (Nat.mul_le_mul (by omega) hd)
    omega
  have hz := hbig _ hlt2 hsum
  have hz1 : i * Base.domainSpec legacy = 0 := by omega
  apply hne
  rw [specFlag_small (by omega : i < 2 ^ 64), hz1, Nat.cast_zero]

/-- The first row is a head. -/
theorem Rows.firstHead (hbig : ∀ m : ℕ, m < 2 ^ 200 → (m : F) = 0 → m = 0) {step : ℕ}
    (hK : K = specFlag legacy step) (hstep : step < 2 ^ 64) (hSTEP : STEP < 2 ^ 64) (hN : N < 2 ^ 64)
    (h : 0 < N) : v.head (s + 1) = 1 :=
  R.zeroCtrl hbig hK hstep hSTEP hN 0 h R.first.ctrl

/-- Controls inside a block, in terms of its last one. -/
theorem Rows.controls (a b : ℕ) (hab : a ≤ b) (hb : b < N) (h1 : v.head (s + b + 1) = 1)
    (hc : ∀ j, a < j → j ≤ b → v.head (s + j) = 0) :
    ∃ i ≤ STEP, (a < b → (specFlag legacy i : F) ≠ 0) ∧
      ∀ j, a ≤ j → j ≤ b → v.ctrl (s + j) = specFlag legacy i + (b - j : ℕ) * K := by
  obtain ⟨i, hi, e⟩ := (R.endRow b hb h1).2
  refine ⟨i, hi, fun hlt => ?_, fun j h1 h2 => ?_⟩
  · rw [← e]
    obtain ⟨b', rfl⟩ : ∃ b', b = b' + 1 := ⟨b - 1, by omega⟩
    exact (R.contRow b' (by omega) (hc (b' + 1) hlt le_rfl)).2.1
  · have := R.countdown j (b - j) (by omega) fun i h3 h4 => hc i (by omega) (by omega)
    rw [show j + (b - j) = b by omega, e] at this
    exact this.symm

/-- The rows `a, ..., a + m - 1` as rows to absorb. -/
def blockRows (v : View F) (a m : ℕ) : List (F × F × F) :=
  (List.range m).map fun i => (v.dom (a + i), v.w0 (a + i), v.w1 (a + i))

omit R in
theorem absorbRows_append (p : F × F × F → F × F × F) (st : F × F × F) (r1 r2 : List (F × F × F)) :
    Spec.absorbRows p st (r1 ++ r2) = Spec.absorbRows p (Spec.absorbRows p st r1) r2 := by
  induction r1 generalizing st with
  | nil => rfl
  | cons x r1 ih =>
    obtain ⟨c, x', y'⟩ := st
    obtain ⟨d, a, b⟩ := x
    simp only [List.cons_append, Spec.absorbRows, ih]

/-- State after absorbing rows `a..a+m` of a block. -/
theorem Rows.state (a m : ℕ) (ham : a + m < N) (hh : v.head (s + a + 1) = 1)
    (hc : ∀ j, a < j → j ≤ a + m → v.head (s + j + 1) = 0) :
    (v.out (s + (a + m) + 1) 0, v.out (s + (a + m) + 1) 1, v.out (s + (a + m) + 1) 2) =
      Spec.absorbRows (Spec.onTriples π) (v.ctrl (s + a + 1), 0, 0) (blockRows v (s + a + 1) (m + 1)) := by
  induction m with
  | zero =>
    have e := R.eqs a (by omega)
    have h0 := R.headRow a (by omega) hh
    have i0 : v.inp (s + a + 1) 0 = v.ctrl (s + a + 1) + v.dom (s + a + 1) := by
      have := e.in0; rw [h0] at this; linear_combination this
    have i1 : v.inp (s + a + 1) 1 = 0 + v.w0 (s + a + 1) := by
      have := e.in1; rw [h0] at this; linear_combination -this
    have i2 : v.inp (s + a + 1) 2 = 0 + v.w1 (s + a + 1) := by
      have := e.in2; rw [h0] at this; linear_combination -this
    have hi : v.inp (s + a + 1) = ![v.ctrl (s + a + 1) + v.dom (s + a + 1), 0 + v.w0 (s + a + 1),
        0 + v.w1 (s + a + 1)] := by
      funext k; fin_cases k
      · exact i0
      · exact i1
      · exact i2
    simp only [blockRows, List.range_succ, List.range_zero, List.nil_append, List.map_cons,
      List.map_nil, Spec.absorbRows, Spec.onTriples, Nat.add_zero, ← hi, ← R.perm a (by omega)]
  | succ m ih =>
    have ih := ih (by omega) fun j h1 h2 => hc j h1 (by omega)
    have e := R.eqs (a + (m + 1)) (by omega)
    have h1 := (R.contRow (a + (m + 1)) (by omega) (hc (a + (m + 1)) (by omega) le_rfl)).1
    have i0 : v.inp (s + (a + (m + 1)) + 1) 0 = v.out (s + (a + m) + 1) 0 + v.dom (s + (a + (m + 1)) + 1) := by
      have := e.in0c; rw [h1] at this; linear_combination this
    have i1 : v.inp (s + (a + (m + 1)) + 1) 1 = v.out (s + (a + m) + 1) 1 + v.w0 (s + (a + (m + 1)) + 1) := by
      have := e.in1; rw [h1] at this; linear_combination -this
    have i2 : v.inp (s + (a + (m + 1)) + 1) 2 = v.out (s + (a + m) + 1) 2 + v.w1 (s + (a + (m + 1)) + 1) := by
      have := e.in2; rw [h1] at this; linear_combination -this
    have hi : v.inp (s + (a + (m + 1)) + 1) = ![v.out (s + (a + m) + 1) 0 + v.dom (s + (a + (m + 1)) + 1),
        v.out (s + (a + m) + 1) 1 + v.w0 (s + (a + (m + 1)) + 1),
        v.out (s + (a + m) + 1) 2 + v.w1 (s + (a + (m + 1)) + 1)] := by
      funext k; fin_cases k
      · exact i0
      · exact i1
      · exact i2
    have hb : blockRows v (s + a + 1) (m + 1 + 1) = blockRows v (s + a + 1) (m + 1) ++
        [(v.dom (s + (a + (m + 1)) + 1), v.w0 (s + (a + (m + 1)) + 1), v.w1 (s + (a + (m + 1)) + 1))] := by
      unfold blockRows
      rw [List.range_succ (n := m + 1), List.map_append]
      simp only [List.map_cons, List.map_nil]
      rw [show s + a + 1 + (m + 1) = s + (a + (m + 1)) + 1 by omega]
    rw [hb, absorbRows_append, ← ih]
    simp only [Spec.absorbRows, Spec.onTriples, ← hi, ← R.perm (a + (m + 1)) (by omega)]

/-- All rows of a block carry its digest. -/
theorem Rows.digest (a m : ℕ) (ham : a + m + 1 < N) (hh : v.head (s + a + 1) = 1)
    (hc : ∀ j, a < j → j ≤ a + m → v.head (s + j + 1) = 0) (hend : v.head (s + (a + m + 1) + 1) = 1)
    (j : ℕ) (hj : j ≤ m) :
    v.idx (s + (a + j) + 1) =
      Spec.rowsDigest (Spec.onTriples π) (v.ctrl (s + a + 1)) (blockRows v (s + a + 1) (m + 1)) := by
  have hst := R.state a m (by omega) hh hc
  have hlast : v.idx (s + (a + m + 1)) = v.out (s + (a + m + 1)) 0 := (R.endRow (a + m + 1) ham hend).1
  have hall : ∀ i, i ≤ m → v.idx (s + (a + (m - i)) + 1) = v.idx (s + (a + m + 1)) := by
    intro i
    induction i with
    | zero => intro _; rfl
    | succ i ih =>
      intro hi
      rw [← ih (by omega)]
      have := (R.contRow (a + (m - i)) (by omega) (hc (a + (m - i)) (by omega) (by omega))).2.2.2
      rw [this]
      congr 1
      omega
  have := hall (m - j) (by omega)
  rw [show m - (m - j) = j by omega] at this
  rw [this, hlast, Spec.rowsDigest, ← hst]
  rfl

end Circuit.Table
