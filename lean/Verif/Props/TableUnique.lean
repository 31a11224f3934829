import Verif.Props.TableSound

/-!
# The witness of the hash table is determined by its inputs: C57
-/

set_option linter.unusedVariables false

namespace Props
open Halo2 Circuit Circuit.Table Base.Bn256

section
variable {F : Type} [Field F] [DecidableEq F] {legacy legacy' : Bool} {STEP STEP' : ℕ}
  {π : (Fin 3 → F) → Fin 3 → F} {v v' : View F} {K K' : F} {s s' N : ℕ}

private theorem rows_unique (R : Rows legacy STEP π v K s N) (R' : Rows legacy' STEP' π v' K' s' N)
    (hf : 0 < N → v.head (s + 1) = 1)
    (h1 : ∀ j < N, v.w0 (s + j + 1) = v'.w0 (s' + j + 1)) (h2 : ∀ j < N, v.w1 (s + j + 1) = v'.w1 (s' + j + 1))
    (h3 : ∀ j < N, v.ctrl (s + j + 1) = v'.ctrl (s' + j + 1))
    (h4 : ∀ j < N, v.dom (s + j + 1) = v'.dom (s' + j + 1))
    (h5 : ∀ j < N, v.head (s + j + 1) = v'.head (s' + j + 1)) (j : ℕ) (hj : j < N) :
    v.inp (s + j + 1) = v'.inp (s' + j + 1) ∧ v.out (s + j + 1) = v'.out (s' + j + 1) ∧
      v.cont (s + j + 1) = v'.cont (s' + j + 1) ∧
      (v.ctrl (s + j + 1) ≠ 0 → v.caux (s + j + 1) = v'.caux (s' + j + 1)) ∧
      (j + 1 < N → v.idx (s + j + 1) = v'.idx (s' + j + 1)) := by
  have hcont : ∀ j < N, v.cont (s + j + 1) = v'.cont (s' + j + 1) := by
    intro j hj
    linear_combination (R'.eqs j hj).head - (R.eqs j hj).head - h5 j hj
  have hst : ∀ j < N, v.inp (s + j + 1) = v'.inp (s' + j + 1) := by
    intro j
    induction j with
    | zero =>
      intro hj
      have c : v.cont (s + 0 + 1) = 0 := R.headRow 0 hj (hf hj)
      have c' : v'.cont (s' + 0 + 1) = 0 := by rw [← hcont 0 hj]; exact c
      have e := R.eqs 0 hj
      have e' := R'.eqs 0 hj
      have g0 := e.in0; have g1 := e.in1; have g2 := e.in2
      have g0' := e'.in0; have g1' := e'.in1; have g2' := e'.in2
      rw [c] at g0 g1 g2
      rw [c'] at g0' g1' g2'
      have a1 := h1 0 hj; have a2 := h2 0 hj; have a3 := h3 0 hj; have a4 := h4 0 hj
      funext i
      match i with
      | 0 => linear_combination g0 - g0' + a3 + a4
      | 1 => linear_combination g1' - g1 + a1
      | 2 => linear_combination g2' - g2 + a2
    | succ j ih =>
      intro hj
      have hout : v.out (s + j + 1) = v'.out (s' + j + 1) := by
        rw [R.perm j (by omega), R'.perm j (by omega), ih (by omega)]
      have o0 := congrFun hout 0
      have o1 := congrFun hout 1
      have o2 := congrFun hout 2
      have hc := hcont (j + 1) hj
      have e := R.eqs (j + 1) hj
      have e' := R'.eqs (j + 1) hj
      simp only [← Nat.add_assoc] at e e' hc ⊢
      have g0 := e.in0; have g1 := e.in1; have g2 := e.in2; have g3 := e.in0c
      have g0' := e'.in0; have g1' := e'.in1; have g2' := e'.in2; have g3' := e'.in0c
      have a1 := h1 (j + 1) hj; have a2 := h2 (j + 1) hj; have a3 := h3 (j + 1) hj; have a4 := h4 (j + 1) hj
      simp only [← Nat.add_assoc] at a1 a2 a3 a4
      rw [← hc] at g0' g1' g2' g3'
      rw [← o1] at g1'
      rw [← o2] at g2'
      rw [← o0] at g3'
      funext i
      match i with
      | 0 => linear_combination g0 + g3 - g0' - g3' + (1 - v.cont (s + j + 1 + 1)) * a3 + a4
      | 1 => linear_combination g1' - g1 + a1
      | 2 => linear_combination g2' - g2 + a2
  have hout : ∀ j < N, v.out (s + j + 1) = v'.out (s' + j + 1) := by
    intro j hj
    rw [R.perm j hj, R'.perm j hj, hst j hj]
  refine ⟨hst j hj, hout j hj, hcont j hj, fun h0 => ?_, fun hlt => ?_⟩
  · have e := (R.eqs j hj).caux
    have e' := (R'.eqs j hj).caux
    rw [← h3 j hj] at e'
    have : v.ctrl (s + j + 1) * v.ctrl (s + j + 1) * (v.caux (s + j + 1) - v'.caux (s' + j + 1)) = 0 := by
      linear_combination e' - e
    exact sub_eq_zero.mp ((mul_eq_zero.mp this).resolve_left (mul_ne_zero h0 h0))
  · have key : ∀ k j, j + 1 + k = N → 0 < k → v.idx (s + j + 1) = v'.idx (s' + j + 1) := by
      intro k
      induction k with
      | zero => intro j _ h; omega
      | succ k ih =>
        intro j hk _
        rcases R.flag (j + 1) (by omega) with ⟨-, hh⟩ | ⟨-, hh⟩
        · have hh' := (h5 (j + 1) (by omega)).symm.trans hh
          have e := (R.endRow (j + 1) (by omega) hh).1
          have e' := (R'.endRow (j + 1) (by omega) hh').1
          rw [← Nat.add_assoc] at e e'
          rw [e, e', hout j (by omega)]
        · have hh' := (h5 (j + 1) (by omega)).symm.trans hh
          have e := (R.contRow (j + 1) (by omega) hh).2.2.2
          have e' := (R'.contRow (j + 1) (by omega) hh').2.2.2
          have hk0 : 0 < k := by
            rcases Nat.eq_zero_or_pos k with rfl | h
            · exfalso
              have := R.lastHead (by omega)
              rw [show s + N = s + (j + 1) + 1 by omega] at this
              rw [this] at hh
              exact one_ne_zero hh
            · exact h
          have := ih (j + 1) (by omega) hk0
          rw [e, e'] at this
          exact this
    exact key (N - (j + 1)) j (by omega) (by omega)

end

/-- **C57.** Take accepted assignments of two runs with the same number of calculations (everything else -
chip, build, features, steps, loading mode, table given to `load`, surrounding circuit - may differ). If
columns 1 to 5 of the two tables agree on the enabled rows, then so do the six permutation state columns
and the continuation column, the digest column on every row but the last, and the inverse column wherever
the control is not 0. -/
theorem C57_table_determined {x y : Run Fr} {k k' : ChipKind} {short short' : Bool} {L L' : Layouter Fr}
    {post post' : List (Op Fr)} {g g' : Grid Fr} (h : x.Accepted k short L post g)
    (h' : y.Accepted k' short' L' post' g') (hcalcs : y.calcs = x.calcs) :
    ∃ s s', x.EnabledAfter g s ∧ y.EnabledAfter g' s' ∧
      ((∀ j < x.calcs, ∀ i : Fin 6, i ≠ 0 → x.col g i (s + j + 1) = y.col g' i (s' + j + 1)) →
        ∀ j < x.calcs,
          (∀ i : Fin 6, g.advice (x.configured.1.aux i) (s + j + 1) =
            g'.advice (y.configured.1.aux i) (s' + j + 1)) ∧
          g.advice x.configured.1.sContinue (s + j + 1) = g'.advice y.configured.1.sContinue (s' + j + 1) ∧
          (j + 1 < x.calcs → x.col g 0 (s + j + 1) = y.col g' 0 (s' + j + 1)) ∧
          (x.col g 3 (s + j + 1) ≠ 0 → g.advice x.configured.1.controlAux (s + j + 1) =
            g'.advice y.configured.1.controlAux (s' + j + 1))) := by
  obtain ⟨s, hen, -, R⟩ := Accepted.rows h
  obtain ⟨s', hen', -, R'⟩ := Accepted.rows h'
  refine ⟨s, s', hen, hen', fun heq j hj => ?_⟩
  have hl := h.legal
  rw [hcalcs] at R'
  obtain ⟨⟨lw, -⟩, -⟩ := h.bn.lawful
  obtain ⟨⟨lw', -⟩, -⟩ := h'.bn.lawful
  rw [Run.configured_eq lw, Run.configured_eq lw']
  obtain ⟨e1, e2, e3, e4, e5⟩ := rows_unique R R'
    (fun h0 => R.firstHead fr_big rfl hl.step_lt hl.STEP_lt hl.calcs_lt h0)
    (fun j hj => heq j hj 1 (by decide)) (fun j hj => heq j hj 2 (by decide))
    (fun j hj => heq j hj 3 (by decide)) (fun j hj => heq j hj 4 (by decide))
    (fun j hj => heq j hj 5 (by decide)) j hj
  refine ⟨fun i => ?_, e3, e5, e4⟩
  match i with
  | 0 => exact congrFun e1 0
  | 1 => exact congrFun e1 1
  | 2 => exact congrFun e1 2
  | 3 => exact congrFun e2 1
  | 4 => exact congrFun e2 2
  | 5 => exact congrFun e2 0

-- the same six rows loaded serially with one chip and in parallel with the other
example (k k' : ChipKind) (short legacy : Bool) (threads : ℕ) :
    ∃ (x y : Run Fr) (L L' : Layouter Fr) (g g' : Grid Fr), x.Accepted k short L [] g ∧
      y.Accepted k' short L' [] g' ∧ y.calcs = x.calcs ∧ x.calcs = 6 ∧ x.EnabledAfter g 0 ∧ y.EnabledAfter g' 0 ∧
      x.mode ≠ y.mode ∧
      (∀ j < x.calcs, ∀ i : Fin 6, i ≠ 0 → x.col g i (0 + j + 1) = y.col g' i (0 + j + 1)) ∧
      x.col g 3 2 ≠ 0 := by
  obtain ⟨ch, L, g, hch, h0, h1, h2, h3, h4⟩ := demo k short legacy .serial 5
  obtain ⟨ch', L', g', hch', h0', h1', h2', h3', h4'⟩ := demo k' short legacy (.parallel threads) 5
  refine ⟨_, _, L, L', g, g', h1, h1', rfl, rfl, h3, h3', by simp [demoRun], ?_, ?_⟩
  · obtain ⟨⟨lw, -⟩, hn⟩ := h1.bn.lawful
    obtain ⟨⟨lw', -⟩, hn'⟩ := h1'.bn.lawful
    obtain ⟨s, hen, hfr, hv, -⟩ := Run.honest_iff lw fr_big h1.legal hn h1.loaded h2
    obtain ⟨s', hen', hfr', hv', -⟩ := Run.honest_iff lw' fr_big h1'.legal hn' h1'.loaded h2'
    have hs : s = 0 := hfr h0 ⟨fun _ _ => rfl, fun _ _ => rfl, fun _ _ => rfl⟩
    have hs' : s' = 0 := hfr' h0' ⟨fun _ _ => rfl, fun _ _ => rfl, fun _ _ => rfl⟩
    subst hs hs'
    intro j hj i hi
    obtain ⟨a5, a3, a4⟩ := h4 j hj
    obtain ⟨b5, b3, b4⟩ := h4' j hj
    rw [Nat.zero_add]
    match i with
    | 0 => exact absurd rfl hi
    | 1 => have e := hv.w0 j hj; have e' := hv'.w0 j hj; rw [Nat.zero_add] at e e'; exact e.trans e'.symm
    | 2 => have e := hv.w1 j hj; have e' := hv'.w1 j hj; rw [Nat.zero_add] at e e'; exact e.trans e'.symm
    | 3 => exact a3.trans b3.symm
    | 4 => exact a4.trans b4.symm
    | 5 => exact a5.trans b5.symm
  · rw [(h4 1 (by norm_num)).2.1]
    have hd : Base.domainSpec legacy ≤ 2 ^ 64 := by unfold Base.domainSpec; split <;> omega
    have hdp : 0 < Base.domainSpec legacy := by unfold Base.domainSpec; split <;> omega
    intro h0
    have := fr_big _ (by simp; omega) h0
    simp at this
    omega

end Props
