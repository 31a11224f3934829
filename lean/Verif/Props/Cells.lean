import Verif.Circuit.TableCells
import Verif.Props.TableUnique
import Verif.Props.Septidon

/-!
# No under-constrained cells, C84

C21 and C23 say what the gates of a permutation chip imply about the first and the last state of a region,
C57 what the hash table implies about its columns. Here every advice cell is accounted for: which cells the
constraints determine, and that the constraints say nothing about any other cell.
-/

set_option linter.unusedVariables false
set_option linter.unusedSectionVars false

namespace Props
open Halo2 Circuit Circuit.Table Base.Bn256

section
variable {F : Type} [Field F]

/-- **C84, Septidon.** In the setting of C21: the gates of the chip hold **if and only if**, in every
region, every advice cell that `permute` writes has the value `permute` writes there for the state found in
the first row, except for two cells of the transition column (offsets 0 and 4), which the gates leave
free. In particular no intermediate state of a permutation can be chosen by the prover. -/
theorem C84_septidon (m : Base.Mds F 3) (rc : ℕ → Fin 3 → F)
    (hc : ∀ r, 4 ≤ r → r < 61 → ∀ k, k ≠ 0 → rc r k = 0) (cs : CS F)
    (regions : List (Words F 3 × ℕ))
    (apart : regions.Pairwise fun q q' => q.2 + 8 ≤ q'.2 ∨ q'.2 + 8 ≤ q.2)
    (pre log post : List (Op F))
    (hlog : log = regions.flatMap fun q =>
      (Septidon.permuteBody m rc (Septidon.configure m rc cs).1 q.1 0 q.2).ops)
    (hother : ∀ o ∈ pre ++ post, ∀ c r v, o.FixedWrite c r v →
      ¬ (cs.numFixed ≤ c ∧ c < (Septidon.configure m rc cs).2.numFixed))
    (g : Grid F) (hfit : Fits log g.n)
    (hfix : ∀ c, cs.numFixed ≤ c → c < (Septidon.configure m rc cs).2.numFixed → ∀ r < g.n,
      g.fixed c r = finalFixed (pre ++ log ++ post) c r) :
    (∀ p ∈ (Septidon.configure m rc cs).2.gates.drop cs.gates.length, p.Holds g) ↔
      ∀ q ∈ regions, ∀ w : Words F 3,
        (∀ k, (w k).value = g.advice ((Septidon.configure m rc cs).1.initialCells k).column
          (q.2 + ((Septidon.configure m rc cs).1.initialCells k).offset.toNat)) →
        ∀ c r v, Op.advice c r v ∈
            (Septidon.permuteBody m rc (Septidon.configure m rc cs).1 w 0 q.2).ops →
          ¬ (c = (Septidon.configure m rc cs).1.transition ∧ (r = q.2 ∨ r = q.2 + 4)) →
          g.advice c r = v := by
  rw [Septidon.configure_eq] at *
  simp only [List.drop_left] at *
  have hlog' : log = Septidon.placedOps cs.numAdvice cs.numFixed m rc regions := hlog
  have hfix' : ∀ c, cs.numFixed ≤ c → c < cs.numFixed + 11 → ∀ r < g.n,
      g.fixed c r = finalFixed log c r := by
    intro c h1 h2 r hr
    rw [hfix c h1 h2 r hr]
    exact finalFixed_between
      (fun o ho r v hw => hother o (List.mem_append_left _ ho) c r v hw ⟨h1, h2⟩)
      (fun o ho r v hw => hother o (List.mem_append_right _ ho) c r v hw ⟨h1, h2⟩) r
  rw [hlog'] at hfit hfix'
  have e2 : ∀ s, (fun k => g.advice
      ((Septidon.config cs.numAdvice cs.numFixed).initialCells k).column
        (s + ((Septidon.config cs.numAdvice cs.numFixed).initialCells k).offset.toNat)) =
      Septidon.fullIn g (Septidon.config cs.numAdvice cs.numFixed) s := by
    intro s
    funext k
    rw [Septidon.fullIn_apply]
    fin_cases k <;> rfl
  refine (Septidon.placed_cells cs.numAdvice cs.numFixed m rc hc regions apart g hfit hfix').trans ?_
  constructor
  · intro h q hq w hw c r v hm hh
    refine h q hq c r v ?_ hh
    rcases (Septidon.mem_permuteBody cs.numAdvice cs.numFixed m rc hc w q.2 _).mp hm with hb | ⟨i, e⟩
    · rw [← e2, ← funext hw]
      exact hb
    · cases e
  · intro h q hq c r v hb hh
    refine h q hq (fun k => ⟨(q.1 k).cell, _⟩) (fun k => rfl) c r v ?_ hh
    refine (Septidon.mem_permuteBody cs.numAdvice cs.numFixed m rc hc _ q.2 _).mpr (Or.inl ?_)
    simp only
    rw [e2]
    exact hb

/-- Non-vacuity of C84 for Septidon: two regions, a foreign gate and column, and a grid on which the gates
of the chip hold (blinding rows with nonzero values), so that both sides of the equivalence are true; if
the helper cell at row 7 of column 14 is changed to anything, they still are. -/
example (m : Base.Mds ℚ 3) (w : Words ℚ 3) (v : ℚ) :
    let cs : CS ℚ := ⟨2, 1, 0, [⟨"other", [.advice 0 0]⟩], [], []⟩
    let rc : ℕ → Fin 3 → ℚ := fun r k => if k = 0 then (r : ℚ) else if r < 4 then 3 else 0
    ∃ log g, Fits log g.n ∧ log = [(w, 3), (w, 17)].flatMap (fun q =>
        (Septidon.permuteBody m rc (Septidon.configure m rc cs).1 q.1 0 q.2).ops) ∧
      (∀ c r, g.fixed c r = finalFixed ([] ++ log ++ []) c r) ∧ g.advice 14 7 = v ∧
      (∀ r, 4 ≤ r → r < 61 → ∀ k, k ≠ 0 → rc r k = 0) ∧
      ∀ p ∈ (Septidon.configure m rc cs).2.gates.drop 1, p.Holds g := by
  intro cs rc
  have hc : ∀ r, 4 ≤ r → r < 61 → ∀ k, k ≠ 0 → rc r k = 0 := by
    intro r h1 h2 k hk
    simp only [rc, if_neg hk, if_neg (show ¬ r < 4 by omega)]
  have e : (Septidon.configure m rc cs).1 = Septidon.config 2 1 := by rw [Septidon.configure_eq]
  let ps : List (Words ℚ 3 × ℕ) := [(w, 3), (w, 17)]
  obtain ⟨log, hlog⟩ : ∃ log, log = Septidon.placedOps 2 1 m rc ps := ⟨_, rfl⟩
  have hlog' : log = ps.flatMap (fun q =>
      (Septidon.permuteBody m rc (Septidon.configure m rc cs).1 q.1 0 q.2).ops) := by rw [hlog, e]; rfl
  let g : Grid ℚ := ⟨32, 27, fun c r => if r < 27 then finalAdvice log c r else 5,
    fun c r => finalFixed log c r, fun _ _ => false⟩
  let g' : Grid ℚ := { g with advice := fun c r => if c = 14 ∧ r = 7 then v else g.advice c r }
  have hapart : Septidon.Apart ps := by simp [Septidon.Apart, ps]
  have hfit : Fits log 27 := by
    intro o ho
    obtain ⟨q, hq, h | ⟨k, h⟩⟩ := (Septidon.mem_placedOps 2 1 m rc hc ps o).mp (hlog ▸ ho)
    · have hq2 : q.2 ≤ 17 := by
        simp only [ps, List.mem_cons, List.not_mem_nil, or_false] at hq
        rcases hq with rfl | rfl <;> simp
      rcases h.shape with ⟨c, r, v, rfl, _, _, _, h7⟩ | ⟨c, r, v, rfl, _, _, _, h7⟩ <;>
        simp only [Op.bottom] <;> omega
    · subst h; simp [Op.bottom]
  have hfit' : Fits log 32 := fun o ho => (hfit o ho).trans (by omega)
  have hon : HonestFor g log {c | 1 ≤ c ∧ c < 12} ∅ {c | 2 ≤ c ∧ c < 15} :=
    ⟨by simp [g], fun _ _ _ _ => rfl, fun s hs => absurd hs (by simp), fun c _ r hr => by
      simp only [g] at hr ⊢; rw [if_pos hr]⟩
  have hgates : ∀ p ∈ (Septidon.configure m rc cs).2.gates.drop 1, p.Holds g := by
    rw [Septidon.configure_eq]
    exact (Septidon.placed_complete 2 1 m rc hc ps hapart g hon.usable_le (hlog ▸ hfit)
      (fun c h1 h2 r hr => hlog ▸ hon.fixed c ⟨h1, h2⟩ r hr)
      (fun c h1 h2 r hr => hlog ▸ hon.advice c ⟨h1, h2⟩ r hr)).1
  have hfx : ∀ c r, g.fixed c r = finalFixed ([] ++ log ++ []) c r := fun c r => by
    rw [List.nil_append, List.append_nil]
  have key := (C84_septidon m rc hc cs ps hapart [] log [] hlog' (by simp) g hfit'
    (fun c _ _ r _ => hfx c r)).mp hgates
  refine ⟨log, g', hfit', hlog', hfx, by simp [g'], hc, ?_⟩
  refine (C84_septidon m rc hc cs ps hapart [] log [] hlog' (by simp) g' hfit'
    (fun c _ _ r _ => hfx c r)).mpr fun q hq w' hw c r v' hm hh => ?_
  have hq2 : q.2 = 3 ∨ q.2 = 17 := by
    simp only [ps, List.mem_cons, List.not_mem_nil, or_false] at hq
    rcases hq with rfl | rfl <;> simp
  have hne : ¬ (c = 14 ∧ r = 7) := by
    rintro ⟨rfl, rfl⟩
    rw [e] at hm hh
    rcases hq2 with h | h
    · exact hh ⟨rfl, Or.inr (by omega)⟩
    · rcases (Septidon.mem_permuteBody 2 1 m rc hc w' q.2 _).mp hm with hb | ⟨i, e⟩
      · rcases hb.shape with ⟨_, _, _, e', _, _, h3, _⟩ | ⟨_, _, _, e', _⟩
        · cases e'; omega
        · cases e'
      · cases e
  have hin : ∀ k, (w' k).value = g.advice ((Septidon.configure m rc cs).1.initialCells k).column
      (q.2 + ((Septidon.configure m rc cs).1.initialCells k).offset.toNat) := by
    intro k
    rw [hw k, e]
    refine if_neg ?_
    rintro ⟨h, -⟩
    fin_cases k <;> simp [Septidon.config, Septidon.Config.initialCells] at h
  refine (if_neg hne).trans (key q hq w' hin c r v' hm hh)

variable {t : ℕ}

/-- **C84, Pow5.** In the setting of C23, with no other operation enabling the selectors of the chip: the
gates of the chip hold **if and only if**, in every region, every advice cell that `permute` writes (all
intermediate states and all partial S-box cells) has the value `permute` writes there for the state found in
the first row. -/
theorem C84_pow5 (S : Pow5.Params F t) (hinv : Matrix.of S.mReg * Matrix.of S.mInv = 1)
    (cols : Pow5.Cols t) (hd : cols.Distinct) (cs cs' : CS F) (c : Pow5.Config F t)
    (hcfg : Pow5.configureChecked S cols cs = .ok (c, cs'))
    (regions : List (Words F (t + 1) × ℕ))
    (apart : regions.Pairwise fun q q' => q.2 + pow5Rows S ≤ q'.2 ∨ q'.2 + pow5Rows S ≤ q.2)
    (pre log post : List (Op F))
    (hlog : log = regions.flatMap fun q => (Pow5.permuteBody S c q.1 q.2).ops)
    (hother : ∀ o ∈ pre ++ post, ∀ q ∈ regions, ∀ k r v, o.FixedWrite k r v → cols.IsFixed k →
      ¬ (q.2 ≤ r ∧ r < q.2 + pow5Rows S))
    (hquiet : ∀ k r, Op.selector k r ∈ pre ++ post → ¬ (cs.numSelectors ≤ k ∧ k < cs'.numSelectors))
    (g : Grid F) (hfit : Fits log g.n)
    (hfix : ∀ k, cols.IsFixed k → ∀ r < g.n, g.fixed k r = finalFixed (pre ++ log ++ post) k r)
    (hsel : ∀ k, cs.numSelectors ≤ k → k < cs'.numSelectors → ∀ r < g.n,
      g.selector k r = finalSelector (pre ++ log ++ post) k r) :
    (∀ p ∈ cs'.gates.drop cs.gates.length, p.Holds g) ↔
      ∀ q ∈ regions, ∀ w : Words F (t + 1),
        (∀ i, (w i).value = g.advice (cols.state i) q.2) →
        ∀ k r v, Op.advice k r v ∈ (Pow5.permuteBody S c w q.2).ops → g.advice k r = v := by
  obtain ⟨hev, -, rfl, rfl⟩ := configure_ok hcfg
  have hrows : pow5Rows S = Pow5.steps S + 1 := by unfold pow5Rows Pow5.steps; omega
  rw [hrows] at apart hother
  simp only [List.drop_left] at *
  have hlog' : log = Pow5.placedOps S cols cs.numSelectors regions := hlog
  have hcons := Pow5.placed_cons S cols cs.numSelectors hd regions apart
  rw [← hlog'] at hcons
  have sub : ∀ q ∈ regions, ∀ op, Pow5.BlockOp S cols cs.numSelectors (fun i => (q.1 i).value) q.2 op →
      op ∈ log := fun q hq op h => by
    rw [hlog']; exact (Pow5.mem_placedOps S cols cs.numSelectors _ _).mpr ⟨q, hq, Or.inl h⟩
  have hn : ∀ q ∈ regions, q.2 + Pow5.steps S < g.n := by
    intro q hq
    have := hfit _ (sub q hq _ (.state (Pow5.steps S) le_rfl 0))
    simp only [Op.bottom] at this
    omega
  refine (Pow5.placed_cells S cols cs.numSelectors g hinv regions hn ?_ ?_).trans ?_
  · intro q hq k r v hb
    have hm := sub q hq _ hb
    have hbot := hfit _ hm
    simp only [Op.bottom] at hbot
    have hk : cols.IsFixed k ∧ q.2 ≤ r ∧ r < q.2 + (Pow5.steps S + 1) := by
      generalize ho : Op.fixed k r v = op at hb
      cases hb with
      | rcA o _ i =>
        injection ho with e1 e2
        exact ⟨Or.inl ⟨i, e1⟩, by omega, by omega⟩
      | rcB o _ _ i =>
        injection ho with e1 e2
        exact ⟨Or.inr ⟨i, e1⟩, by omega, by omega⟩
      | _ => cases ho
    rw [hfix k hk.1 r (by omega)]
    refine finalFixed_eq ⟨_, List.mem_append_left _ (List.mem_append_right _ hm),
      Or.inl rfl⟩ fun o ho v' hw => ?_
    simp only [List.mem_append] at ho
    rcases ho with (ho | ho) | ho
    · exact absurd hk.2 (hother o (List.mem_append_left _ ho) q hq k r v' hw hk.1)
    · have := hcons o ho _ hm (.fixed k) (Set.mem_univ _) r hw.hits.1 ⟨rfl, rfl⟩
      rw [hw.hits.2] at this
      exact this
    · exact absurd hk.2 (hother o (List.mem_append_right _ ho) q hq k r v' hw hk.1)
  · intro k hk r hr
    rw [hsel (cs.numSelectors + k) (by omega) (by omega) r hr, finalSelector_iff]
    constructor
    · intro hm
      simp only [List.mem_append] at hm hquiet
      rcases hm with (hm | hm) | hm
      · exact absurd ⟨by omega, by omega⟩ (hquiet _ r (Or.inl hm))
      · rw [hlog'] at hm
        obtain ⟨q, hq, hb | ⟨i, e⟩⟩ := (Pow5.mem_placedOps S cols cs.numSelectors _ _).mp hm
        · refine ⟨q, hq, ?_⟩
          generalize ho : Op.selector (cs.numSelectors + k) r = op at hb
          cases hb with
          | sel o h => injection ho with e1 e2; exact ⟨o, h, e2, e1.symm⟩
          | _ => cases ho
        · cases e
      · exact absurd ⟨by omega, by omega⟩ (hquiet _ r (Or.inr hm))
    · rintro ⟨q, hq, o, h, rfl, e⟩
      exact List.mem_append_left _ (List.mem_append_right _ (sub q hq _ (e ▸ .sel o h)))
  · constructor
    · intro h q hq w hw k r v hm
      refine h q hq k r v ?_
      rcases ((Pow5.permuteBody_spec S cols cs.numSelectors q.2 w).2 _).mp hm with hb | ⟨i, e⟩
      · have : Pow5.cur g (Pow5.config S cols cs.numSelectors) q.2 = fun i => (w i).value :=
          (funext hw).symm
        rw [this]
        exact hb
      · cases e
    · intro h q hq k r v hb
      exact h q hq (fun i => ⟨(q.1 i).cell, g.advice (cols.state i) q.2⟩) (fun i => rfl) k r v
        (((Pow5.permuteBody_spec S cols cs.numSelectors q.2 _).2 _).mpr (Or.inl hb))

/-- Parameters of width 2 with an odd number of partial rounds, scattered columns and a foreign gate. -/
private def cellParams : Pow5.Params ℚ 1 :=
  ⟨2, 3, fun r i => r + i.val, ![![1, 1], ![1, 2]], ![![2, -1], ![-1, 1]]⟩
private def cellCols : Pow5.Cols 1 := ⟨![4, 2], 3, ![1, 5], ![0, 6]⟩
private def cellCs : CS ℚ := ⟨7, 9, 2, [⟨"other", [.advice 0 0]⟩], [], []⟩

/-- Non-vacuity of C84 for Pow5: two regions (at rows 1 and 11) and a grid on which the gates hold. Changing
the partial S-box cell of row 2 breaks them. -/
example (w : Words ℚ 2) : cellCols.Distinct ∧
    Matrix.of cellParams.mReg * Matrix.of cellParams.mInv = 1 ∧
    ∃ c cs', Pow5.configureChecked cellParams cellCols cellCs = .ok (c, cs') ∧
    ∃ log g, log = [(w, 1), (w, 11)].flatMap (fun q => (Pow5.permuteBody cellParams c q.1 q.2).ops) ∧
      Fits log g.n ∧ (∀ k r, g.fixed k r = finalFixed ([] ++ log ++ []) k r) ∧
      (∀ k r, g.selector k r = finalSelector ([] ++ log ++ []) k r) ∧
      (∀ p ∈ cs'.gates.drop cellCs.gates.length, p.Holds g) ∧
      ¬ ∀ p ∈ cs'.gates.drop cellCs.gates.length,
        p.Holds { g with advice := fun k r => if k = 3 ∧ r = 2 then g.advice k r + 1 else g.advice k r } := by
  have hd : cellCols.Distinct := by
    constructor <;> simp [cellCols, Function.Injective, Fin.forall_fin_two]
  have hinv : Matrix.of cellParams.mReg * Matrix.of cellParams.mInv = 1 := by
    ext i j
    fin_cases i <;> fin_cases j <;> norm_num [cellParams, Matrix.mul_apply, Fin.sum_univ_succ]
  obtain ⟨c, cs', hcfg⟩ : ∃ c cs', Pow5.configureChecked cellParams cellCols cellCs = .ok (c, cs') := by
    unfold Pow5.configureChecked
    rw [if_pos (by simp [cellParams]), Pow5.configure_eq]
    exact ⟨_, _, rfl⟩
  refine ⟨hd, hinv, c, cs', hcfg, ?_⟩
  obtain ⟨hev, -, ec, ecs⟩ := configure_ok hcfg
  let ps : List (Words ℚ 2 × ℕ) := [(w, 1), (w, 11)]
  have hsteps : Pow5.steps cellParams = 4 := by simp [Pow5.steps, cellParams]
  have hrows : pow5Rows cellParams = 5 := by simp [pow5Rows, cellParams]
  have hap : Pow5.Apart cellParams ps := by simp [Pow5.Apart, ps, hsteps]
  obtain ⟨log, hlog⟩ : ∃ log, log = Pow5.placedOps cellParams cellCols cellCs.numSelectors ps := ⟨_, rfl⟩
  have hlog' : log = ps.flatMap (fun q => (Pow5.permuteBody cellParams c q.1 q.2).ops) := by
    rw [hlog, ec]; rfl
  obtain ⟨N, hN⟩ : ∃ N, ∀ o ∈ log, o.bottom ≤ N := by
    refine ⟨(log.map Op.bottom).foldl max 0, fun o ho => ?_⟩
    exact le_foldl_max (Or.inl (List.mem_map.mpr ⟨o, ho, rfl⟩))
  let g : Grid ℚ := ⟨N + 5, N, fun c r => if r < N then finalAdvice log c r else 5,
    finalFixed log, finalSelector log⟩
  have hfit : Fits log g.n := fun o ho => (hN o ho).trans (by simp [g])
  have hgates : ∀ p ∈ cs'.gates.drop cellCs.gates.length, p.Holds g := by
    rw [ecs]
    simp only [List.drop_left]
    exact (Pow5.placed_complete cellParams cellCols cellCs.numSelectors g hinv hd ps hap (by simp [g])
      (hlog ▸ hN) (fun k _ r _ => by rw [← hlog]) (fun k _ r _ => by rw [← hlog])
      (fun k _ r hr => by rw [← hlog]; exact if_pos hr)).1
  refine ⟨log, g, hlog', hfit, fun k r => by simp [g], fun k r => by simp [g], hgates, fun hbad => ?_⟩
  have hapw : ps.Pairwise fun q q' => q.2 + pow5Rows cellParams ≤ q'.2 ∨ q'.2 + pow5Rows cellParams ≤ q.2 := by
    simp [ps, hrows]
  have k1 := (C84_pow5 cellParams hinv cellCols hd cellCs cs' c hcfg ps hapw [] log [] hlog' (by simp) (by simp)
    g hfit (fun k _ r _ => by simp [g]) (fun k _ _ r _ => by simp [g])).mp hgates
  have k2 := (C84_pow5 cellParams hinv cellCols hd cellCs cs' c hcfg ps hapw [] log [] hlog' (by simp) (by simp)
    { g with advice := fun k r => if k = 3 ∧ r = 2 then g.advice k r + 1 else g.advice k r } hfit
    (fun k _ r _ => by simp [g]) (fun k _ _ r _ => by simp [g])).mp hbad
  have hst : ∀ i, ¬ (cellCols.state i = 3 ∧ (1 : ℕ) = 2) := by simp
  have hq : (w, 1) ∈ ps := by simp [ps]
  obtain ⟨v, hv⟩ : ∃ v, Op.advice 3 2 v ∈ (Pow5.permuteBody cellParams c
      (fun i => ⟨(w i).cell, g.advice (cellCols.state i) 1⟩) 1).ops := by
    rw [ec]
    exact ⟨_, ((Pow5.permuteBody_spec cellParams cellCols cellCs.numSelectors 1 _).2 _).mpr
      (Or.inl (.sbox 1 (by simp [hsteps]) (by simp [Pow5.kindAt, cellParams])))⟩
  have e1 := k1 (w, 1) hq (fun i => ⟨(w i).cell, g.advice (cellCols.state i) 1⟩) (fun i => rfl) 3 2 v hv
  have e2 := k2 (w, 1) hq (fun i => ⟨(w i).cell, g.advice (cellCols.state i) 1⟩)
    (fun i => (if_neg (hst i)).symm) 3 2 v hv
  simp only [and_self, if_true] at e2
  rw [e1] at e2
  linarith

end

/-! ## The hash table -/

/-- The cells that the constraints of the hash table determine (see `C84_determined`). The enabled rows
are `s + 1` to `s + calcs`. -/
inductive DetCell (x : Run Fr) (k : ChipKind) (L' : Layouter Fr) (g : Grid Fr) (s : ℕ) : ℕ → ℕ → Prop
  /-- the table columns on the enabled rows, except the digest in the last row -/
  | table (i : Fin 6) (r : ℕ) (h1 : s < r) (h2 : r ≤ s + x.calcs) (h3 : i = 0 → r < s + x.calcs) :
    DetCell x k L' g s (x.hashTable i) r
  /-- inputs and control in the custom row before the first enabled row -/
  | custom (i : Fin 6) (h : i = 1 ∨ i = 2 ∨ i = 3) : DetCell x k L' g s (x.hashTable i) s
  /-- the state columns -/
  | aux (i : Fin 6) (r : ℕ) (h1 : s < r) (h2 : r ≤ s + x.calcs) : DetCell x k L' g s (x.configured.1.aux i) r
  /-- the continuation flag -/
  | cont (r : ℕ) (h1 : s < r) (h2 : r ≤ s + x.calcs) : DetCell x k L' g s x.configured.1.sContinue r
  /-- the inverse of the control, where the control is not 0 -/
  | inverse (r : ℕ) (h1 : s < r) (h2 : r ≤ s + x.calcs) (h3 : x.col g 3 r ≠ 0) :
    DetCell x k L' g s x.configured.1.controlAux r
  /-- every cell written in the columns of the permutation chip, except the two helper cells of each
  region of Septidon: these are in its last advice column, 7 and 3 rows above the mark (the 1 in its first
  fixed column) -/
  | chip (c r : ℕ) (v : Fr) (h1 : x.cs.numAdvice + 8 ≤ c) (h2 : Op.advice c r v ∈ x.newOps L')
    (h3 : ¬ (k = .septidon ∧ c = x.cs.numAdvice + 20 ∧
      (Op.fixed (x.cs.numFixed + 1) (r + 7) 1 ∈ x.newOps L' ∨
        Op.fixed (x.cs.numFixed + 1) (r + 3) 1 ∈ x.newOps L'))) : DetCell x k L' g s c r

private theorem chip_bound {x : Run Fr} {k : ChipKind} {L' : Layouter Fr} {s : ℕ} {s' : ℕ → ℕ}
    {lw : x.ch.Lawful specPerm} (ex : lw.Exact)
    (hfree : ∀ a f σ (ws : List (Words Fr 3)) p c r, (∃ i < ws.length, ex.Free a (p i) c r) ↔
        k = .septidon ∧ c = a + 12 ∧
          (Op.fixed f (r + 7) 1 ∈ lw.ops a f σ ws p ∨ Op.fixed f (r + 3) 1 ∈ lw.ops a f σ ws p))
    (hp : Run.Placed lw L' s s') (hx : x.Legal) (c r : ℕ) :
    (x.cs.numAdvice + 8 ≤ c ∧ (∃ v, Op.advice c r v ∈ x.newOps L') ∧
      ¬ (k = .septidon ∧ c = x.cs.numAdvice + 20 ∧
      (Op.fixed (x.cs.numFixed + 1) (r + 7) 1 ∈ x.newOps L' ∨
        Op.fixed (x.cs.numFixed + 1) (r + 3) 1 ∈ x.newOps L'))) ↔
      ∃ i < x.calcs, ex.Bound (x.cs.numAdvice + 8) (s' i) c r := by
  have hm : ∀ r, Op.fixed (x.cs.numFixed + 1) r 1 ∈ x.newOps L' ↔
      Op.fixed (x.cs.numFixed + 1) r 1 ∈ Run.chipOps lw s s' := fun r =>
    ⟨fun h => hp.chip_mem hx h (Or.inr ⟨_, r, 1, rfl, le_rfl⟩), hp.mem_chip⟩
  have hf := hfree (x.cs.numAdvice + 8) (x.cs.numFixed + 1) (x.cs.numSelectors + 1) (Run.ins lw s) s' c r
  rw [Run.ins_length] at hf
  rw [hm, hm, show x.cs.numAdvice + 20 = x.cs.numAdvice + 8 + 12 by omega, ← hf, ← and_assoc, hp.written ex hx]
  constructor
  · rintro ⟨⟨i, hi, h | h⟩, h'⟩
    · exact ⟨i, hi, h⟩
    · exact absurd ⟨i, hi, h⟩ h'
  · rintro ⟨i, hi, h⟩
    refine ⟨⟨i, hi, Or.inl h⟩, ?_⟩
    rintro ⟨j, hj, h'⟩
    exact ex.apart hp.apart hi hj h h'

/-- **C84, determined cells.** Two accepted assignments of the same run (the rest of the circuit may
differ) whose table columns 1 to 5 agree on the enabled rows agree on every cell of `DetCell`: the state
columns and flags, all digests but the last, and every cell of every permutation region but the helper cells
of Septidon. -/
theorem C84_determined {x : Run Fr} {k : ChipKind} {short : Bool} {L' : Layouter Fr}
    {post post' : List (Op Fr)} {g g' : Grid Fr} (h : x.Accepted k short L' post g)
    (h' : x.Accepted k short L' post' g') :
    ∃ s, x.EnabledAfter g s ∧ x.EnabledAfter g' s ∧
      ((∀ j < x.calcs, ∀ i : Fin 6, i ≠ 0 → x.col g i (s + j + 1) = x.col g' i (s + j + 1)) →
        ∀ c r, DetCell x k L' g s c r → g.advice c r = g'.advice c r) := by
  obtain ⟨lw, ex, hfree⟩ := h.bn.exact
  obtain ⟨s, s', hp, -⟩ := h.loaded.placed lw h.legal (h.bn.lawful).2
  obtain ⟨hen, R⟩ := Run.Placed.rows h.legal hp h.laid h.sat
  obtain ⟨hen', R'⟩ := Run.Placed.rows h.legal hp h'.laid h'.sat
  refine ⟨s, hen, hen', fun heq c r hd => ?_⟩
  rcases Nat.eq_zero_or_pos x.calcs with h0 | h0
  · cases hd with
    | custom i hi =>
      have e1 := R.first
      have e2 := R'.first
      rcases hi with rfl | rfl | rfl
      · exact e1.w0.trans e2.w0.symm
      · exact e1.w1.trans e2.w1.symm
      · exact e1.ctrl.trans e2.ctrl.symm
    | chip c r v h1 h2 h3 =>
      obtain ⟨i, hi, -⟩ := (chip_bound ex hfree hp h.legal c r).mp ⟨h1, ⟨v, h2⟩, h3⟩
      omega
    | _ => omega
  obtain ⟨s₁, s₂, e₁, e₂, huniq⟩ := C57_table_determined h h' rfl
  obtain rfl : s₁ = s := e₁.unique h.laid.usable_le hen h0
  obtain rfl : s₂ = s₁ := e₂.unique h'.laid.usable_le hen' h0
  have key := huniq heq
  cases hd with
  | table i r h1 h2 h3 =>
    obtain ⟨j, rfl⟩ : ∃ j, r = s₂ + j + 1 := ⟨r - s₂ - 1, by omega⟩
    by_cases hi : i = 0
    · subst hi
      exact (key j (by omega)).2.2.1 (by have := h3 rfl; omega)
    · exact heq j (by omega) i hi
  | custom i hi =>
    have e1 := R.first
    have e2 := R'.first
    rcases hi with rfl | rfl | rfl
    · exact e1.w0.trans e2.w0.symm
    · exact e1.w1.trans e2.w1.symm
    · exact e1.ctrl.trans e2.ctrl.symm
  | aux i r h1 h2 =>
    obtain ⟨j, rfl⟩ : ∃ j, r = s₂ + j + 1 := ⟨r - s₂ - 1, by omega⟩
    exact (key j (by omega)).1 i
  | cont r h1 h2 =>
    obtain ⟨j, rfl⟩ : ∃ j, r = s₂ + j + 1 := ⟨r - s₂ - 1, by omega⟩
    exact (key j (by omega)).2.1
  | inverse r h1 h2 h3 =>
    obtain ⟨j, rfl⟩ : ∃ j, r = s₂ + j + 1 := ⟨r - s₂ - 1, by omega⟩
    exact (key j (by omega)).2.2.2 h3
  | chip c r v h1 h2 h3 =>
    obtain ⟨i, hi, hb⟩ := (chip_bound ex hfree hp h.legal c r).mp ⟨h1, ⟨v, h2⟩, h3⟩
    refine hp.bound_eq ex h.legal h.laid h.sat h'.laid h'.sat (fun i hi k => ?_) hi hb
    have := (key i hi).1 ⟨k, by omega⟩
    rw [Run.configured_eq lw] at this
    exact this

/-- **C84, exactly.** Take an accepted assignment of a run with at least one calculation, and any other
values `g'` in the advice columns that agree with it on the cells of `DetCell`. Then `g'` is accepted **if
and only if** its digest cell in the custom row equals the state cell next to it, and the range condition
holds in its unenabled usable rows. So every cell outside `DetCell` is free but for these two conditions. -/
theorem C84_exact {x : Run Fr} {k : ChipKind} {short : Bool} {L' : Layouter Fr} {post : List (Op Fr)}
    {g : Grid Fr} (h : x.Accepted k short L' post g) {s : ℕ} (hen : x.EnabledAfter g s) (h0 : 0 < x.calcs)
    (adv : ℕ → ℕ → Fr) (hdet : ∀ c r, DetCell x k L' g s c r → adv c r = g.advice c r) :
    x.Accepted k short L' post { g with advice := adv } ↔
      adv (x.hashTable 0) s = adv (x.configured.1.aux 5) s ∧
      ∀ r < g.usable, ¬ (s < r ∧ r ≤ s + x.calcs) →
        ∃ i ≤ x.STEP, adv (x.hashTable 5) r * adv (x.hashTable 3) (g.rot r (-1)) = specFlag x.legacy i := by
  obtain ⟨lw, ex, hfree⟩ := h.bn.exact
  have hnat := (h.bn.lawful).2
  obtain ⟨s₁, s', hp, -⟩ := h.loaded.placed lw h.legal hnat
  obtain ⟨hen₁, R⟩ := Run.Placed.rows h.legal hp h.laid h.sat
  obtain rfl : s₁ = s := hen₁.unique h.laid.usable_le hen h0
  have hconf : ∀ i : Fin 6, x.configured.1.aux i = x.cs.numAdvice + i := fun i => by
    rw [Run.configured_eq lw]; rfl
  constructor
  · intro h'
    obtain ⟨hen', R'⟩ := Run.Placed.rows h.legal hp h'.laid h'.sat
    have hfirst := R'.headRow 0 h0
      (R'.firstHead fr_big rfl h.legal.step_lt h.legal.STEP_lt h.legal.calcs_lt h0)
    have e := (R'.eqs 0 h0).digest
    rw [hfirst] at e
    refine ⟨?_, fun r hr _ => Run.range_everywhere lw h.legal hnat h'.loaded h'.laid h'.sat r hr⟩
    rw [hconf]
    have : (view x.cs.numAdvice x.hashTable { g with advice := adv }).out (s₁ + 0) 0 =
        (view x.cs.numAdvice x.hashTable { g with advice := adv }).idx (s₁ + 0) := by
      linear_combination e
    exact this.symm
  · rintro ⟨htie, hrow⟩
    rw [hconf] at htie
    obtain ⟨hl', hs'⟩ := hp.satisfies ex h.legal fr_big h.laid h.sat h0 (g' := { g with advice := adv })
      rfl rfl rfl rfl (fun r h1 h2 i h3 => hdet _ _ (.table i r h1 h2 h3))
      (fun i hi => hdet _ _ (.custom i hi))
      (fun r h1 h2 i hi => by
        rcases Nat.lt_or_ge i 6 with hi6 | hi6
        · have := hdet _ _ (.aux ⟨i, hi6⟩ r h1 h2)
          rw [hconf] at this
          exact this
        · obtain rfl : i = 6 := by omega
          have := hdet _ _ (.cont r h1 h2)
          rw [Run.configured_eq lw] at this
          exact this)
      (fun r h1 h2 h3 => by
        have := hdet _ _ (.inverse r h1 h2 h3)
        rw [Run.configured_eq lw] at this
        exact this)
      (fun i hi c r hb => by
        obtain ⟨h1, ⟨v, h2⟩, h3⟩ := (chip_bound ex hfree hp h.legal c r).mpr ⟨i, hi, hb⟩
        exact hdet c r (.chip c r v h1 h2 h3))
      htie hrow
    exact ⟨h.bn, h.legal, h.loaded, hl', hs'⟩

/-- **C84, freedom.** In an accepted assignment of a run with at least one calculation, every cell outside
`DetCell` may be given any value, except in the control and head columns and, in the custom row, in the
digest column and the state column next to it (for these see `C84_exact`). -/
theorem C84_free {x : Run Fr} {k : ChipKind} {short : Bool} {L' : Layouter Fr} {post : List (Op Fr)}
    {g : Grid Fr} (h : x.Accepted k short L' post g) {s : ℕ} (hen : x.EnabledAfter g s) (h0 : 0 < x.calcs)
    (adv : ℕ → ℕ → Fr)
    (hdiff : ∀ c r, adv c r ≠ g.advice c r → ¬ DetCell x k L' g s c r ∧ c ≠ x.hashTable 3 ∧
      c ≠ x.hashTable 5 ∧ (r = s → c ≠ x.hashTable 0 ∧ c ≠ x.configured.1.aux 5)) :
    x.Accepted k short L' post { g with advice := adv } := by
  have same : ∀ c r, (DetCell x k L' g s c r ∨ c = x.hashTable 3 ∨ c = x.hashTable 5 ∨
      r = s ∧ (c = x.hashTable 0 ∨ c = x.configured.1.aux 5)) → adv c r = g.advice c r := by
    intro c r hc
    by_contra hne
    obtain ⟨d1, d2, d3, d4⟩ := hdiff c r hne
    rcases hc with hc | hc | hc | ⟨hr, hc | hc⟩
    · exact d1 hc
    · exact d2 hc
    · exact d3 hc
    · exact (d4 hr).1 hc
    · exact (d4 hr).2 hc
  have self := (C84_exact h hen h0 g.advice fun _ _ _ => rfl).mp h
  refine (C84_exact h hen h0 adv fun c r hd => same c r (Or.inl hd)).mpr ⟨?_, fun r hr hout => ?_⟩
  · rw [same _ s (Or.inr (Or.inr (Or.inr ⟨rfl, Or.inl rfl⟩))),
      same _ s (Or.inr (Or.inr (Or.inr ⟨rfl, Or.inr rfl⟩)))]
    exact self.1
  · rw [same _ r (Or.inr (Or.inr (Or.inl rfl))), same _ _ (Or.inr (Or.inl rfl))]
    exact self.2 r hr hout

/-- Non-vacuity: the run of `demo` with either chip. In the first row, whose control is 0, the cell of the
inverse may hold anything, and so may the digest in the last row; the cells of `DetCell` include for
instance the continuation flag of row 3, the inverse in row 2 and the digest in row 2. -/
example (k : ChipKind) (short legacy : Bool) (mode : LoadMode) (e v v' : Fr) :
    ∃ (x : Run Fr) (L' : Layouter Fr) (g : Grid Fr), x.calcs = 6 ∧ x.Accepted k short L' [] g ∧
      x.EnabledAfter g 0 ∧
      (∀ adv : ℕ → ℕ → Fr, (adv = fun c r => if c = x.configured.1.controlAux ∧ r = 1 then v
          else if c = x.hashTable 0 ∧ r = 6 then v' else g.advice c r) →
        x.Accepted k short L' [] { g with advice := adv }) ∧
      DetCell x k L' g 0 x.configured.1.sContinue 3 ∧ DetCell x k L' g 0 x.configured.1.controlAux 2 ∧
      DetCell x k L' g 0 (x.hashTable 0) 2 := by
  obtain ⟨ch, L', g, hch, hload, hacc, -, hen, hv⟩ := demo k short legacy mode e
  refine ⟨_, L', g, rfl, hacc, hen, ?_, .cont 3 (by omega) (by simp [demoRun]), .inverse 2 (by omega)
    (by simp [demoRun]) ?_, .table 0 2 (by omega) (by simp [demoRun]) (by simp [demoRun])⟩
  · obtain ⟨⟨lw, -⟩, -⟩ := hacc.bn.lawful
    have conf := Run.configured_eq lw
    have c1 : (demoRun ch short legacy mode e).configured.1.controlAux = 13 := by rw [conf]; rfl
    have c2 : (demoRun ch short legacy mode e).configured.1.sContinue = 12 := by rw [conf]; rfl
    have c3 : ∀ i, (demoRun ch short legacy mode e).configured.1.aux i = 6 + i := fun i => by rw [conf]; rfl
    have c4 : ∀ i : Fin 6, (demoRun ch short legacy mode e).hashTable i = i := fun i => rfl
    have c5 : (demoRun ch short legacy mode e).cs.numAdvice = 6 := rfl
    have c6 : (demoRun ch short legacy mode e).calcs = 6 := rfl
    have hctl := (hv 0 (by omega)).2.1
    rintro adv rfl
    refine C84_free hacc hen (by simp [demoRun]) _ fun c r hne => ?_
    rw [c4, c4, c4, c3]
    rw [c1, c4] at hne
    have hcell : (c = 13 ∧ r = 1) ∨ (c = 0 ∧ r = 6) := by
      by_contra hcon
      push Not at hcon
      apply hne
      rw [if_neg (fun h => hcon.1 h.1 h.2), if_neg (fun h => hcon.2 h.1 h.2)]
    refine ⟨fun hd => ?_, ?_, ?_, ?_⟩
    · generalize hc' : c = c' at hd
      generalize hr' : r = r' at hd
      cases hd with
      | table i r h1 h2 h3 =>
        rw [c4] at hc'
        have : i = 0 := Fin.ext (by simp only [Fin.val_zero]; omega)
        have := h3 this
        omega
      | custom i h =>
        omega
      | aux i r h1 h2 => rw [c3] at hc'; omega
      | cont r h1 h2 => rw [c2] at hc'; omega
      | inverse r h1 h2 h3 =>
        rw [c1] at hc'
        have : r = 0 + 1 := by omega
        rw [← hr', this, hctl] at h3
        simp at h3
      | chip c r v h1 h2 h3 => rw [c5] at h1; omega
    · simp; omega
    · simp; omega
    · simp; omega
  · rw [(hv 1 (by omega)).2.1]
    intro h0
    cases legacy
    · have := fr_big (150 * Base.domainSpec false) (by norm_num [Base.domainSpec]) (by simpa using h0)
      norm_num [Base.domainSpec] at this
    · have := fr_big (150 * Base.domainSpec true) (by norm_num [Base.domainSpec]) (by simpa using h0)
      norm_num [Base.domainSpec] at this

end Props
