import Verif.Circuit.Pow5Sound
import Verif.Circuit.SeptidonBn
import Mathlib.Algebra.Field.Rat

/-!
# Properties of the Pow5 chip: C23, C24, and C46
-/

set_option linter.unusedVariables false
set_option linter.unusedSectionVars false

namespace Props
open Halo2 Circuit

variable {F : Type} [Field F] {t : ℕ}

/-- The textbook permutation with the parameters given to the chip. -/
private noncomputable abbrev textbook5 (S : Pow5.Params F t) : (Fin (t + 1) → F) → Fin (t + 1) → F :=
  Spec.poseidon (fun v => v ^ 5) (Matrix.of S.mReg) (S.fullRounds / 2) S.partialRounds S.rc

/-- Rows of a permutation region: one per full round, one per two partial rounds (one more if odd),
and the final state. -/
def pow5Rows (S : Pow5.Params F t) : ℕ := S.fullRounds + (S.partialRounds + 1) / 2 + 1

private theorem rows_eq (S : Pow5.Params F t) (h : S.fullRounds % 2 = 0) :
    pow5Rows S = Pow5.steps S + 1 := by
  unfold pow5Rows Pow5.steps; omega

/-- The assertions of `configure`: it succeeds exactly for even `R_F` and width at least 2. -/
theorem configure_ok {S : Pow5.Params F t} {cols : Pow5.Cols t} {cs cs' : CS F}
    {c : Pow5.Config F t} (h : Pow5.configureChecked S cols cs = .ok (c, cs')) :
    S.fullRounds % 2 = 0 ∧ 0 < t ∧ c = Pow5.config S cols cs.numSelectors ∧
      cs' = { cs with
        numSelectors := cs.numSelectors + 4
        gates := cs.gates ++ Pow5.gates (Pow5.config S cols cs.numSelectors)
        equality := cs.equality ++ Pow5.eqCols cols } := by
  unfold Pow5.configureChecked at h
  split_ifs at h with h1
  rw [Pow5.configure_eq] at h
  injection h with h
  injection h with e1 e2
  exact ⟨h1.1, h1.2, e1.symm, e2.symm⟩

/-- **C23.** Any width, any even `R_F`, any `R_P`, any constants with `m_reg * m_inv = 1`, any
different columns: whenever `configure` succeeds, place any number of permutation regions on disjoint
row ranges, among any other operations that leave the fixed columns of the chip alone in these rows.
In every grid (any advice) with these fixed columns and selectors on which the gates hold, the last
state row of each region is the textbook permutation of its first state row; and if the copy
constraints hold, the returned cells are the permutation of the given cells. -/
theorem C23_pow5_sound (S : Pow5.Params F t) (hinv : Matrix.of S.mReg * Matrix.of S.mInv = 1)
    (cols : Pow5.Cols t) (hd : cols.Distinct) (cs cs' : CS F) (c : Pow5.Config F t)
    (hcfg : Pow5.configureChecked S cols cs = .ok (c, cs'))
    (regions : List (Words F (t + 1) × ℕ))
    (apart : regions.Pairwise fun q q' => q.2 + pow5Rows S ≤ q'.2 ∨ q'.2 + pow5Rows S ≤ q.2)
    (pre log post : List (Op F))
    (hlog : log = regions.flatMap fun q => (Pow5.permuteBody S c q.1 q.2).ops)
    (hother : ∀ o ∈ pre ++ post, ∀ q ∈ regions, ∀ k r v, o.FixedWrite k r v → cols.IsFixed k →
      ¬ (q.2 ≤ r ∧ r < q.2 + pow5Rows S))
    (g : Grid F) (hfit : Fits log g.n)
    (hfix : ∀ k, cols.IsFixed k → ∀ r < g.n, g.fixed k r = finalFixed (pre ++ log ++ post) k r)
    (hsel : ∀ k, cs.numSelectors ≤ k → k < cs'.numSelectors → ∀ r < g.n,
      g.selector k r = finalSelector (pre ++ log ++ post) k r)
    (hgates : ∀ p ∈ cs'.gates, p.Holds g) :
    ∀ q ∈ regions,
      (∀ i, g.advice (cols.state i) (q.2 + (pow5Rows S - 1)) =
        textbook5 S (fun i => g.advice (cols.state i) q.2) i) ∧
      (CopiesHold g log → ∀ i, g.cell ((Pow5.permuteBody S c q.1 q.2).val i).cell =
        textbook5 S (fun i => g.cell (q.1 i).cell) i) := by
  obtain ⟨hev, -, rfl, rfl⟩ := configure_ok hcfg
  rw [rows_eq S hev] at apart hother ⊢
  have hlog' : log = Pow5.placedOps S cols cs.numSelectors regions := hlog
  have hcons := Pow5.placed_cons S cols cs.numSelectors hd regions apart
  rw [← hlog'] at hcons
  intro q hq
  have sub : ∀ op ∈ (Pow5.permuteBody S (Pow5.config S cols cs.numSelectors) q.1 q.2).ops,
      op ∈ log := fun op h => by
    rw [hlog]; exact List.mem_flatMap.mpr ⟨q, hq, h⟩
  have hn : q.2 + Pow5.steps S < g.n := by
    have := hfit _ (sub _ (((Pow5.permuteBody_spec S cols cs.numSelectors q.2 q.1).2 _).mpr
      (Or.inl (.state (Pow5.steps S) le_rfl 0))))
    simp only [Op.bottom] at this
    omega
  have key := Pow5.placed_sound S cols cs.numSelectors g hinv q hn (by
      intro k hk r hm
      have hb := hfit _ (sub _ hm)
      simp only [Op.bottom] at hb
      rw [hsel _ (by omega) (by simp only; omega) r (by omega), finalSelector_iff]
      exact List.mem_append_left _ (List.mem_append_right _ (sub _ hm))) (by
      intro k r v hm
      have hb := hfit _ (sub _ hm)
      simp only [Op.bottom] at hb
      have hk : cols.IsFixed k ∧ q.2 ≤ r ∧ r < q.2 + (Pow5.steps S + 1) := by
        rcases ((Pow5.permuteBody_spec S cols cs.numSelectors q.2 q.1).2 _).mp hm with h | ⟨i, h⟩
        · generalize ho : Op.fixed k r v = op at h
          cases h with
          | rcA o _ i =>
            injection ho with e1 e2
            exact ⟨Or.inl ⟨i, e1⟩, by omega, by omega⟩
          | rcB o _ _ i =>
            injection ho with e1 e2
            exact ⟨Or.inr ⟨i, e1⟩, by omega, by omega⟩
          | _ => cases ho
        · cases h
      rw [hfix k hk.1 r (by omega)]
      refine finalFixed_eq ⟨_, List.mem_append_left _ (List.mem_append_right _ (sub _ hm)),
        Or.inl rfl⟩ fun o ho v' hw => ?_
      simp only [List.mem_append] at ho
      rcases ho with (ho | ho) | ho
      · exact absurd hk.2 (hother o (List.mem_append_left _ ho) q hq k r v' hw hk.1)
      · have := hcons o ho _ (sub _ hm) (.fixed k) (Set.mem_univ _) r hw.hits.1 ⟨rfl, rfl⟩
        rw [hw.hits.2] at this
        exact this
      · exact absurd hk.2 (hother o (List.mem_append_right _ ho) q hq k r v' hw hk.1))
    (fun p hp => hgates p (List.mem_append_right _ hp))
  refine ⟨fun i => congrFun key i, fun hcp i => ?_⟩
  rw [(Pow5.permuteBody_spec S cols cs.numSelectors q.2 q.1).1]
  refine (congrFun key i).trans ?_
  show Pow5.perm S _ i = Pow5.perm S _ i
  congr 1
  funext k
  refine hcp ⟨.advice (cols.state k), q.2⟩ _ ?_
  exact sub _ (((Pow5.permuteBody_spec S cols cs.numSelectors q.2 q.1).2 _).mpr (Or.inr ⟨k, rfl⟩))

/-- **C24.** For every list of states, permuting them one after the other (this is also what
`permute_batch` of this chip does) succeeds and returns words carrying the permuted states; whatever
is written to other columns, in every grid holding the written cells (arbitrary values in the
blinding rows and in other columns) every gate the chip added holds on every row, the returned cells
hold the returned values, and the copy constraints hold as soon as the given cells hold their
values. -/
theorem C24_pow5_complete (S : Pow5.Params F t) (hinv : Matrix.of S.mReg * Matrix.of S.mInv = 1)
    (cols : Pow5.Cols t) (hd : cols.Distinct) (cs cs' : CS F) (c : Pow5.Config F t)
    (hcfg : Pow5.configureChecked S cols cs = .ok (c, cs')) (L : Layouter F)
    (states : List (Words F (t + 1))) :
    ∃ (outs : List (Words F (t + 1))) (L' : Layouter F) (log : List (Op F)),
      mapPermute (Pow5.permute S c) L states = .ok (outs, L') ∧
      L'.ops = L.ops ++ log ∧
      outs.map (fun w i => (w i).value) = states.map (fun w => textbook5 S fun i => (w i).value) ∧
      ∀ (post : List (Op F)) (g : Grid F),
        (∀ o ∈ L.ops ++ post, ∀ k r v,
          (o.FixedWrite k r v → ¬ cols.IsFixed k) ∧ (o = .advice k r v → ¬ cols.IsAdvice k) ∧
          (o = .selector k r → ¬ (cs.numSelectors ≤ k ∧ k < cs'.numSelectors))) →
        Fits log g.usable →
        HonestFor g (L'.ops ++ post) {k | cols.IsFixed k}
          {k | cs.numSelectors ≤ k ∧ k < cs'.numSelectors} {k | cols.IsAdvice k} →
        (∀ p ∈ cs'.gates, p ∈ cs.gates ∨ p.Holds g) ∧
        (∀ w ∈ outs, ∀ i, g.cell (w i).cell = (w i).value) ∧
        ((∀ w ∈ states, ∀ i, g.cell (w i).cell = (w i).value) → CopiesHold g log) := by
  obtain ⟨hev, -, rfl, rfl⟩ := configure_ok hcfg
  obtain ⟨s, L', e, ho, -⟩ := Pow5.serial_ok S cols cs.numSelectors states L
  refine ⟨_, L', _, e, ho, ?_, ?_⟩
  · have := forall₂_placeAt (fun w o => (fun i => (o i).value) =
      textbook5 S fun i => (w i).value)
      (fun q => Pow5.stWords S cols (fun i => (q.1 i).value) q.2 (Pow5.steps S)) states
      (stack (Pow5.steps S + 1) s) fun q _ => by
        simp only [Pow5.stWords, Pow5.xAt_steps]; rfl
    rw [← Pow5.placedOut] at this
    generalize Pow5.placedOut S cols states (stack (Pow5.steps S + 1) s) = outs at this
    clear e ho
    induction this with
    | nil => rfl
    | cons h _ ih => simp only [List.map_cons, ih, h]
  · intro post g hother hfit hg
    rw [ho] at hg
    obtain ⟨h1, h2⟩ := Pow5.placed_complete S cols cs.numSelectors g hinv hd _
      (placeAt_apart _ states _ (RowsApart.stack _ _ _)) hg.usable_le hfit
      (fun k hk r hr => (hg.fixed k hk r hr).trans (finalFixed_between
        (fun o ho r v hw => (hother o (List.mem_append_left _ ho) k r v).1 hw hk)
        (fun o ho r v hw => (hother o (List.mem_append_right _ ho) k r v).1 hw hk) r))
      (fun k hk r hr => (hg.selector _ ⟨by omega, by simp only; omega⟩ r hr).trans
        (finalSelector_between
        (fun r ho => (hother _ (List.mem_append_left _ ho) _ r 0).2.2 rfl ⟨by omega, by simp only; omega⟩)
        (fun r ho => (hother _ (List.mem_append_right _ ho) _ r 0).2.2 rfl
          ⟨by omega, by simp only; omega⟩) r))
      (fun k hk r hr => (hg.advice k hk r hr).trans (finalAdvice_between
        (fun r v ho => (hother _ (List.mem_append_left _ ho) k r v).2.1 rfl hk)
        (fun r v ho => (hother _ (List.mem_append_right _ ho) k r v).2.1 rfl hk) r))
    refine ⟨fun p hp => ?_, ?_, fun hin x y hxy => ?_⟩
    · rcases List.mem_append.mp hp with h | h
      · exact Or.inl h
      · exact Or.inr (h1 p h)
    · intro o ho i
      obtain ⟨q, hq, rfl⟩ := List.mem_map.mp ho
      refine (congrFun (h2 q hq).2 i).trans ?_
      simp only [Pow5.stWords, Pow5.xAt_steps]
    · obtain ⟨q, hq, h | ⟨i, h⟩⟩ := (Pow5.mem_placedOps S cols cs.numSelectors _ _).mp hxy
      · cases h
      · cases h
        exact (congrFun (h2 q hq).1 i).trans
          (hin q.1 (placeAt_mem states _ q hq).1 i).symm

/-- Parameters of width 2 with an odd number of partial rounds. -/
private def exParams : Pow5.Params ℚ 1 :=
  ⟨2, 3, fun r i => r + i.val, ![![1, 1], ![1, 2]], ![![2, -1], ![-1, 1]]⟩
private def exCols : Pow5.Cols 1 := ⟨![4, 2], 3, ![1, 5], ![0, 6]⟩
private def exCs : CS ℚ := ⟨7, 9, 2, [⟨"other", [.advice 0 0]⟩], [], []⟩

/-- Non-vacuity of C23 and C24: odd `R_P`, scattered columns, a foreign gate; `configure` succeeds, two
permutations fit and an honest grid with nonzero blinding exists, on which the gates hold. -/
example (w : Words ℚ 2) : exCols.Distinct ∧
    Matrix.of exParams.mReg * Matrix.of exParams.mInv = 1 ∧
    ∃ c cs', Pow5.configureChecked exParams exCols exCs = .ok (c, cs') ∧
    ∃ outs L', mapPermute (Pow5.permute exParams c) ⟨fun _ => 3, none, []⟩ [w, w] = .ok (outs, L') ∧
    ∃ g : Grid ℚ, g.usable < g.n ∧ Fits L'.ops g.usable ∧ L'.ops ≠ [] ∧
      HonestFor g L'.ops {k | exCols.IsFixed k}
        {k | exCs.numSelectors ≤ k ∧ k < cs'.numSelectors} {k | exCols.IsAdvice k} ∧
      ∀ p ∈ cs'.gates, p ∈ exCs.gates ∨ p.Holds g := by
  have hd : exCols.Distinct := by
    constructor <;> simp [exCols, Function.Injective, Fin.forall_fin_two]
  have hinv : Matrix.of exParams.mReg * Matrix.of exParams.mInv = 1 := by
    ext i j
    fin_cases i <;> fin_cases j <;> norm_num [exParams, Matrix.mul_apply, Fin.sum_univ_succ]
  obtain ⟨c, cs', hcfg⟩ : ∃ c cs', Pow5.configureChecked exParams exCols exCs = .ok (c, cs') := by
    unfold Pow5.configureChecked
    rw [if_pos (by simp [exParams]), Pow5.configure_eq]
    exact ⟨_, _, rfl⟩
  refine ⟨hd, hinv, c, cs', hcfg, ?_⟩
  obtain ⟨outs, L', log, e, ho, -, h⟩ :=
    C24_pow5_complete exParams hinv exCols hd exCs _ _ hcfg ⟨fun _ => 3, none, []⟩ [w, w]
  have ec := (configure_ok hcfg).2.2.1
  clear hcfg
  obtain ⟨N, hN⟩ : ∃ N, ∀ o ∈ log, o.bottom ≤ N := by
    refine ⟨(log.map Op.bottom).foldl max 0, fun o ho => ?_⟩
    exact le_foldl_max (Or.inl (List.mem_map.mpr ⟨o, ho, rfl⟩))
  have hL : L'.ops = log := by simpa using ho
  let g : Grid ℚ := ⟨N + 5, N, fun c r => if r < N then finalAdvice log c r else 5,
    finalFixed log, finalSelector log⟩
  refine ⟨outs, L', e, g, by simp [g], by rw [hL]; exact hN, ?_, ?_, ?_⟩
  · rw [hL]
    obtain ⟨s, L'', e', ho', -⟩ := Pow5.serial_ok exParams exCols exCs.numSelectors [w, w]
      ⟨fun _ => 3, none, []⟩
    rw [ec, e'] at e
    injection e with e
    injection e with e1 e2
    rw [← hL, ← e2, ho']
    intro hnil
    have := (Pow5.mem_placedOps exParams exCols exCs.numSelectors
      (placeAt [w, w] (stack (Pow5.steps exParams + 1) s)) (.copy ⟨.advice (exCols.state 0), s⟩ (w 0).cell)).mpr
      ⟨(w, s), by simp [placeAt_stack], Or.inr ⟨0, rfl⟩⟩
    rw [List.nil_append] at hnil
    rw [hnil] at this
    simp at this
  · rw [hL]
    exact ⟨by simp [g], fun _ _ _ _ => rfl, fun _ _ _ _ => rfl, fun c _ r hr => if_pos hr⟩
  · refine (h [] g (by simp) hN ?_).1
    rw [List.append_nil, hL]
    exact ⟨by simp [g], fun _ _ _ _ => rfl, fun _ _ _ _ => rfl, fun c _ r hr => if_pos hr⟩

/-! ## C46 -/

open Base Base.Bn256

/-- The Pow5 chip with the constants of the crate over `bn256::Fr`: `mi` is the inverse matrix. -/
def pow5Bn (rc : List (State Fr 3)) (mi : Mds Fr 3) : Pow5.Params Fr 2 :=
  ⟨8, 57, fun r => rc.getD r 0, mds, mi⟩

/-- **C46.** Over `bn256::Fr`, for every list of states and any layouters: the Septidon chip (with the
compact constants), the Pow5 chip with the raw constants and the Pow5 chip with the compact constants
all succeed and return words carrying the same states, which are those of the native
`Hash::permute`. -/
theorem C46_chips_agree : ∃ rc mi, cachedRoundConstants = .ok rc ∧ mdsInv mds = .ok mi ∧
    ∀ (cs cs₁ cs₂ : CS Fr) (L L₁ L₂ : Layouter Fr) (states : List (Words Fr 3)) (threads : ℕ)
      (short : Bool),
    ∃ o L' o₁ L₁' o₂ L₂',
      Septidon.permuteBatch mds (fun r => rc.getD r 0)
        (Septidon.configure mds (fun r => rc.getD r 0) cs).1 threads L states = .ok (o, L') ∧
      mapPermute (Pow5.permute (pow5Bn roundConstants mi)
        (Pow5.configureChip (pow5Bn roundConstants mi) cs₁).1) L₁ states = .ok (o₁, L₁') ∧
      mapPermute (Pow5.permute (pow5Bn rc mi) (Pow5.configureChip (pow5Bn rc mi) cs₂).1) L₂ states =
        .ok (o₂, L₂') ∧
      o.map (fun w i => (w i).value) = o₁.map (fun w i => (w i).value) ∧
      o₁.map (fun w i => (w i).value) = o₂.map (fun w i => (w i).value) ∧
      states.mapM (fun w => permuteFr short fun i => (w i).value) =
        .ok (o.map fun w i => (w i).value) := by
  obtain ⟨rc, h1, h2, h3, h4⟩ := Septidon.bn_table
  obtain ⟨rc', e1, -, e3, -⟩ := cached_ok
  rw [h1] at e1
  cases e1
  have hmi : mdsInv mds = .ok (fun i j => ((Matrix.of mds)⁻¹) i j) := by
    rw [mdsInv_eq, if_neg det_ne_zero]
  refine ⟨rc, _, h1, hmi, ?_⟩
  intro cs cs₁ cs₂ L L₁ L₂ states threads short
  obtain ⟨s, L', a1, -⟩ := (Septidon.lawful mds (Septidon.table rc) h3).batch cs.numAdvice cs.numFixed 0 L
    threads states
  have v := (Septidon.lawful mds (Septidon.table rc) h3).values cs.numAdvice cs.numFixed 0 states
      (stack (Septidon.lawful mds (Septidon.table rc) h3).height s)
  have c0 : (Septidon.configure mds (fun r => rc.getD r 0) cs).1 =
      Septidon.config cs.numAdvice cs.numFixed := by rw [Septidon.configure_eq]
  have c1 : ∀ rc mi (cs : CS Fr), (Pow5.configureChip (pow5Bn rc mi) cs).1 =
      Pow5.config (pow5Bn rc mi) (Pow5.chipCols cs.numAdvice cs.numFixed) cs.numSelectors := by
    intro rc mi cs; rw [Pow5.configureChip_eq]
  rw [c0, c1, c1]
  obtain ⟨s₁, L₁', b1, -⟩ := Pow5.serial_ok (pow5Bn roundConstants fun i j => ((Matrix.of mds)⁻¹) i j)
    (Pow5.chipCols cs₁.numAdvice cs₁.numFixed) cs₁.numSelectors states L₁
  obtain ⟨s₂, L₂', b2, -⟩ := Pow5.serial_ok (pow5Bn rc fun i j => ((Matrix.of mds)⁻¹) i j)
    (Pow5.chipCols cs₂.numAdvice cs₂.numFixed) cs₂.numSelectors states L₂
  have val : ∀ (S : Pow5.Params Fr 2) (cols : Pow5.Cols 2) (s : ℕ),
      (Pow5.placedOut S cols states (stack (Pow5.steps S + 1) s)).map (fun w i => (w i).value) =
        states.map fun w => Pow5.perm S fun i => (w i).value := by
    intro S cols s
    have := forall₂_placeAt (fun w o => (fun i => (o i).value) =
      Pow5.perm S fun i => (w i).value)
      (fun q => Pow5.stWords S cols (fun i => (q.1 i).value) q.2 (Pow5.steps S)) states
      (stack (Pow5.steps S + 1) s) fun q _ => by
        simp only [Pow5.stWords, Pow5.xAt_steps]
    rw [← Pow5.placedOut] at this
    generalize Pow5.placedOut S cols states (stack (Pow5.steps S + 1) s) = outs at this
    clear b1 b2 v a1
    induction this with
    | nil => rfl
    | cons h _ ih => simp only [List.map_cons, ih, h]
  have p1 : Pow5.perm (pow5Bn roundConstants fun i j => ((Matrix.of mds)⁻¹) i j) = specPerm := rfl
  have p2 : Pow5.perm (pow5Bn rc fun i j => ((Matrix.of mds)⁻¹) i j) = specPerm := by
    rw [← h4]
    unfold Pow5.perm Septidon.perm
    have : (pow5Bn rc fun i j => ((Matrix.of mds)⁻¹) i j).rc = Septidon.table rc := rfl
    rw [this]
    have e2 : (pow5Bn rc fun i j => ((Matrix.of mds)⁻¹) i j).mReg = mds := rfl
    have e3 : (pow5Bn rc fun i j => ((Matrix.of mds)⁻¹) i j).fullRounds / 2 = 4 := by
      show (8 : ℕ) / 2 = 4
      norm_num
    have e4 : (pow5Bn rc fun i j => ((Matrix.of mds)⁻¹) i j).partialRounds = 57 := rfl
    rw [e2, e3, e4]
  have vo : ((Septidon.lawful mds (Septidon.table rc) h3).outs cs.numAdvice cs.numFixed 0 states
          (stack (Septidon.lawful mds (Septidon.table rc) h3).height s)).map
      (fun w i => (w i).value) = states.map fun w => specPerm fun i => (w i).value := by
    rw [← h4]
    generalize (Septidon.lawful mds (Septidon.table rc) h3).outs cs.numAdvice cs.numFixed 0 states
      (stack (Septidon.lawful mds (Septidon.table rc) h3).height s) =
      outs at v
    clear a1 b1 b2 val
    induction v with
    | nil => rfl
    | cons h _ ih =>
      simp only [List.map_cons, List.cons.injEq]
      exact ⟨funext h, ih⟩
  refine ⟨_, L', _, L₁', _, L₂', a1, b1, b2, ?_, ?_, ?_⟩
  · rw [vo, val, p1]
  · rw [val, val, p1, p2]
  · rw [vo]
    apply mapM_ok
    intro w _
    simp only [permuteFr, h1, bind, Except.bind, pure, Except.pure, e3]

end Props
