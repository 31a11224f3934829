import Verif.Circuit.Pow5Lemmas

/-!
# Pow5 chip: soundness and completeness of placed regions
-/

set_option linter.unusedVariables false
set_option linter.unusedSectionVars false
set_option linter.unusedSimpArgs false

open Halo2

namespace Circuit.Pow5

variable {F : Type} [Field F] {t : ℕ}

/-- The columns given to `configure` are pairwise different. -/
structure Cols.Distinct (cols : Cols t) : Prop where
  state : Function.Injective cols.state
  sbox : ∀ i, cols.state i ≠ cols.partialSbox
  rcA : Function.Injective cols.rcA
  rcB : Function.Injective cols.rcB
  rcAB : ∀ i j, cols.rcA i ≠ cols.rcB j

/-- Advice and fixed columns of the chip. -/
def Cols.IsAdvice (cols : Cols t) (c : ℕ) : Prop := (∃ i, c = cols.state i) ∨ c = cols.partialSbox
def Cols.IsFixed (cols : Cols t) (c : ℕ) : Prop := (∃ i, c = cols.rcA i) ∨ ∃ i, c = cols.rcB i

section
variable (S : Params F t) (cols : Cols t) (σ : ℕ)

theorem selAt_lt (o : ℕ) : σ ≤ selAt S σ o ∧ selAt S σ o < σ + 3 := by
  unfold selAt; split <;> omega

theorem selAt_full {o : ℕ} : selAt S σ o = σ ↔ kindAt S o = .full := by
  unfold selAt; split <;> simp_all

theorem selAt_double {o : ℕ} : selAt S σ o = σ + 1 ↔ kindAt S o = .double := by
  unfold selAt; split <;> simp_all

theorem selAt_single {o : ℕ} : selAt S σ o = σ + 2 ↔ kindAt S o = .single := by
  unfold selAt; split <;> simp_all

/-! ## One region -/

/-- In a grid with the right fixed cells and selectors, the gates force the trace. -/
theorem block_sound (g : Grid F) (hinv : Matrix.of S.mReg * Matrix.of S.mInv = 1) (s : ℕ)
    (hn : s + steps S < g.n)
    (hsel : ∀ o < steps S, g.selector (selAt S σ o) (s + o) = true)
    (hA : ∀ o < steps S, ∀ i, g.fixed (cols.rcA i) (s + o) = S.rc (roundAt S o) i)
    (hB : ∀ o < steps S, kindAt S o = .double → ∀ i,
      g.fixed (cols.rcB i) (s + o) = S.rc (roundAt S o + 1) i)
    (hg : ∀ p ∈ gates (config S cols σ), p.Holds g) :
    cur g (config S cols σ) (s + steps S) = perm S (cur g (config S cols σ) s) := by
  rw [gates_iff] at hg
  have key : ∀ o ≤ steps S, cur g (config S cols σ) (s + o) =
      xAt S (cur g (config S cols σ) s) o := by
    intro o
    induction o with
    | zero => intro _; rw [xAt_zero]; rfl
    | succ o ih =>
      intro ho
      have ih := ih (by omega)
      have hrot : g.rot (s + o) 1 = s + (o + 1) :=
        g.rot_of_lt _ (by push_cast; ring) (by omega)
      obtain ⟨h1, h2, h3, -⟩ := hg (s + o) (by omega)
      rw [hrot] at h1 h2 h3
      have hs := hsel o (by omega)
      have hrc : rcAt g (config S cols σ) (s + o) = S.rc (roundAt S o) := by
        funext i; exact hA o (by omega) i
      cases hk : kindAt S o with
      | full =>
        rw [(selAt_full S σ).mpr hk] at hs
        have := h1 hs
        unfold FullRow at this
        rw [this, ih, hrc, xAt_full S _ o (by omega) hk]; rfl
      | double =>
        rw [(selAt_double S σ).mpr hk] at hs
        have := ((doubleRow_iff g (config S cols σ) hinv _ _).mp (h2 hs)).2
        have hrb : rcBt g (config S cols σ) (s + o) = S.rc (roundAt S o + 1) := by
          funext i; exact hB o (by omega) hk i
        rw [this, ih, hrc, hrb, xAt_double S _ o hk]; rfl
      | single =>
        rw [(selAt_single S σ).mpr hk] at hs
        have := h3 hs
        unfold SingleRow at this
        rw [this, ih, hrc, xAt_single S _ o hk]; rfl
  rw [key _ le_rfl, xAt_steps]

/-- The written cells of a row satisfy its gate. -/
theorem row_complete (g : Grid F) (hinv : Matrix.of S.mReg * Matrix.of S.mInv = 1)
    (x : Fin (t + 1) → F) (s : ℕ)
    (hadv : ∀ c r v, BlockOp S cols σ x s (.advice c r v) → g.advice c r = v)
    (hfix : ∀ c r v, BlockOp S cols σ x s (.fixed c r v) → g.fixed c r = v) (o : ℕ)
    (ho : o < steps S) :
    (kindAt S o = .full → FullRow g (config S cols σ) (s + o) (s + (o + 1))) ∧
    (kindAt S o = .double → DoubleRow g (config S cols σ) (s + o) (s + (o + 1))) ∧
    (kindAt S o = .single → SingleRow g (config S cols σ) (s + o) (s + (o + 1))) := by
  have hx : ∀ o ≤ steps S, cur g (config S cols σ) (s + o) = xAt S x o := by
    intro o ho; funext i
    exact hadv _ _ _ (.state o ho i)
  have hrc : rcAt g (config S cols σ) (s + o) = S.rc (roundAt S o) := by
    funext i; exact hfix _ _ _ (.rcA o ho i)
  refine ⟨fun hk => ?_, fun hk => ?_, fun hk => ?_⟩
  · unfold FullRow
    rw [hx o (by omega), hx (o + 1) (by omega), hrc, xAt_full S _ o ho hk]; rfl
  · rw [doubleRow_iff g (config S cols σ) hinv]
    have hrb : rcBt g (config S cols σ) (s + o) = S.rc (roundAt S o + 1) := by
      funext i; exact hfix _ _ _ (.rcB o ho hk i)
    rw [hx o (by omega), hx (o + 1) (by omega), hrc, hrb, xAt_double S _ o hk]
    exact ⟨hadv _ _ _ (.sbox o ho hk), rfl⟩
  · unfold SingleRow
    rw [hx o (by omega), hx (o + 1) (by omega), hrc, xAt_single S _ o hk]; rfl

/-- The operations of an `add_input` region, as far as its gate is concerned. -/
def PadOps (ops : List (Op F)) (s : ℕ) : Prop :=
  ∃ (u : Fin (t + 1) → F) (v : Fin t → F),
    (∀ i, Op.advice (cols.state i) s (u i) ∈ ops) ∧
    (∀ k : Fin t, Op.advice (cols.state k.castSucc) (s + 1) (v k) ∈ ops) ∧
    (∀ k : Fin t, Op.advice (cols.state k.castSucc) (s + 2) (u k.castSucc + v k) ∈ ops) ∧
    Op.advice (cols.state (Fin.last t)) (s + 2) (u (Fin.last t)) ∈ ops

/-- If every enabled selector comes from a region of the chip, honest cells satisfy all gates. -/
theorem log_complete (g : Grid F) (hinv : Matrix.of S.mReg * Matrix.of S.mInv = 1)
    (ops : List (Op F)) (hu : g.usable ≤ g.n) (hfit : Fits ops g.usable)
    (hadv : ∀ c r v, cols.IsAdvice c → Op.advice c r v ∈ ops → g.advice c r = v)
    (hfix : ∀ c r v, cols.IsFixed c → Op.fixed c r v ∈ ops → g.fixed c r = v)
    (hsel : ∀ k < 4, ∀ r < g.n, g.selector (σ + k) r = finalSelector ops (σ + k) r)
    (hj : ∀ k < 4, ∀ r, Op.selector (σ + k) r ∈ ops →
      (∃ x s, (∀ op, BlockOp S cols σ x s op → op ∈ ops) ∧ BlockOp S cols σ x s (.selector (σ + k) r)) ∨
      (k = 3 ∧ ∃ s, r = s + 1 ∧ PadOps cols ops s)) :
    ∀ p ∈ gates (config S cols σ), p.Holds g := by
  have block : ∀ k < 3, ∀ r < g.n, g.selector (σ + k) r = true → ∃ o s, ∃ x : Fin (t + 1) → F,
      o < steps S ∧ selAt S σ o = σ + k ∧ r = s + o ∧ g.rot r 1 = s + (o + 1) ∧
      (∀ op, BlockOp S cols σ x s op → op ∈ ops) := by
    intro k hk r hr hs
    rw [hsel k (by omega) r hr, finalSelector_iff] at hs
    rcases hj k (by omega) r hs with ⟨x, s, h1, h2⟩ | ⟨h, -⟩
    · generalize ho : Op.selector (σ + k) r = op at h2
      cases h2 with
      | sel o hlt =>
        injection ho with e1 e2
        refine ⟨o, s, x, hlt, e1.symm, e2, ?_, h1⟩
        have hb := hfit _ (h1 _ (.state (o + 1) (by omega) 0))
        simp only [Op.bottom] at hb
        exact g.rot_of_lt _ (by rw [e2]; push_cast; ring) (by omega)
      | _ => cases ho
    · omega
  have honest : ∀ (x : Fin (t + 1) → F) s, (∀ op, BlockOp S cols σ x s op → op ∈ ops) →
      (∀ c r v, BlockOp S cols σ x s (.advice c r v) → g.advice c r = v) ∧
      (∀ c r v, BlockOp S cols σ x s (.fixed c r v) → g.fixed c r = v) := by
    intro x s h
    constructor
    · intro c r v hb
      refine hadv c r v ?_ (h _ hb)
      generalize ho : Op.advice c r v = op at hb
      cases hb with
      | state o _ i => injection ho with e; exact Or.inl ⟨i, e⟩
      | sbox o _ _ => injection ho with e; exact Or.inr e
      | _ => cases ho
    · intro c r v hb
      refine hfix c r v ?_ (h _ hb)
      generalize ho : Op.fixed c r v = op at hb
      cases hb with
      | rcA o _ i => injection ho with e; exact Or.inl ⟨i, e⟩
      | rcB o _ _ i => injection ho with e; exact Or.inr ⟨i, e⟩
      | _ => cases ho
  rw [gates_iff]
  intro r hr
  refine ⟨fun hs => ?_, fun hs => ?_, fun hs => ?_, fun hs => ?_⟩
  · obtain ⟨o, s, x, ho, hsl, rfl, hrot, hm⟩ := block 0 (by omega) r hr hs
    rw [hrot]
    exact (row_complete S cols σ g hinv x s (honest x s hm).1 (honest x s hm).2 o ho).1
      ((selAt_full S σ).mp hsl)
  · obtain ⟨o, s, x, ho, hsl, rfl, hrot, hm⟩ := block 1 (by omega) r hr hs
    rw [hrot]
    exact (row_complete S cols σ g hinv x s (honest x s hm).1 (honest x s hm).2 o ho).2.1
      ((selAt_double S σ).mp hsl)
  · obtain ⟨o, s, x, ho, hsl, rfl, hrot, hm⟩ := block 2 (by omega) r hr hs
    rw [hrot]
    exact (row_complete S cols σ g hinv x s (honest x s hm).1 (honest x s hm).2 o ho).2.2
      ((selAt_single S σ).mp hsl)
  · have hs' : g.selector (σ + 3) r = true := hs
    rw [hsel 3 (by omega) r hr, finalSelector_iff] at hs'
    rcases hj 3 (by omega) r hs' with ⟨x, s, h1, h2⟩ | ⟨-, s, rfl, u, v, h0, h1, h2, h3⟩
    · generalize ho : Op.selector (σ + 3) r = op at h2
      cases h2 with
      | sel o hlt =>
        injection ho with e1 e2
        have := (selAt_lt S σ o).2
        omega
      | _ => cases ho
    · have hb := hfit _ h3
      simp only [Op.bottom] at hb
      rw [g.rot_of_lt (k := 1) (s + 2) (by push_cast; ring) (by omega),
        g.rot_of_lt (k := -1) s (by push_cast; ring) (by omega)]
      have a0 : ∀ i, g.advice (cols.state i) s = u i := fun i =>
        hadv _ _ _ (Or.inl ⟨i, rfl⟩) (h0 i)
      refine ⟨fun k => ?_, ?_⟩
      · have e1 := hadv _ _ _ (Or.inl ⟨_, rfl⟩) (h1 k)
        have e2 := hadv _ _ _ (Or.inl ⟨_, rfl⟩) (h2 k)
        have e0 := a0 k.castSucc
        simp only [cur, config]
        rw [e0, e1, e2]
      · have e2 := hadv _ _ _ (Or.inl ⟨_, rfl⟩) h3
        simp only [cur, config]
        rw [a0, e2]

/-! ## Layout -/

/-- Columns in the shape of a permutation region. -/
def UsesCol (k : RCol) : Prop :=
  (∃ i, k = .advice (cols.state i)) ∨ (∃ o < steps S, k = .selector (selAt S σ o)) ∨
  (0 < steps S ∧ ∃ i, k = .fixed (cols.rcA i)) ∨
  ((∃ o < steps S, kindAt S o = .double) ∧ (k = .advice cols.partialSbox ∨ ∃ i, k = .fixed (cols.rcB i)))

theorem permute_shapeCols (w : Words F (t + 1)) (s : ℕ) (k : RCol) :
    k ∈ Layouter.shapeCols (permuteBody S (config S cols σ) w s).ops ↔ UsesCol S cols σ k := by
  rw [Layouter.mem_shapeCols]
  constructor
  · rintro ⟨op, hop, hk⟩
    rcases ((permuteBody_spec S cols σ s w).2 op).mp hop with h | ⟨i, rfl⟩
    · cases h with
      | state o ho i => injection hk with hk; exact Or.inl ⟨i, hk.symm⟩
      | sel o ho => injection hk with hk; exact Or.inr (Or.inl ⟨o, ho, hk.symm⟩)
      | rcA o ho i =>
        injection hk with hk; exact Or.inr (Or.inr (Or.inl ⟨by omega, i, hk.symm⟩))
      | sbox o ho hd =>
        injection hk with hk; exact Or.inr (Or.inr (Or.inr ⟨⟨o, ho, hd⟩, Or.inl hk.symm⟩))
      | rcB o ho hd i =>
        injection hk with hk; exact Or.inr (Or.inr (Or.inr ⟨⟨o, ho, hd⟩, Or.inr ⟨i, hk.symm⟩⟩))
    · cases hk
  · have mk : ∀ op, BlockOp S cols σ (fun i => (w i).value) s op →
        op ∈ (permuteBody S (config S cols σ) w s).ops := fun op h =>
      ((permuteBody_spec S cols σ s w).2 op).mpr (Or.inl h)
    rintro (⟨i, rfl⟩ | ⟨o, ho, rfl⟩ | ⟨h0, i, rfl⟩ | ⟨⟨o, ho, hd⟩, rfl | ⟨i, rfl⟩⟩)
    · exact ⟨_, mk _ (.state 0 (by omega) i), rfl⟩
    · exact ⟨_, mk _ (.sel o ho), rfl⟩
    · exact ⟨_, mk _ (.rcA 0 h0 i), rfl⟩
    · exact ⟨_, mk _ (.sbox o ho hd), rfl⟩
    · exact ⟨_, mk _ (.rcB o ho hd i), rfl⟩

theorem permute_shapeRows (w : Words F (t + 1)) :
    Layouter.shapeRows (permuteBody S (config S cols σ) w 0).ops = steps S + 1 := by
  apply Layouter.shapeRows_eq
  · intro op hop
    rcases ((permuteBody_spec S cols σ 0 w).2 op).mp hop with h | ⟨i, rfl⟩
    · cases h <;> simp only [Op.bottom] <;> omega
    · simp [Op.bottom]
  · refine ⟨_, ((permuteBody_spec S cols σ 0 w).2 _).mpr (Or.inl (.state (steps S) le_rfl 0)), ?_⟩
    simp [Op.bottom]

theorem permute_noConst (w : Words F (t + 1)) (s : ℕ) (c : Cell) (v : F) :
    Op.constant c v ∉ (permuteBody S (config S cols σ) w s).ops := by
  intro h
  rcases ((permuteBody_spec S cols σ s w).2 _).mp h with h | ⟨i, h⟩ <;> cases h

/-- Writes of a region: in its rows and its columns. -/
theorem BlockOp.hits {x : Fin (t + 1) → F} {s : ℕ} {op : Op F} (h : BlockOp S cols σ x s op)
    {k : RCol} {r : ℕ} (hh : op.Hits k r) : s ≤ r ∧ r < s + (steps S + 1) ∧ UsesCol S cols σ k := by
  cases h with
  | state o ho i => obtain ⟨rfl, rfl⟩ := hh; exact ⟨by omega, by omega, Or.inl ⟨i, rfl⟩⟩
  | sel o ho => obtain ⟨rfl, rfl⟩ := hh; exact ⟨by omega, by omega, Or.inr (Or.inl ⟨o, ho, rfl⟩)⟩
  | rcA o ho i =>
    obtain ⟨rfl, rfl⟩ := hh
    exact ⟨by omega, by omega, Or.inr (Or.inr (Or.inl ⟨by omega, i, rfl⟩))⟩
  | sbox o ho hd =>
    obtain ⟨rfl, rfl⟩ := hh
    exact ⟨by omega, by omega, Or.inr (Or.inr (Or.inr ⟨⟨o, ho, hd⟩, Or.inl rfl⟩))⟩
  | rcB o ho hd i =>
    obtain ⟨rfl, rfl⟩ := hh
    exact ⟨by omega, by omega, Or.inr (Or.inr (Or.inr ⟨⟨o, ho, hd⟩, Or.inr ⟨i, rfl⟩⟩))⟩

theorem permute_cons (hd : cols.Distinct) (w : Words F (t + 1)) (s : ℕ) :
    ConsistentOn Set.univ (permuteBody S (config S cols σ) w s).ops := by
  intro o ho o' ho' k _ r h h'
  rcases ((permuteBody_spec S cols σ s w).2 o).mp ho with hb | ⟨i, rfl⟩
  swap
  · exact absurd h (by simp [Op.Hits])
  rcases ((permuteBody_spec S cols σ s w).2 o').mp ho' with hb' | ⟨i, rfl⟩
  swap
  · exact absurd h' (by simp [Op.Hits])
  cases hb with
  | state q hq i =>
    obtain ⟨rfl, rfl⟩ := h
    cases hb' with
    | state q' hq' j =>
      obtain ⟨e1, e2⟩ := h'
      injection e1 with e1
      obtain rfl := hd.state e1
      obtain rfl : q = q' := by omega
      rfl
    | sbox q' _ _ => obtain ⟨e1, e2⟩ := h'; injection e1 with e1; exact absurd e1 (hd.sbox i)
    | _ => obtain ⟨e1, -⟩ := h'; cases e1
  | sel q hq =>
    obtain ⟨rfl, rfl⟩ := h
    cases hb' with
    | sel q' _ => rfl
    | _ => obtain ⟨e1, -⟩ := h'; cases e1
  | rcA q hq i =>
    obtain ⟨rfl, rfl⟩ := h
    cases hb' with
    | rcA q' hq' j =>
      obtain ⟨e1, e2⟩ := h'
      injection e1 with e1
      obtain rfl := hd.rcA e1
      obtain rfl : q = q' := by omega
      rfl
    | rcB q' _ _ j => obtain ⟨e1, e2⟩ := h'; injection e1 with e1; exact absurd e1 (hd.rcAB i j)
    | _ => obtain ⟨e1, -⟩ := h'; cases e1
  | sbox q hq hk =>
    obtain ⟨rfl, rfl⟩ := h
    cases hb' with
    | state q' hq' j => obtain ⟨e1, e2⟩ := h'; injection e1 with e1; exact absurd e1.symm (hd.sbox j)
    | sbox q' hq' hk' =>
      obtain ⟨e1, e2⟩ := h'
      obtain rfl : q = q' := by omega
      rfl
    | _ => obtain ⟨e1, -⟩ := h'; cases e1
  | rcB q hq hk i =>
    obtain ⟨rfl, rfl⟩ := h
    cases hb' with
    | rcA q' hq' j => obtain ⟨e1, e2⟩ := h'; injection e1 with e1; exact absurd e1.symm (hd.rcAB j i)
    | rcB q' hq' hk' j =>
      obtain ⟨e1, e2⟩ := h'
      injection e1 with e1
      obtain rfl := hd.rcB e1
      obtain rfl : q = q' := by omega
      rfl
    | _ => obtain ⟨e1, -⟩ := h'; cases e1

theorem permute_regionOK (hd : cols.Distinct) (w : Words F (t + 1)) :
    RegionOK fun s => permuteBody S (config S cols σ) w s where
  within := by
    intro s o ho k r hh
    rw [permute_shapeRows, permute_shapeCols]
    rcases ((permuteBody_spec S cols σ s w).2 o).mp ho with hb | ⟨i, rfl⟩
    · exact hb.hits S cols σ hh
    · exact absurd hh (by simp [Op.Hits])
  cons s := permute_cons S cols σ hd w s

/-- `permute` on any layouter. -/
theorem permute_ok (L : Layouter F) (w : Words F (t + 1)) :
    ∃ s L', permute S (config S cols σ) L w =
        .ok (stWords S cols (fun i => (w i).value) s (steps S), L') ∧
      s = L.startOf (permuteBody S (config S cols σ) w 0).ops ∧
      L'.ops = L.ops ++ (permuteBody S (config S cols σ) w s).ops ∧
      L'.constCol = L.constCol ∧
      L'.colEnd = fun c => if c ∈ Layouter.shapeCols (permuteBody S (config S cols σ) w 0).ops then
            L.startOf (permuteBody S (config S cols σ) w 0).ops +
              Layouter.shapeRows (permuteBody S (config S cols σ) w 0).ops else L.colEnd c := by
  have h := Layouter.assignRegion_ok L (fun s => permuteBody S (config S cols σ) w s)
    (fun s c v => permute_noConst S cols σ w s c v)
  refine ⟨L.startOf (permuteBody S (config S cols σ) w 0).ops,
    { colEnd := fun c => if c ∈ Layouter.shapeCols (permuteBody S (config S cols σ) w 0).ops then
            L.startOf (permuteBody S (config S cols σ) w 0).ops +
              Layouter.shapeRows (permuteBody S (config S cols σ) w 0).ops else L.colEnd c
      constCol := L.constCol
      ops := L.ops ++ (permuteBody S (config S cols σ) w
        (L.startOf (permuteBody S (config S cols σ) w 0).ops)).ops }, ?_, rfl, rfl, rfl, rfl⟩
  unfold permute
  rw [h, (permuteBody_spec S cols σ _ w).1]

/-! ## Regions on disjoint rows -/

/-- Operations of permutation regions placed anywhere. -/
def placedOps (ps : List (Words F (t + 1) × ℕ)) : List (Op F) :=
  ps.flatMap fun q => (permuteBody S (config S cols σ) q.1 q.2).ops

/-- The row ranges do not meet. -/
def Apart (ps : List (Words F (t + 1) × ℕ)) : Prop :=
  ps.Pairwise fun q q' => q.2 + (steps S + 1) ≤ q'.2 ∨ q'.2 + (steps S + 1) ≤ q.2

theorem mem_placedOps (ps : List (Words F (t + 1) × ℕ)) (op : Op F) :
    op ∈ placedOps S cols σ ps ↔ ∃ q ∈ ps, BlockOp S cols σ (fun i => (q.1 i).value) q.2 op ∨
      ∃ i, op = .copy ⟨.advice (cols.state i), q.2⟩ (q.1 i).cell := by
  simp only [placedOps, List.mem_flatMap, (permuteBody_spec S cols σ _ _).2]

theorem placed_cons (hd : cols.Distinct) : ∀ ps : List (Words F (t + 1) × ℕ), Apart S ps →
    ConsistentOn Set.univ (placedOps S cols σ ps)
  | [], _ => by intro o ho; simp [placedOps] at ho
  | q :: ps, h => by
    obtain ⟨h1, h2⟩ := List.pairwise_cons.mp h
    have : placedOps S cols σ (q :: ps) =
        (permuteBody S (config S cols σ) q.1 q.2).ops ++ placedOps S cols σ ps := rfl
    rw [this]
    refine (permute_cons S cols σ hd q.1 q.2).append (placed_cons hd ps h2) ?_
    intro o ho o' ho' k _ r hh hh'
    rcases ((permuteBody_spec S cols σ _ _).2 o).mp ho with hb | ⟨i, rfl⟩
    swap
    · exact absurd hh (by simp [Op.Hits])
    obtain ⟨q', hq', hb' | ⟨i, rfl⟩⟩ := (mem_placedOps S cols σ ps o').mp ho'
    swap
    · exact absurd hh' (by simp [Op.Hits])
    have a1 := hb.hits S cols σ hh
    have a2 := hb'.hits S cols σ hh'
    have := h1 q' hq'
    omega

/-- Soundness of placed regions: only the rows of the region matter. -/
theorem placed_sound (g : Grid F) (hinv : Matrix.of S.mReg * Matrix.of S.mInv = 1)
    (q : Words F (t + 1) × ℕ)
    (hn : q.2 + steps S < g.n)
    (hsel : ∀ k < 3, ∀ r, Op.selector (σ + k) r ∈ (permuteBody S (config S cols σ) q.1 q.2).ops →
      g.selector (σ + k) r = true)
    (hfix : ∀ c r v, Op.fixed c r v ∈ (permuteBody S (config S cols σ) q.1 q.2).ops →
      g.fixed c r = v)
    (hg : ∀ p ∈ gates (config S cols σ), p.Holds g) :
    cur g (config S cols σ) (q.2 + steps S) = perm S (cur g (config S cols σ) q.2) := by
  have mk : ∀ op, BlockOp S cols σ (fun i => (q.1 i).value) q.2 op →
      op ∈ (permuteBody S (config S cols σ) q.1 q.2).ops := fun op h =>
    ((permuteBody_spec S cols σ q.2 q.1).2 op).mpr (Or.inl h)
  refine block_sound S cols σ g hinv q.2 hn ?_ ?_ ?_ hg
  · intro o ho
    have := selAt_lt S σ o
    have h := hsel (selAt S σ o - σ) (by omega) (q.2 + o)
    rw [show σ + (selAt S σ o - σ) = selAt S σ o by omega] at h
    exact h (mk _ (.sel o ho))
  · intro o ho i
    exact hfix _ _ _ (mk _ (.rcA o ho i))
  · intro o ho hk i
    exact hfix _ _ _ (mk _ (.rcB o ho hk i))

theorem placed_complete (g : Grid F) (hinv : Matrix.of S.mReg * Matrix.of S.mInv = 1)
    (hd : cols.Distinct) (ps : List (Words F (t + 1) × ℕ)) (hap : Apart S ps)
    (hu : g.usable ≤ g.n) (hfit : Fits (placedOps S cols σ ps) g.usable)
    (hfix : ∀ c, cols.IsFixed c → ∀ r < g.n, g.fixed c r = finalFixed (placedOps S cols σ ps) c r)
    (hsel : ∀ k < 4, ∀ r < g.n, g.selector (σ + k) r = finalSelector (placedOps S cols σ ps) (σ + k) r)
    (hadv : ∀ c, cols.IsAdvice c → ∀ r < g.usable,
      g.advice c r = finalAdvice (placedOps S cols σ ps) c r) :
    (∀ p ∈ gates (config S cols σ), p.Holds g) ∧
    ∀ q ∈ ps, cur g (config S cols σ) q.2 = (fun i => (q.1 i).value) ∧
      cur g (config S cols σ) (q.2 + steps S) = perm S fun i => (q.1 i).value := by
  have hc := placed_cons S cols σ hd ps hap
  have hadv' : ∀ c r v, cols.IsAdvice c → Op.advice c r v ∈ placedOps S cols σ ps →
      g.advice c r = v := by
    intro c r v hcol hm
    have := hfit _ hm
    simp only [Op.bottom] at this
    rw [hadv c hcol r (by omega), hc.finalAdvice (Set.mem_univ _) hm]
  refine ⟨log_complete S cols σ g hinv _ hu hfit hadv' ?_ hsel ?_, ?_⟩
  · intro c r v hcol hm
    have := hfit _ hm
    simp only [Op.bottom] at this
    rw [hfix c hcol r (by omega), hc.finalFixed (Set.mem_univ _) hm]
  · intro k hk r hm
    obtain ⟨q, hq, hb | ⟨i, e⟩⟩ := (mem_placedOps S cols σ ps _).mp hm
    · exact Or.inl ⟨_, _, fun op h => (mem_placedOps S cols σ ps op).mpr ⟨q, hq, Or.inl h⟩, hb⟩
    · cases e
  · intro q hq
    have hx : ∀ o ≤ steps S, cur g (config S cols σ) (q.2 + o) = xAt S (fun i => (q.1 i).value) o := by
      intro o ho; funext i
      exact hadv' _ _ _ (Or.inl ⟨i, rfl⟩)
        ((mem_placedOps S cols σ ps _).mpr ⟨q, hq, Or.inl (.state o ho i)⟩)
    have h0 := hx 0 (by omega)
    have h1 := hx _ le_rfl
    rw [xAt_zero] at h0
    rw [xAt_steps] at h1
    exact ⟨h0, h1⟩

/-! ## Consecutive regions -/

/-- Words returned by placed permutations. -/
def placedOut (ws : List (Words F (t + 1))) (p : ℕ → ℕ) : List (Words F (t + 1)) :=
  (placeAt ws p).map fun q => stWords S cols (fun i => (q.1 i).value) q.2 (steps S)

/-- After a first region, the following ones come right below. -/
theorem serial_level : ∀ (ws : List (Words F (t + 1))) (L : Layouter F) (s : ℕ),
    (∀ k, UsesCol S cols σ k → L.colEnd k = s) →
    ∃ L', mapPermute (permute S (config S cols σ)) L ws = .ok (placedOut S cols ws (stack (steps S + 1) s), L') ∧
      L'.ops = L.ops ++ placedOps S cols σ (placeAt ws (stack (steps S + 1) s)) ∧
      ∀ k, ¬ UsesCol S cols σ k → L'.colEnd k = L.colEnd k
  | [], L, s, h => ⟨L, rfl, by simp [placeAt, placedOps], fun _ _ => rfl⟩
  | w :: ws, L, s, h => by
    obtain ⟨s', L', e, hs, ho, -, hcol⟩ := permute_ok S cols σ L w
    have hs0 : L.startOf (permuteBody S (config S cols σ) w 0).ops = s := by
      apply Layouter.startOf_eq
      · intro k hk
        exact (h k ((permute_shapeCols S cols σ w 0 k).mp hk)).le
      · exact ⟨.advice (cols.state 0), (permute_shapeCols S cols σ w 0 _).mpr (Or.inl ⟨0, rfl⟩),
          h _ (Or.inl ⟨0, rfl⟩)⟩
    rw [hs0] at hs hcol
    subst hs
    obtain ⟨L'', e', ho', hk'⟩ := serial_level ws L' (s' + (steps S + 1)) (by
      intro k hk
      rw [hcol]
      dsimp only
      rw [if_pos ((permute_shapeCols S cols σ w 0 k).mpr hk), permute_shapeRows])
    refine ⟨L'', ?_, ?_, fun k hk => ?_⟩
    · simp only [mapPermute, e, bind, Except.bind, e', placedOut, placeAt_stack]
      rfl
    · rw [ho', ho, List.append_assoc, placeAt_stack]; rfl
    · rw [hk' k hk, hcol]
      dsimp only
      rw [if_neg fun h => hk ((permute_shapeCols S cols σ w 0 k).mp h)]

theorem serial_ok (ws : List (Words F (t + 1))) (L : Layouter F) :
    ∃ s L', mapPermute (permute S (config S cols σ)) L ws = .ok (placedOut S cols ws (stack (steps S + 1) s), L') ∧
      L'.ops = L.ops ++ placedOps S cols σ (placeAt ws (stack (steps S + 1) s)) ∧
      ((∀ k, UsesCol S cols σ k → L.colEnd k = 0) → s = 0) ∧
      (ws ≠ [] → Top L.colEnd (UsesCol S cols σ) s) ∧
      ∀ k, ¬ UsesCol S cols σ k → L'.colEnd k = L.colEnd k := by
  cases ws with
  | nil => exact ⟨0, L, rfl, by simp [placeAt, placedOps], fun _ => rfl, fun h => absurd rfl h, fun _ _ => rfl⟩
  | cons w ws =>
    obtain ⟨s', L', e, hs, ho, -, hcol⟩ := permute_ok S cols σ L w
    rw [← hs] at hcol
    obtain ⟨L'', e', ho', hk'⟩ := serial_level S cols σ ws L' (s' + (steps S + 1)) (by
      intro k hk
      rw [hcol]
      dsimp only
      rw [if_pos ((permute_shapeCols S cols σ w 0 k).mpr hk), permute_shapeRows])
    have htop : Top L.colEnd (UsesCol S cols σ) s' := by
      rw [hs]
      exact L.startOf_top (permute_shapeCols S cols σ w 0) ⟨_, Or.inl ⟨0, rfl⟩⟩
    refine ⟨s', L'', ?_, ?_, fun h => ?_, fun _ => htop, fun k hk => ?_⟩
    · simp only [mapPermute, e, bind, Except.bind, e', placedOut, placeAt_stack]
      rfl
    · rw [ho', ho, List.append_assoc, placeAt_stack]; rfl
    · rw [hs]
      apply Layouter.startOf_eq
      · intro k hk
        exact (h k ((permute_shapeCols S cols σ w 0 k).mp hk)).le
      · exact ⟨.advice (cols.state 0), (permute_shapeCols S cols σ w 0 _).mpr (Or.inl ⟨0, rfl⟩),
          h _ (Or.inl ⟨0, rfl⟩)⟩
    · rw [hk' k hk, hcol]
      dsimp only
      rw [if_neg fun h => hk ((permute_shapeCols S cols σ w 0 k).mp h)]

end

/-! ## Independence of the witness -/

section erase
variable (S : Params F t) (c : Config F t)

theorem forFin_erase {α : Type} {n : ℕ} (f f' : Fin n → W F α)
    (h : ∀ i, (f i).ops.map Op.erase = (f' i).ops.map Op.erase) :
    (forFin n f).ops.map Op.erase = (forFin n f').ops.map Op.erase := by
  simp only [forFin, List.map_flatMap, h]

theorem bind_erase {α β : Type} (x x' : W F α) (k k' : α → W F β)
    (h : x.ops.map Op.erase = x'.ops.map Op.erase)
    (h' : ∀ u v, (k u).ops.map Op.erase = (k' v).ops.map Op.erase) :
    (x >>= k).ops.map Op.erase = (x' >>= k').ops.map Op.erase := by
  simp only [W.bind_ops, List.map_append, h, h' x.val x'.val]

theorem loop_erase {α : Type} (k k' : ℕ → α → W F α)
    (h : ∀ o x y, (k o x).ops.map Op.erase = (k' o y).ops.map Op.erase) (n : ℕ) (x y : α) :
    (W.loop k n x).ops.map Op.erase = (W.loop k' n y).ops.map Op.erase := by
  induction n with
  | zero => rfl
  | succ n ih => simp only [W.loop, W.bind_ops, List.map_append, ih, h n _ (W.loop k' n y).val]

theorem roundRow_erase (s rnd off gate : ℕ) (fn fn' : W F (Fin (t + 1) → F))
    (h : fn.ops.map Op.erase = fn'.ops.map Op.erase) :
    (roundRow c s rnd off gate fn).ops.map Op.erase =
      (roundRow c s rnd off gate fn').ops.map Op.erase := by
  unfold roundRow
  refine bind_erase _ _ _ _ rfl fun _ _ => ?_
  refine bind_erase _ _ _ _ rfl fun _ _ => ?_
  refine bind_erase _ _ _ _ h fun _ _ => ?_
  exact forFin_erase _ _ fun i => rfl

theorem partialRound_erase (s : ℕ) (w w' : Words F (t + 1)) (rnd off : ℕ) :
    (partialRound c s w rnd off).ops.map Op.erase =
      (partialRound c s w' rnd off).ops.map Op.erase := by
  unfold partialRound
  apply roundRow_erase
  refine bind_erase _ _ _ _ rfl fun _ _ => ?_
  exact bind_erase _ _ _ _ rfl fun _ _ => rfl

theorem permuteBody_erase (w w' : Words F (t + 1)) (s : ℕ) (h : ∀ i, (w i).cell = (w' i).cell) :
    (permuteBody S c w s).ops.map Op.erase = (permuteBody S c w' s).ops.map Op.erase := by
  unfold permuteBody
  refine bind_erase _ _ _ _ ?_ fun u v => ?_
  · apply forFin_erase
    intro i
    simp only [copyAdvice, List.map_cons, List.map_nil, Op.erase, h]
  refine bind_erase _ _ _ _ ?_ fun u v => ?_
  · apply loop_erase
    intro o x y
    exact roundRow_erase c _ _ _ _ _ _ rfl
  refine bind_erase _ _ _ _ ?_ fun u v => ?_
  · apply loop_erase
    intro o x y
    exact partialRound_erase c _ _ _ _ _
  refine bind_erase _ _ _ _ ?_ fun u v => ?_
  · unfold oddRound
    split_ifs
    · exact roundRow_erase c _ _ _ _ _ _ rfl
    · rfl
  · apply loop_erase
    intro o x y
    exact roundRow_erase c _ _ _ _ _ _ rfl

theorem placed_erase (cols : Cols t) (σ : ℕ) (ws ws' : List (Words F (t + 1))) (p : ℕ → ℕ)
    (h : cells ws = cells ws') :
    (placedOps S cols σ (placeAt ws p)).map Op.erase =
      (placedOps S cols σ (placeAt ws' p)).map Op.erase := by
  simp only [placedOps, List.map_flatMap]
  exact flatMap_placeAt _ (fun w w' s hw => permuteBody_erase S _ w w' s hw) ws ws' p h

theorem placedOut_cells (cols : Cols t) (ws ws' : List (Words F (t + 1))) (p : ℕ → ℕ)
    (h : cells ws = cells ws') :
    cells (placedOut S cols ws p) = cells (placedOut S cols ws' p) := by
  simp only [placedOut, cells, List.map_map]
  rw [List.map_eq_flatMap, List.map_eq_flatMap]
  exact flatMap_placeAt
    (fun q => [fun k => (stWords S cols (fun i => (q.1 i).value) q.2 (steps S) k).cell])
    (fun w w' s hw => rfl) ws ws' p h

end erase

/-! ## The width-3 chip -/

/-- Columns allocated by `PermuteChip::configure`. -/
def chipCols (a f : ℕ) : Cols 2 :=
  ⟨![a, a + 1, a + 2], a + 3, ![f, f + 1, f + 2], ![f + 3, f + 4, f + 5]⟩

theorem chipCols_state (a f : ℕ) (i : Fin 3) : (chipCols a f).state i = a + i := by
  fin_cases i <;> rfl
theorem chipCols_rcA (a f : ℕ) (i : Fin 3) : (chipCols a f).rcA i = f + i := by
  fin_cases i <;> rfl
theorem chipCols_rcB (a f : ℕ) (i : Fin 3) : (chipCols a f).rcB i = f + 3 + i := by
  fin_cases i <;> rfl

theorem chipCols_distinct (a f : ℕ) : (chipCols a f).Distinct where
  state i j h := by
    simp only [chipCols_state] at h
    exact Fin.ext (by omega)
  sbox i := by
    rw [chipCols_state]
    have : (chipCols a f).partialSbox = a + 3 := rfl
    omega
  rcA i j h := by
    simp only [chipCols_rcA] at h
    exact Fin.ext (by omega)
  rcB i j h := by
    simp only [chipCols_rcB] at h
    exact Fin.ext (by omega)
  rcAB i j := by
    rw [chipCols_rcA, chipCols_rcB]; omega

theorem chipCols_isAdvice {a f c : ℕ} (h : (chipCols a f).IsAdvice c) : a ≤ c ∧ c < a + 4 := by
  rcases h with ⟨i, rfl⟩ | rfl
  · have := chipCols_state a f i; omega
  · have : (chipCols a f).partialSbox = a + 3 := rfl
    omega

theorem chipCols_isFixed {a f c : ℕ} (h : (chipCols a f).IsFixed c) : f ≤ c ∧ c < f + 6 := by
  rcases h with ⟨i, rfl⟩ | ⟨i, rfl⟩
  · have := chipCols_rcA a f i; omega
  · have := chipCols_rcB a f i; omega

theorem configureChip_eq (S : Params F 2) (cs : CS F) : configureChip S cs =
    (config S (chipCols cs.numAdvice cs.numFixed) cs.numSelectors,
      { numAdvice := cs.numAdvice + 4
        numFixed := cs.numFixed + 6
        numSelectors := cs.numSelectors + 4
        gates := cs.gates ++ gates (config S (chipCols cs.numAdvice cs.numFixed) cs.numSelectors)
        lookups := cs.lookups
        equality := cs.equality ++ eqCols (chipCols cs.numAdvice cs.numFixed) }) := by
  have : configureChip S cs = configure S (chipCols cs.numAdvice cs.numFixed)
      { cs with numAdvice := cs.numAdvice + 4, numFixed := cs.numFixed + 6 } := by
    unfold configureChip
    generalize configure S = k
    simp only [bind, StateT.bind, CS.adviceColumn, CS.fixedColumn, chipCols, add_assoc,
      Nat.reduceAdd]
  rw [this, configure_eq]

theorem usesCol_bounds (S : Params F 2) {a f σ : ℕ} {k : RCol} (h : UsesCol S (chipCols a f) σ k) :
    (∃ i < 4, k = .advice (a + i)) ∨ (∃ i < 6, k = .fixed (f + i)) ∨
      ∃ i < 4, k = .selector (σ + i) := by
  rcases h with ⟨i, rfl⟩ | ⟨o, ho, rfl⟩ | ⟨-, i, rfl⟩ | ⟨-, rfl | ⟨i, rfl⟩⟩
  · exact Or.inl ⟨i, by omega, by rw [chipCols_state]⟩
  · have := selAt_lt S σ o
    exact Or.inr (Or.inr ⟨selAt S σ o - σ, by omega, by congr 1; omega⟩)
  · exact Or.inr (Or.inl ⟨i, by omega, by rw [chipCols_rcA]⟩)
  · exact Or.inl ⟨3, by omega, rfl⟩
  · exact Or.inr (Or.inl ⟨3 + i, by omega, by rw [chipCols_rcB]; congr 1; omega⟩)

theorem gates_within (S : Params F 2) (a f σ : ℕ) :
    ∀ p ∈ gates (config S (chipCols a f) σ), ∀ e ∈ p.polys, e.Within (fun c => a ≤ c ∧ c < a + 4)
      (fun c => f ≤ c ∧ c < f + 6) (fun c => σ ≤ c ∧ c < σ + 4) := by
  have h1 : ∀ i, a ≤ (chipCols a f).state i ∧ (chipCols a f).state i < a + 4 := fun i =>
    chipCols_isAdvice (f := f) (Or.inl ⟨i, rfl⟩)
  have h2 : a ≤ (chipCols a f).partialSbox ∧ (chipCols a f).partialSbox < a + 4 :=
    chipCols_isAdvice (f := f) (Or.inr rfl)
  have h3 : ∀ i, f ≤ (chipCols a f).rcA i ∧ (chipCols a f).rcA i < f + 6 := fun i =>
    chipCols_isFixed (a := a) (Or.inl ⟨i, rfl⟩)
  have h4 : ∀ i, f ≤ (chipCols a f).rcB i ∧ (chipCols a f).rcB i < f + 6 := fun i =>
    chipCols_isFixed (a := a) (Or.inr ⟨i, rfl⟩)
  simp [gates, fullGate, partialGate, singleGate, padGate, midExpr, nextExpr, reduceAdd, pow5Expr, config,
    List.finRange_succ, h1, h2, h3, h4]

/-- The Pow5 chip computes the textbook permutation, for all parameters with an invertible matrix. -/
def lawful (S : Params F 2) (hinv : Matrix.of S.mReg * Matrix.of S.mInv = 1) :
    (chip S).Lawful (perm S) where
  nA := 4
  nF := 6
  nS := 4
  height := steps S + 1
  cfg a f σ := config S (chipCols a f) σ
  gates a f σ := gates (config S (chipCols a f) σ)
  eqs a f _ := eqCols (chipCols a f)
  ops a f σ ws p := placedOps S (chipCols a f) σ (placeAt ws p)
  outs a f _ ws p := placedOut S (chipCols a f) ws p
  ops_nil _ _ _ _ := rfl
  ops_cons a f σ w ws p := by simp [placedOps, placeAt]
  outs_nil _ _ _ _ := rfl
  outs_cons _ _ _ _ _ _ := rfl
  configure_eq cs := configureChip_eq S cs
  within a f σ := gates_within S a f σ
  eqs_own a f σ c hc := by
    simp only [eqCols, List.mem_append, List.mem_map, List.mem_finRange, true_and] at hc
    rcases hc with ⟨i, rfl⟩ | ⟨i, rfl⟩
    · exact Or.inl ⟨_, rfl, by rw [chipCols_state]; omega, by rw [chipCols_state]; omega⟩
    · exact Or.inr ⟨_, rfl, by rw [chipCols_rcB]; omega, by rw [chipCols_rcB]; omega⟩
  keySerial a f σ := UsesCol S (chipCols a f) σ
  keyBatch a f σ := UsesCol S (chipCols a f) σ
  key_own a f σ k hk := usesCol_bounds S (hk.elim id id)
  serial a f σ L ws := by
    obtain ⟨s, L', e, o, h, ht, hk⟩ := serial_ok S (chipCols a f) σ ws L
    refine ⟨s, L', e, o, fun h1 h2 h3 => h fun k hk => ?_, ht, fun k h => hk k fun h' => h (usesCol_bounds S h')⟩
    rcases usesCol_bounds S hk with ⟨i, hi, rfl⟩ | ⟨i, hi, rfl⟩ | ⟨i, hi, rfl⟩
    · exact h1 i hi
    · exact h2 i hi
    · exact h3 i hi
  batch a f σ L _ ws := by
    obtain ⟨s, L', e, o, h, ht, hk⟩ := serial_ok S (chipCols a f) σ ws L
    refine ⟨s, L', e, o, fun h1 h2 h3 => h fun k hk => ?_, ht, fun k h => hk k fun h' => h (usesCol_bounds S h')⟩
    rcases usesCol_bounds S hk with ⟨i, hi, rfl⟩ | ⟨i, hi, rfl⟩ | ⟨i, hi, rfl⟩
    · exact h1 i hi
    · exact h2 i hi
    · exact h3 i hi
  shape a f σ ws p op hop := by
    obtain ⟨q, hq, h | ⟨i, rfl⟩⟩ := (mem_placedOps S (chipCols a f) σ _ op).mp hop
    · obtain ⟨-, j, hj, b⟩ := placeAt_mem ws p q hq
      rw [b] at h
      cases h with
      | state o ho i =>
        exact Or.inl ⟨_, _, _, rfl, by rw [chipCols_state]; omega, by rw [chipCols_state]; omega,
          j, hj, by omega, by omega⟩
      | sel o ho =>
        have := selAt_lt S σ o
        exact Or.inr (Or.inr (Or.inl ⟨_, _, rfl, by omega, by omega, j, hj, by omega, by omega⟩))
      | rcA o ho i =>
        exact Or.inr (Or.inl ⟨_, _, _, rfl, by rw [chipCols_rcA]; omega, by rw [chipCols_rcA]; omega,
          j, hj, by omega, by omega⟩)
      | sbox o ho _ =>
        have : (chipCols a f).partialSbox = a + 3 := rfl
        exact Or.inl ⟨_, _, _, rfl, by omega, by omega, j, hj, by omega, by omega⟩
      | rcB o ho _ i =>
        exact Or.inr (Or.inl ⟨_, _, _, rfl, by rw [chipCols_rcB]; omega, by rw [chipCols_rcB]; omega,
          j, hj, by omega, by omega⟩)
    · exact Or.inr (Or.inr (Or.inr ⟨_, _, q.1, i, rfl, (placeAt_mem ws p q hq).1,
        by simp [eqCols]⟩))
  reach a f σ ws p i hi := by
    obtain ⟨q, hq, e⟩ := placeAt_get ws p i hi
    exact ⟨_, (mem_placedOps S (chipCols a f) σ _ _).mpr
      ⟨q, hq, Or.inl (.state (steps S) le_rfl 0)⟩, by simp only [Op.bottom, e]; omega⟩
  outs_eq a f _ ws p o ho k := by
    obtain ⟨q, -, rfl⟩ := List.mem_map.mp ho
    simp [stWords, eqCols]
  outs_cells a f _ ws ws' p h := placedOut_cells S _ ws ws' p h
  ops_erase a f σ ws ws' p h := placed_erase S _ σ ws ws' p h
  values a f _ ws p := forall₂_placeAt _ _ ws p fun q _ k => by
    simp only [stWords, xAt_steps]
  sound a f σ ws p g hap hfit hfix hsel hcp hg := by
    have hc := placed_cons S (chipCols a f) σ (chipCols_distinct a f) _ (placeAt_apart _ ws p hap)
    refine forall₂_placeAt _ _ ws p fun q hq k => ?_
    have sub : ∀ op, op ∈ (permuteBody S (config S (chipCols a f) σ) q.1 q.2).ops →
        op ∈ placedOps S (chipCols a f) σ (placeAt ws p) := fun op h =>
      List.mem_flatMap.mpr ⟨q, hq, h⟩
    have hn : q.2 + steps S < g.n := by
      have := hfit _ ((mem_placedOps S (chipCols a f) σ _ _).mpr
        ⟨q, hq, Or.inl (.state (steps S) le_rfl 0)⟩)
      simp only [Op.bottom] at this
      omega
    have key := placed_sound S (chipCols a f) σ g hinv q hn (by
        intro k hk r hm
        have hb := hfit _ (sub _ hm)
        simp only [Op.bottom] at hb
        rw [hsel _ (by omega) (by omega) r (by omega)]
        exact finalSelector_iff.mpr (sub _ hm)) (by
        intro c r v hm
        have hb := hfit _ (sub _ hm)
        simp only [Op.bottom] at hb
        have hcol : f ≤ c ∧ c < f + 6 := by
          rcases ((permuteBody_spec S (chipCols a f) σ q.2 q.1).2 _).mp hm with h | ⟨i, h⟩
          · generalize ho : Op.fixed c r v = op at h
            cases h with
            | rcA o _ i => injection ho with e; exact chipCols_isFixed (a := a) (Or.inl ⟨i, e⟩)
            | rcB o _ _ i => injection ho with e; exact chipCols_isFixed (a := a) (Or.inr ⟨i, e⟩)
            | _ => cases ho
          · cases h
        rw [hfix c hcol.1 hcol.2 r (by omega), hc.finalFixed (Set.mem_univ _) (sub _ hm)]) hg
    have e1 : g.cell (stWords S (chipCols a f) (fun i => (q.1 i).value) q.2 (steps S) k).cell =
        cur g (config S (chipCols a f) σ) (q.2 + steps S) k := rfl
    rw [e1, key]
    congr 1
    funext i
    exact hcp ⟨.advice ((chipCols a f).state i), q.2⟩ _
      ((mem_placedOps S (chipCols a f) σ _ _).mpr ⟨q, hq, Or.inr ⟨i, rfl⟩⟩)
  complete a f σ ws p g hap hu hfit hfix hsel hadv := by
    obtain ⟨h1, h2⟩ := placed_complete S (chipCols a f) σ g hinv (chipCols_distinct a f) _
      (placeAt_apart _ ws p hap) hu hfit
      (fun c hc r hr => hfix c (chipCols_isFixed hc).1 (chipCols_isFixed hc).2 r hr)
      (fun k hk r hr => hsel _ (by omega) (by omega) r hr)
      (fun c hc r hr => hadv c (chipCols_isAdvice hc).1 (chipCols_isAdvice hc).2 r hr)
    refine ⟨h1, ?_, fun hin x y hxy => ?_⟩
    · intro o ho k
      obtain ⟨q, hq, rfl⟩ := List.mem_map.mp ho
      have e1 : g.cell (stWords S (chipCols a f) (fun i => (q.1 i).value) q.2 (steps S) k).cell =
        cur g (config S (chipCols a f) σ) (q.2 + steps S) k := rfl
      rw [e1, (h2 q hq).2]
      simp only [stWords, xAt_steps]
    · obtain ⟨q, hq, h | ⟨i, h⟩⟩ := (mem_placedOps S (chipCols a f) σ _ _).mp hxy
      · cases h
      · cases h
        exact (congrFun (h2 q hq).1 i).trans (hin q.1 (placeAt_mem ws p q hq).1 i).symm

end Circuit.Pow5
