import Verif.Circuit.Gadget
import Verif.Circuit.Pow5Sound
import Verif.Base.SpongeLemmas

/-!
# The in-circuit sponge follows the native one
-/

set_option linter.unusedVariables false
set_option linter.unusedSectionVars false
set_option linter.unusedSimpArgs false

open Halo2

/-! ## Serving constants -/

namespace Halo2.Layouter
variable {F : Type} [Field F]

/-- What serving constants from column `kc` does to the layouter. -/
theorem serveConstants_spec (kc : ℕ) : ∀ (os : List (Op F)) (L : Layouter F), L.constCol = some kc →
    ∃ L' log, L.serveConstants os = .ok L' ∧ L'.ops = L.ops ++ log ∧ L'.constCol = some kc ∧
      (∀ k, L.colEnd k ≤ L'.colEnd k) ∧
      (∀ o ∈ log, ∃ c v row, Op.constant c v ∈ os ∧
        (o = .fixed kc row v ∨ o = .copy ⟨.fixed kc, row⟩ c)) ∧
      (∀ c v, Op.constant c v ∈ os → ∃ row, Op.fixed kc row v ∈ log ∧
        Op.copy ⟨.fixed kc, row⟩ c ∈ log) ∧
      (∀ c row, Op.copy ⟨.fixed kc, row⟩ c ∈ log → ∃ v, Op.constant c v ∈ os ∧
        Op.fixed kc row v ∈ log) ∧
      ∀ K : Set RCol, L.Good K → L'.Good K
  | [], L, h => ⟨L, [], rfl, by simp, h, fun _ => le_rfl, by simp, by simp, by simp, fun _ h => h⟩
  | o :: os, L, h => by
    by_cases hc : ∃ c v, o = .constant c v
    · obtain ⟨c, v, rfl⟩ := hc
      obtain ⟨L₁, hL₁⟩ : ∃ L₁ : Layouter F, L₁ = { L with
        colEnd := fun x => if x = .fixed kc then L.colEnd (.fixed kc) + 1 else L.colEnd x
        ops := L.ops ++ [.fixed kc (L.colEnd (.fixed kc)) v,
          .copy ⟨.fixed kc, L.colEnd (.fixed kc)⟩ c] } := ⟨_, rfl⟩
      obtain ⟨L', log, e, ho, hcc, hm, h1, h2, h3, hg⟩ := serveConstants_spec kc os L₁ (by rw [hL₁]; exact h)
      refine ⟨L', [.fixed kc (L.colEnd (.fixed kc)) v, .copy ⟨.fixed kc, L.colEnd (.fixed kc)⟩ c] ++ log,
        ?_, ?_, hcc, ?_, ?_, ?_, ?_, ?_⟩
      · rw [← e, hL₁]; simp only [serveConstants, h]
      · rw [ho, hL₁]; simp
      · intro k
        refine le_trans ?_ (hm k)
        rw [hL₁]; dsimp only
        split_ifs with hk
        · rw [hk]; omega
        · exact le_rfl
      · intro o ho
        rcases List.mem_append.mp ho with ho | ho
        · simp only [List.mem_cons, List.not_mem_nil, or_false] at ho
          exact ⟨c, v, _, by simp, ho⟩
        · obtain ⟨c', v', row, hm, ho⟩ := h1 o ho
          exact ⟨c', v', row, by simp [hm], ho⟩
      · intro c' v' hm
        rcases List.mem_cons.mp hm with hm | hm
        · injection hm with e1 e2
          subst e1 e2
          exact ⟨L.colEnd (.fixed kc), by simp, by simp⟩
        · obtain ⟨row, a, b⟩ := h2 c' v' hm
          exact ⟨row, by simp [a], by simp [b]⟩
      · intro c' row hm
        rcases List.mem_append.mp hm with hm | hm
        · simp only [List.mem_cons, List.not_mem_nil, or_false, reduceCtorEq, false_or] at hm
          injection hm with e1 e2
          injection e1 with _ e1
          subst e1 e2
          exact ⟨v, by simp, by simp⟩
        · obtain ⟨v', a, b⟩ := h3 c' row hm
          exact ⟨v', by simp [a], by simp [b]⟩
      · intro K hL
        apply hg
        constructor
        · intro o ho k hk r hr
          rw [hL₁] at ho ⊢
          dsimp only at ho ⊢
          rcases List.mem_append.mp ho with ho | ho
          · have := hL.below o ho k hk r hr
            split_ifs with hkk
            · subst hkk; omega
            · exact this
          · simp only [List.mem_cons, List.not_mem_nil, or_false] at ho
            rcases ho with rfl | rfl
            · obtain ⟨rfl, rfl⟩ := hr
              simp
            · exact absurd hr (by simp [Op.Hits])
        · rw [hL₁]
          refine hL.cons.append ?_ ?_
          · intro o ho o' ho' k hk r hr hr'
            simp only [List.mem_cons, List.not_mem_nil, or_false] at ho ho'
            rcases ho with rfl | rfl
            · rcases ho' with rfl | rfl
              · rfl
              · exact absurd hr' (by simp [Op.Hits])
            · exact absurd hr (by simp [Op.Hits])
          · intro o ho o' ho' k hk r hr hr'
            simp only [List.mem_cons, List.not_mem_nil, or_false] at ho'
            rcases ho' with rfl | rfl
            · obtain ⟨rfl, rfl⟩ := hr'
              exact absurd (hL.below o ho _ hk _ hr) (by omega)
            · exact absurd hr' (by simp [Op.Hits])
    · obtain ⟨L', log, e, ho, hcc, hm, h1, h2, h3, hg⟩ := serveConstants_spec kc os L h
      refine ⟨L', log, ?_, ho, hcc, hm, ?_, ?_, ?_, hg⟩
      · rw [← e]
        cases o with
        | constant c v => exact absurd ⟨c, v, rfl⟩ hc
        | _ => rfl
      · intro o' ho'
        obtain ⟨c', v', row, hm, ho⟩ := h1 o' ho'
        exact ⟨c', v', row, by simp [hm], ho⟩
      · intro c' v' hm
        rcases List.mem_cons.mp hm with hm | hm
        · exact absurd ⟨c', v', hm.symm⟩ hc
        · exact h2 c' v' hm
      · intro c' row hm
        obtain ⟨v', a, b⟩ := h3 c' row hm
        exact ⟨v', by simp [a], b⟩

end Halo2.Layouter

namespace Circuit.Gadget
open Pow5

variable {F : Type} [Field F] {t : ℕ}

section
variable (S : Params F t) (cols : Cols t) (σ kc : ℕ)

/-- The columns written by the gadget: those of the chip and the column of constants. -/
def OwnCols : Set RCol :=
  {k | (∃ c, cols.IsAdvice c ∧ k = .advice c) ∨ (∃ c, (cols.IsFixed c ∨ c = kc) ∧ k = .fixed c)}

/-- Every enabled selector belongs to a complete region of the chip. -/
def Justified (ops : List (Op F)) : Prop :=
  ∀ k < 4, ∀ r, Op.selector (σ + k) r ∈ ops →
    (∃ x s, (∀ op, BlockOp S cols σ x s op → op ∈ ops) ∧ BlockOp S cols σ x s (.selector (σ + k) r)) ∨
    (k = 3 ∧ ∃ s, r = s + 1 ∧ PadOps cols ops s)

theorem Justified.append {a b : List (Op F)} (ha : Justified S cols σ a) (hb : Justified S cols σ b) :
    Justified S cols σ (a ++ b) := by
  have pad : ∀ {a b : List (Op F)} {s}, (∀ o ∈ a, o ∈ b) → PadOps cols a s → PadOps cols b s := by
    rintro a b s hsub ⟨u, v, h0, h1, h2, h3⟩
    exact ⟨u, v, fun i => hsub _ (h0 i), fun i => hsub _ (h1 i), fun i => hsub _ (h2 i), hsub _ h3⟩
  intro k hk r hm
  rcases List.mem_append.mp hm with hm | hm
  · rcases ha k hk r hm with ⟨x, s, h1, h2⟩ | ⟨h, s, hr, hp⟩
    · exact Or.inl ⟨x, s, fun op h => List.mem_append_left _ (h1 op h), h2⟩
    · exact Or.inr ⟨h, s, hr, pad (fun o h => List.mem_append_left _ h) hp⟩
  · rcases hb k hk r hm with ⟨x, s, h1, h2⟩ | ⟨h, s, hr, hp⟩
    · exact Or.inl ⟨x, s, fun op h => List.mem_append_right _ (h1 op h), h2⟩
    · exact Or.inr ⟨h, s, hr, pad (fun o h => List.mem_append_right _ h) hp⟩

/-- The layouter `L'` extends `L` by the operations `log` of gadget calls. -/
structure Ext (L L' : Layouter F) (log : List (Op F)) : Prop where
  ops : L'.ops = L.ops ++ log
  const : L'.constCol = L.constCol
  mono : ∀ k, L.colEnd k ≤ L'.colEnd k
  good : L.Good (OwnCols cols kc) → L'.Good (OwnCols cols kc)
  own : ∀ o ∈ log, ∀ k r, o.Hits k r → k ∈ OwnCols cols kc ∨ ∃ j < 4, k = .selector (σ + j)
  just : Justified S cols σ log

theorem Ext.refl (L : Layouter F) : Ext S cols σ kc L L [] :=
  ⟨by simp, rfl, fun _ => le_rfl, fun h => h, by simp, by intro k _ r h; simp at h⟩

variable {S cols σ kc} in
theorem Ext.trans {L L' L'' : Layouter F} {a b : List (Op F)} (h : Ext S cols σ kc L L' a)
    (h' : Ext S cols σ kc L' L'' b) : Ext S cols σ kc L L'' (a ++ b) where
  ops := by rw [h'.ops, h.ops, List.append_assoc]
  const := h'.const.trans h.const
  mono k := (h.mono k).trans (h'.mono k)
  good hL := h'.good (h.good hL)
  own o ho := by
    rcases List.mem_append.mp ho with ho | ho
    · exact h.own o ho
    · exact h'.own o ho
  just := h.just.append S cols σ h'.just

/-- The fixed cells and selectors of a log, in a grid. -/
structure Shape (g : Grid F) (ops : List (Op F)) : Prop where
  fixed : ∀ c r v, Op.fixed c r v ∈ ops → g.fixed c r = v
  selector : ∀ j < 4, ∀ r, Op.selector (σ + j) r ∈ ops → g.selector (σ + j) r = true
  fits : Fits ops g.n

theorem Shape.mono {g : Grid F} {a b : List (Op F)} (h : Shape σ g b) (hab : ∀ o ∈ a, o ∈ b) :
    Shape σ g a :=
  ⟨fun c r v hm => h.fixed c r v (hab _ hm), fun j hj r hm => h.selector j hj r (hab _ hm),
    fun o ho => h.fits o (hab o ho)⟩

/-- A grid accepted by the chip: shape of the log, copy constraints and gates. -/
structure Accepts (g : Grid F) (ops : List (Op F)) : Prop extends Shape σ g ops where
  copies : CopiesHold g ops
  gates : ∀ p ∈ gates (config S cols σ), p.Holds g

variable {S cols σ} in
theorem Accepts.mono {g : Grid F} {a b : List (Op F)} (h : Accepts S cols σ g b)
    (hab : ∀ o ∈ a, o ∈ b) : Accepts S cols σ g a :=
  ⟨Shape.mono σ h.toShape hab, fun x y hm => h.copies x y (hab _ hm), h.gates⟩

/-- A grid holding the written cells. -/
structure Holds (g : Grid F) (ops : List (Op F)) : Prop where
  fixed : ∀ c r v, Op.fixed c r v ∈ ops → g.fixed c r = v
  advice : ∀ c r v, Op.advice c r v ∈ ops → g.advice c r = v

theorem Holds.mono {g : Grid F} {a b : List (Op F)} (h : Holds g b) (hab : ∀ o ∈ a, o ∈ b) :
    Holds g a :=
  ⟨fun c r v hm => h.fixed c r v (hab _ hm), fun c r v hm => h.advice c r v (hab _ hm)⟩

/-- The two ways to evaluate assigned cells: by the value known to the prover, or by the content of a
grid accepted for the log. -/
def Eval (ops : List (Op F)) (ev : ACell F → F) : Prop :=
  ev = ACell.value ∨ ∃ g, Accepts S cols σ g ops ∧ ev = fun a => g.cell a.cell

variable {S cols σ} in
theorem Eval.mono {a b : List (Op F)} {ev : ACell F → F} (h : Eval S cols σ b ev)
    (hab : ∀ o ∈ a, o ∈ b) : Eval S cols σ a ev := by
  rcases h with h | ⟨g, hg, h⟩
  · exact Or.inl h
  · exact Or.inr ⟨g, hg.mono hab, h⟩

/-- The cell holds its value. -/
def True' (g : Grid F) (a : ACell F) : Prop := g.cell a.cell = a.value

/-! ## Initial state -/

/-- The state before absorbing. -/
def start (cap : F) : Fin (t + 1) → F := fun i => if i = Fin.last t then cap else 0

theorem mem_initial (cap : F) (s : ℕ) (o : Op F) :
    o ∈ (initialStateBody (config S cols σ) cap s).ops ↔
      ∃ i, o = .advice (cols.state i) s (start cap i) ∨
        o = .constant ⟨.advice (cols.state i), s⟩ (start cap i) := by
  simp only [initialStateBody, mem_forFin, assignAdviceFromConstant, List.mem_cons,
    List.not_mem_nil, or_false, add_zero, start, config]

theorem initial_shapeRows (cap : F) (s : ℕ) :
    Layouter.shapeRows (initialStateBody (config S cols σ) cap 0).ops = 1 := by
  apply Layouter.shapeRows_eq
  · intro o ho
    obtain ⟨i, rfl | rfl⟩ := (mem_initial S cols σ cap 0 o).mp ho <;> simp [Op.bottom]
  · exact ⟨_, (mem_initial S cols σ cap 0 _).mpr ⟨0, Or.inl rfl⟩, by simp [Op.bottom]⟩

theorem initial_regionOK (hd : cols.Distinct) (cap : F) :
    RegionOK fun s => initialStateBody (config S cols σ) cap s where
  within := by
    intro s o ho k r hh
    rw [initial_shapeRows S cols σ cap 0]
    obtain ⟨i, rfl | rfl⟩ := (mem_initial S cols σ cap s o).mp ho
    · obtain ⟨rfl, rfl⟩ := hh
      refine ⟨le_rfl, by omega, Layouter.mem_shapeCols.mpr ⟨_, (mem_initial S cols σ cap 0 _).mpr
        ⟨i, Or.inl rfl⟩, rfl⟩⟩
    · exact absurd hh (by simp [Op.Hits])
  cons s := by
    intro o ho o' ho' k _ r h h'
    obtain ⟨i, rfl | rfl⟩ := (mem_initial S cols σ cap s o).mp ho
    · obtain ⟨j, rfl | rfl⟩ := (mem_initial S cols σ cap s o').mp ho'
      · obtain ⟨rfl, rfl⟩ := h
        obtain ⟨e, -⟩ := h'
        injection e with e
        obtain rfl := hd.state e
        rfl
      · exact absurd h' (by simp [Op.Hits])
    · exact absurd h (by simp [Op.Hits])

theorem initial_ok (hd : cols.Distinct) (cap : F) (L : Layouter F) (hL : L.constCol = some kc) :
    ∃ w L' log, initialState (config S cols σ) cap L = .ok (w, L') ∧
      Ext S cols σ kc L L' log ∧
      (∀ ev, Eval S cols σ log ev → ∀ i, ev (w i) = start cap i) ∧
      (∀ g, Holds g log → CopiesHold g log ∧ ∀ i, True' g (w i)) := by
  obtain ⟨s, hs⟩ : ∃ s, s = L.startOf (initialStateBody (config S cols σ) cap 0).ops := ⟨_, rfl⟩
  obtain ⟨L₁, hL₁⟩ : ∃ L₁ : Layouter F, L₁ = { L with
      colEnd := fun c => if c ∈ Layouter.shapeCols (initialStateBody (config S cols σ) cap 0).ops then
        s + Layouter.shapeRows (initialStateBody (config S cols σ) cap 0).ops else L.colEnd c
      ops := L.ops ++ (initialStateBody (config S cols σ) cap s).ops } := ⟨_, rfl⟩
  obtain ⟨L', log, e, ho, hcc, hm, h1, h2, h3, hg⟩ := Layouter.serveConstants_spec kc
    (initialStateBody (config S cols σ) cap s).ops L₁ (by rw [hL₁]; exact hL)
  have hreg : L.Good (OwnCols cols kc) → L₁.Good (OwnCols cols kc) ∧ ∀ c, L.colEnd c ≤ L₁.colEnd c :=
    fun hG => hG.region (initial_regionOK S cols σ hd cap) L₁ (by rw [hL₁, hs]) (by rw [hL₁, hs])
  have hmono : ∀ k, L.colEnd k ≤ L₁.colEnd k := by
    intro k
    rw [hL₁]; dsimp only
    split_ifs with h
    · have := L.le_startOf h; omega
    · exact le_rfl
  refine ⟨fun i => ⟨⟨.advice (cols.state i), s⟩, start cap i⟩, L',
    (initialStateBody (config S cols σ) cap s).ops ++ log, ?_, ?_, ?_, ?_⟩
  · unfold initialState Layouter.assignRegion
    simp only [bind, Except.bind, pure, Except.pure, Layouter.reserve]
    rw [← hs]
    rw [hL₁] at e
    rw [e]
    rfl
  · refine ⟨?_, ?_, ?_, fun hG => hg _ (hreg hG).1, ?_, ?_⟩
    · rw [ho, hL₁]; simp
    · rw [hcc, hL]
    · intro k; exact (hmono k).trans (hm k)
    · intro o ho k r hh
      rcases List.mem_append.mp ho with ho | ho
      · obtain ⟨i, rfl | rfl⟩ := (mem_initial S cols σ cap s o).mp ho
        · obtain ⟨rfl, rfl⟩ := hh
          exact Or.inl (Or.inl ⟨_, Or.inl ⟨i, rfl⟩, rfl⟩)
        · exact absurd hh (by simp [Op.Hits])
      · obtain ⟨c, v, row, -, rfl | rfl⟩ := h1 o ho
        · obtain ⟨rfl, rfl⟩ := hh
          exact Or.inl (Or.inr ⟨_, Or.inr rfl, rfl⟩)
        · exact absurd hh (by simp [Op.Hits])
    · intro k hk r hsel
      rcases List.mem_append.mp hsel with hsel | hsel
      · obtain ⟨i, h | h⟩ := (mem_initial S cols σ cap s _).mp hsel <;> cases h
      · obtain ⟨c, v, row, -, h | h⟩ := h1 _ hsel <;> cases h
  · rintro ev (rfl | ⟨g, hg, rfl⟩) i
    · rfl
    · obtain ⟨row, hf, hc⟩ := h2 _ _ ((mem_initial S cols σ cap s _).mpr ⟨i, Or.inr rfl⟩)
      have e1 := hg.fixed _ _ _ (List.mem_append_right _ hf)
      have e2 := hg.copies _ _ (List.mem_append_right _ hc)
      exact e2.symm.trans e1
  · intro g hH
    have hw : ∀ i, g.advice (cols.state i) s = start cap i := fun i =>
      hH.advice _ _ _ (List.mem_append_left _ ((mem_initial S cols σ cap s _).mpr ⟨i, Or.inl rfl⟩))
    refine ⟨?_, hw⟩
    intro a b hm
    rcases List.mem_append.mp hm with hm | hm
    · obtain ⟨i, h | h⟩ := (mem_initial S cols σ cap s _).mp hm <;> cases h
    · obtain ⟨c, v, row, hcm, h | h⟩ := h1 _ hm
      · cases h
      · injection h with ea eb
        subst ea eb
        obtain ⟨v', hv, hf⟩ := h3 _ _ hm
        obtain ⟨i, h | h⟩ := (mem_initial S cols σ cap s _).mp hv
        · cases h
        · injection h with e1 e2
          subst e1 e2
          exact (hH.fixed _ _ _ (List.mem_append_right _ hf)).trans (hw i).symm

/-! ## Adding input -/

/-- The value of a padded word. -/
def pv (ev : ACell F → F) : PaddedWord F → F
  | .message a => ev a
  | .padding v => v

/-- The cell a padded word is copied from. -/
def srcCell (cols : Cols t) (s : ℕ) (k : Fin t) : PaddedWord F → Cell
  | .message a => a.cell
  | .padding _ => ⟨.fixed (cols.rcB k.castSucc), s + 1⟩

/-- State plus input. -/
def plus (x : Fin (t + 1) → F) (y : Fin t → F) : Fin (t + 1) → F :=
  fun i => if h : i.val < t then x i + y ⟨i.val, h⟩ else x i

theorem mem_addInput (w : Words F (t + 1)) (inp : Fin t → PaddedWord F) (s : ℕ) (o : Op F) :
    o ∈ (addInputBody (config S cols σ) w inp s).ops ↔
      o = .selector (σ + 3) (s + 1) ∨
      (∃ i, o = .advice (cols.state i) s (w i).value ∨
        o = .copy ⟨.advice (cols.state i), s⟩ (w i).cell) ∨
      (∃ k : Fin t, (∃ v, inp k = .padding v ∧ o = .fixed (cols.rcB k.castSucc) (s + 1) v) ∨
        o = .advice (cols.state k.castSucc) (s + 1) (pv ACell.value (inp k)) ∨
        o = .copy ⟨.advice (cols.state k.castSucc), s + 1⟩ (srcCell cols s k (inp k))) ∨
      ∃ i, o = .advice (cols.state i) (s + 2)
        (plus (fun i => (w i).value) (fun k => pv ACell.value (inp k)) i) := by
  have hin : ∀ k, (o ∈ (loadInput (config S cols σ) s k (inp k)).ops ↔
      (∃ v, inp k = .padding v ∧ o = .fixed (cols.rcB k.castSucc) (s + 1) v) ∨
        o = .advice (cols.state k.castSucc) (s + 1) (pv ACell.value (inp k)) ∨
        o = .copy ⟨.advice (cols.state k.castSucc), s + 1⟩ (srcCell cols s k (inp k))) ∧
      (loadInput (config S cols σ) s k (inp k)).val.value = pv ACell.value (inp k) := by
    intro k
    cases hk : inp k with
    | message a => simp [loadInput, copyAdvice, config, pv, srcCell]
    | padding v =>
      simp only [loadInput, assignFixed, copyAdvice, config, pv, srcCell, W.bind_ops, W.bind_val,
        List.mem_append, List.mem_cons, List.not_mem_nil, or_false, PaddedWord.padding.injEq,
        exists_eq_left', and_true]
  simp only [addInputBody, W.bind_ops, List.mem_append, mem_forFin, enableSelector, copyAdvice,
    assignAdvice, List.mem_cons, List.not_mem_nil, or_false, add_zero, fun k => (hin k).1, forFin_val,
    fun k => (hin k).2, plus]
  rfl

theorem addInput_val (w : Words F (t + 1)) (inp : Fin t → PaddedWord F) (s : ℕ) :
    (addInputBody (config S cols σ) w inp s).val = fun i => ⟨⟨.advice (cols.state i), s + 2⟩,
      plus (fun i => (w i).value) (fun k => pv ACell.value (inp k)) i⟩ := by
  have : ∀ k, (loadInput (config S cols σ) s k (inp k)).val.value = pv ACell.value (inp k) := by
    intro k; cases inp k <;> rfl
  funext i
  simp only [addInputBody, W.bind_val, forFin_val, copyAdvice, assignAdvice, this, plus]
  rfl

theorem addInput_shapeRows (w : Words F (t + 1)) (inp : Fin t → PaddedWord F) :
    Layouter.shapeRows (addInputBody (config S cols σ) w inp 0).ops = 3 := by
  apply Layouter.shapeRows_eq
  · intro o ho
    rcases (mem_addInput S cols σ w inp 0 o).mp ho with rfl | ⟨i, rfl | rfl⟩ |
      ⟨k, ⟨v, -, rfl⟩ | rfl | rfl⟩ | ⟨i, rfl⟩ <;> simp [Op.bottom]
  · exact ⟨_, (mem_addInput S cols σ w inp 0 _).mpr (Or.inr (Or.inr (Or.inr ⟨0, rfl⟩))),
      by simp [Op.bottom]⟩

theorem addInput_regionOK (hd : cols.Distinct) (w : Words F (t + 1)) (inp : Fin t → PaddedWord F) :
    RegionOK fun s => addInputBody (config S cols σ) w inp s where
  within := by
    intro s o ho k r hh
    rw [addInput_shapeRows S cols σ w inp]
    have hcol : ∀ o' ∈ (addInputBody (config S cols σ) w inp 0).ops, o'.rcol = some k →
        k ∈ Layouter.shapeCols (addInputBody (config S cols σ) w inp 0).ops := fun o' h h' =>
      Layouter.mem_shapeCols.mpr ⟨o', h, h'⟩
    rcases (mem_addInput S cols σ w inp s o).mp ho with rfl | ⟨i, rfl | rfl⟩ |
      ⟨k, ⟨v, hv, rfl⟩ | rfl | rfl⟩ | ⟨i, rfl⟩
    · obtain ⟨rfl, rfl⟩ := hh
      exact ⟨by omega, by omega, hcol _ ((mem_addInput S cols σ w inp 0 _).mpr (Or.inl rfl)) rfl⟩
    · obtain ⟨rfl, rfl⟩ := hh
      exact ⟨by omega, by omega, hcol _ ((mem_addInput S cols σ w inp 0 _).mpr
        (Or.inr (Or.inl ⟨i, Or.inl rfl⟩))) rfl⟩
    · exact absurd hh (by simp [Op.Hits])
    · obtain ⟨rfl, rfl⟩ := hh
      exact ⟨by omega, by omega, hcol _ ((mem_addInput S cols σ w inp 0 _).mpr
        (Or.inr (Or.inr (Or.inl ⟨k, Or.inl ⟨v, hv, rfl⟩⟩)))) rfl⟩
    · obtain ⟨rfl, rfl⟩ := hh
      exact ⟨by omega, by omega, hcol _ ((mem_addInput S cols σ w inp 0 _).mpr
        (Or.inr (Or.inr (Or.inl ⟨k, Or.inr (Or.inl rfl)⟩)))) rfl⟩
    · exact absurd hh (by simp [Op.Hits])
    · obtain ⟨rfl, rfl⟩ := hh
      exact ⟨by omega, by omega, hcol _ ((mem_addInput S cols σ w inp 0 _).mpr
        (Or.inr (Or.inr (Or.inr ⟨i, rfl⟩)))) rfl⟩
  cons s := by
    -- the writes, as a function of the cell
    have key : ∀ o ∈ (addInputBody (config S cols σ) w inp s).ops, ∀ k r, o.Hits k r →
        (∃ j, k = .selector j ∧ o.payload = 0) ∨
        (∃ i, k = .advice (cols.state i) ∧ ((r = s ∧ o.payload = (w i).value) ∨
          (r = s + 1 ∧ ∃ j : Fin t, j.castSucc = i ∧ o.payload = pv ACell.value (inp j)) ∨
          (r = s + 2 ∧ o.payload = plus (fun i => (w i).value) (fun k => pv ACell.value (inp k)) i))) ∨
        (∃ j : Fin t, k = .fixed (cols.rcB j.castSucc) ∧ inp j = .padding o.payload) := by
      intro o ho k r hh
      rcases (mem_addInput S cols σ w inp s o).mp ho with rfl | ⟨i, rfl | rfl⟩ |
        ⟨k, ⟨v, hv, rfl⟩ | rfl | rfl⟩ | ⟨i, rfl⟩
      · exact Or.inl ⟨_, hh.1, rfl⟩
      · exact Or.inr (Or.inl ⟨i, hh.1, Or.inl ⟨hh.2, rfl⟩⟩)
      · exact absurd hh (by simp [Op.Hits])
      · exact Or.inr (Or.inr ⟨k, hh.1, hv⟩)
      · exact Or.inr (Or.inl ⟨_, hh.1, Or.inr (Or.inl ⟨hh.2, k, rfl, rfl⟩)⟩)
      · exact absurd hh (by simp [Op.Hits])
      · exact Or.inr (Or.inl ⟨i, hh.1, Or.inr (Or.inr ⟨hh.2, rfl⟩)⟩)
    intro o ho o' ho' k _ r h h'
    rcases key o ho k r h with ⟨j, rfl, e⟩ | ⟨i, rfl, hi⟩ | ⟨j, rfl, e⟩
    · rcases key o' ho' _ r h' with ⟨j', hj, e'⟩ | ⟨i', hj, hi'⟩ | ⟨j', hj, e'⟩
      · rw [e, e']
      · cases hj
      · cases hj
    · rcases key o' ho' _ r h' with ⟨j', hj, e'⟩ | ⟨i', hj, hi'⟩ | ⟨j', hj, e'⟩
      · cases hj
      · injection hj with hj
        obtain rfl := hd.state hj
        rcases hi with ⟨hr, e⟩ | ⟨hr, j, hji, e⟩ | ⟨hr, e⟩ <;>
          rcases hi' with ⟨hr', e'⟩ | ⟨hr', j', hji', e'⟩ | ⟨hr', e'⟩ <;> first | omega | skip
        · rw [e, e']
        · obtain rfl : j = j' := Fin.castSucc_injective _ (hji.trans hji'.symm)
          rw [e, e']
        · rw [e, e']
      · cases hj
    · rcases key o' ho' _ r h' with ⟨j', hj, e'⟩ | ⟨i', hj, hi'⟩ | ⟨j', hj, e'⟩
      · cases hj
      · cases hj
      · injection hj with hj
        obtain rfl : j = j' := Fin.castSucc_injective _ (hd.rcB hj)
        rw [e] at e'
        injection e'

/-- Reading a padded word from a grid. -/
theorem pv_eq {g : Grid F} {s : ℕ} {k : Fin t} {p : PaddedWord F}
    (hf : ∀ v, p = .padding v → g.fixed (cols.rcB k.castSucc) (s + 1) = v) :
    g.cell (srcCell cols s k p) = pv (fun a => g.cell a.cell) p := by
  cases p with
  | message a => rfl
  | padding v => exact hf v rfl

/-- The words of the mode that come from cells hold their values. -/
def InTrue (g : Grid F) : PaddedWord F → Prop
  | .message a => True' g a
  | .padding _ => True

theorem add_ok (hd : cols.Distinct) (L : Layouter F) (w : Words F (t + 1))
    (inp : Fin t → PaddedWord F) :
    ∃ w' L' log, addInput (config S cols σ) L w (fun k => some (inp k)) = .ok (w', L') ∧
      Ext S cols σ kc L L' log ∧
      (∀ ev, Eval S cols σ log ev → ∀ i, ev (w' i) =
        plus (fun i => ev (w i)) (fun k => pv ev (inp k)) i) ∧
      (∀ g, Holds g log → (∀ i, True' g (w i)) → (∀ k, InTrue g (inp k)) →
        CopiesHold g log ∧ ∀ i, True' g (w' i)) := by
  have hno : ∀ s c v, Op.constant c v ∉ (addInputBody (config S cols σ) w inp s).ops := by
    intro s c v hm
    rcases (mem_addInput S cols σ w inp s _).mp hm with h | ⟨i, h | h⟩ |
      ⟨k, ⟨v, -, h⟩ | h | h⟩ | ⟨i, h⟩ <;> cases h
  have hreg := Layouter.assignRegion_ok L (fun s => addInputBody (config S cols σ) w inp s)
    (fun s c v => hno s c v)
  obtain ⟨s, hs⟩ : ∃ s, s = L.startOf (addInputBody (config S cols σ) w inp 0).ops := ⟨_, rfl⟩
  rw [← hs] at hreg
  obtain ⟨L', hL'⟩ : ∃ L' : Layouter F, L' = { L with
      colEnd := fun c => if c ∈ Layouter.shapeCols (addInputBody (config S cols σ) w inp 0).ops then
        s + Layouter.shapeRows (addInputBody (config S cols σ) w inp 0).ops else L.colEnd c
      ops := L.ops ++ (addInputBody (config S cols σ) w inp s).ops } := ⟨_, rfl⟩
  have mem := mem_addInput S cols σ w inp s
  have hall : allSome (fun k => some (inp k)) = some inp := by
    unfold allSome; rw [dif_pos (by simp)]; rfl
  refine ⟨(addInputBody (config S cols σ) w inp s).val, L',
    (addInputBody (config S cols σ) w inp s).ops, ?_, ?_, ?_, ?_⟩
  · unfold addInput
    rw [hall, hL']
    exact hreg
  · refine ⟨by rw [hL'], by rw [hL'], ?_, ?_, ?_, ?_⟩
    · intro k
      rw [hL']; dsimp only
      split_ifs with h
      · have := L.le_startOf h; omega
      · exact le_rfl
    · intro hG
      exact (hG.region (addInput_regionOK S cols σ hd w inp) L' (by rw [hL', hs]) (by rw [hL', hs])).1
    · intro o ho k r hh
      rcases (mem o).mp ho with rfl | ⟨i, rfl | rfl⟩ | ⟨j, ⟨v, -, rfl⟩ | rfl | rfl⟩ | ⟨i, rfl⟩
      · exact Or.inr ⟨3, by omega, hh.1⟩
      · exact Or.inl (Or.inl ⟨_, Or.inl ⟨i, rfl⟩, hh.1⟩)
      · exact absurd hh (by simp [Op.Hits])
      · exact Or.inl (Or.inr ⟨_, Or.inl (Or.inr ⟨_, rfl⟩), hh.1⟩)
      · exact Or.inl (Or.inl ⟨_, Or.inl ⟨_, rfl⟩, hh.1⟩)
      · exact absurd hh (by simp [Op.Hits])
      · exact Or.inl (Or.inl ⟨_, Or.inl ⟨i, rfl⟩, hh.1⟩)
    · intro k hk r hsel
      rcases (mem _).mp hsel with h | ⟨i, h | h⟩ | ⟨j, ⟨v, -, h⟩ | h | h⟩ | ⟨i, h⟩
      · injection h with e1 e2
        refine Or.inr ⟨by omega, s, e2, fun i => (w i).value, fun k => pv ACell.value (inp k),
          fun i => (mem _).mpr (Or.inr (Or.inl ⟨i, Or.inl rfl⟩)),
          fun k => (mem _).mpr (Or.inr (Or.inr (Or.inl ⟨k, Or.inr (Or.inl rfl)⟩))),
          fun k => (mem _).mpr (Or.inr (Or.inr (Or.inr ⟨k.castSucc, ?_⟩))),
          (mem _).mpr (Or.inr (Or.inr (Or.inr ⟨Fin.last t, ?_⟩)))⟩
        · simp [plus]
        · simp [plus]
      all_goals cases h
  · rintro ev (rfl | ⟨g, hg, rfl⟩) i
    · rw [addInput_val]
    · have hpad := (gates_iff g (config S cols σ)).mp hg.gates
      have hb2 := hg.fits _ ((mem _).mpr (Or.inr (Or.inr (Or.inr ⟨i, rfl⟩))))
      simp only [Op.bottom] at hb2
      obtain ⟨-, -, -, h4⟩ := hpad (s + 1) (by omega)
      have hsel := hg.selector 3 (by omega) (s + 1) ((mem _).mpr (Or.inl rfl))
      have hrow := h4 hsel
      rw [g.rot_of_lt (k := 1) (s + 2) (by push_cast; ring) (by omega),
        g.rot_of_lt (k := -1) s (by push_cast; ring) (by omega)] at hrow
      obtain ⟨r1, r2⟩ := hrow
      have c0 : ∀ i, g.advice (cols.state i) s = g.cell (w i).cell := fun i =>
        hg.copies _ _ ((mem _).mpr (Or.inr (Or.inl ⟨i, Or.inr rfl⟩)))
      have c1 : ∀ k : Fin t, g.advice (cols.state k.castSucc) (s + 1) =
          pv (fun a => g.cell a.cell) (inp k) := fun k => by
        refine (hg.copies _ _ ((mem _).mpr (Or.inr (Or.inr (Or.inl ⟨k, Or.inr (Or.inr rfl)⟩))))).trans ?_
        refine pv_eq cols fun v hv => ?_
        exact hg.fixed _ _ _ ((mem _).mpr (Or.inr (Or.inr (Or.inl ⟨k, Or.inl ⟨v, hv, rfl⟩⟩))))
      rw [addInput_val]
      show g.advice (cols.state i) (s + 2) = _
      simp only [cur, config] at r1 r2
      unfold plus
      refine Fin.lastCases ?_ (fun k => ?_) i
      · rw [dif_neg (by simp)]
        rw [r2, c0]
      · rw [dif_pos (by simp)]
        rw [r1 k, c0, c1]
        rfl
  · intro g hH hw hin
    have a0 : ∀ i, g.advice (cols.state i) s = (w i).value := fun i =>
      hH.advice _ _ _ ((mem _).mpr (Or.inr (Or.inl ⟨i, Or.inl rfl⟩)))
    have a1 : ∀ k : Fin t, g.advice (cols.state k.castSucc) (s + 1) = pv ACell.value (inp k) := fun k =>
      hH.advice _ _ _ ((mem _).mpr (Or.inr (Or.inr (Or.inl ⟨k, Or.inr (Or.inl rfl)⟩))))
    refine ⟨?_, fun i => ?_⟩
    · intro a b hm
      rcases (mem _).mp hm with h | ⟨i, h | h⟩ | ⟨j, ⟨v, -, h⟩ | h | h⟩ | ⟨i, h⟩
      · cases h
      · cases h
      · injection h with ea eb
        subst ea eb
        exact (a0 i).trans (hw i).symm
      · cases h
      · cases h
      · injection h with ea eb
        subst ea eb
        refine (a1 j).trans ?_
        have hj := hin j
        cases hi : inp j with
        | message a => rw [hi] at hj; exact hj.symm
        | padding v =>
          exact (hH.fixed _ _ _ ((mem _).mpr (Or.inr (Or.inr (Or.inl ⟨j, Or.inl ⟨v, hi, rfl⟩⟩))))).symm
      · cases h
    · rw [addInput_val]
      exact hH.advice _ _ _ ((mem _).mpr (Or.inr (Or.inr (Or.inr ⟨i, rfl⟩))))

/-! ## Permutation -/

theorem perm_ok (hinv : Matrix.of S.mReg * Matrix.of S.mInv = 1) (hd : cols.Distinct)
    (L : Layouter F) (w : Words F (t + 1)) :
    ∃ w' L' log, permute S (config S cols σ) L w = .ok (w', L') ∧
      Ext S cols σ kc L L' log ∧
      (∀ ev, Eval S cols σ log ev → ∀ i, ev (w' i) = Pow5.perm S (fun i => ev (w i)) i) ∧
      (∀ g, Holds g log → (∀ i, True' g (w i)) → CopiesHold g log ∧ ∀ i, True' g (w' i)) := by
  obtain ⟨s, L', e, hs, ho, hc, hcol⟩ := permute_ok S cols σ L w
  have mem := (permuteBody_spec S cols σ s w).2
  refine ⟨_, L', (permuteBody S (config S cols σ) w s).ops, e, ⟨ho, hc, ?_, ?_, ?_, ?_⟩, ?_, ?_⟩
  · intro k
    rw [hcol]; dsimp only
    split_ifs with h
    · have := L.le_startOf h; omega
    · exact le_rfl
  · intro hG
    exact (hG.region (permute_regionOK S cols σ hd w) L' hcol (by rw [ho, hs])).1
  · intro o ho k r hh
    rcases (mem o).mp ho with hb | ⟨i, rfl⟩
    · cases hb with
      | state o _ i => exact Or.inl (Or.inl ⟨_, Or.inl ⟨i, rfl⟩, hh.1⟩)
      | sel o _ =>
        have := selAt_lt S σ o
        exact Or.inr ⟨selAt S σ o - σ, by omega, by rw [hh.1]; congr 1; omega⟩
      | rcA o _ i => exact Or.inl (Or.inr ⟨_, Or.inl (Or.inl ⟨i, rfl⟩), hh.1⟩)
      | sbox o _ _ => exact Or.inl (Or.inl ⟨_, Or.inr rfl, hh.1⟩)
      | rcB o _ _ i => exact Or.inl (Or.inr ⟨_, Or.inl (Or.inr ⟨i, rfl⟩), hh.1⟩)
    · exact absurd hh (by simp [Op.Hits])
  · intro k hk r hsel
    rcases (mem _).mp hsel with hb | ⟨i, h⟩
    · exact Or.inl ⟨_, s, fun op h => (mem op).mpr (Or.inl h), hb⟩
    · cases h
  · rintro ev (rfl | ⟨g, hg, rfl⟩) i
    · show xAt S _ (steps S) i = _
      rw [xAt_steps]
    · have hb := hg.fits _ ((mem _).mpr (Or.inl (.state (steps S) le_rfl 0)))
      simp only [Op.bottom] at hb
      have key := placed_sound S cols σ g hinv (w, s) (by dsimp only; omega)
        (fun k hk r hm => hg.selector k (by omega) r hm) (fun c r v hm => hg.fixed c r v hm) hg.gates
      refine (congrFun key i).trans ?_
      congr 1
      funext j
      exact hg.copies _ _ ((mem _).mpr (Or.inr ⟨j, rfl⟩))
  · intro g hH hw
    have hx : ∀ o ≤ steps S, ∀ i, g.advice (cols.state i) (s + o) =
        xAt S (fun i => (w i).value) o i := fun o ho i =>
      hH.advice _ _ _ ((mem _).mpr (Or.inl (.state o ho i)))
    refine ⟨?_, fun i => hx _ le_rfl i⟩
    intro a b hm
    rcases (mem _).mp hm with hb | ⟨i, h⟩
    · cases hb
    · injection h with ea eb
      subst ea eb
      refine (hx 0 (by omega) i).trans ?_
      rw [xAt_zero]
      exact (hw i).symm

/-! ## The sponge function -/

theorem sponge_some (hinv : Matrix.of S.mReg * Matrix.of S.mInv = 1) (hd : cols.Distinct)
    (L : Layouter F) (w : Words F (t + 1)) (inp : Fin t → PaddedWord F) :
    ∃ w' L' log, poseidonSponge S (config S cols σ) L w (some fun k => some (inp k)) =
        .ok (w', getOutput w', L') ∧
      Ext S cols σ kc L L' log ∧
      (∀ ev, Eval S cols σ log ev → ∀ i, ev (w' i) =
        Pow5.perm S (plus (fun i => ev (w i)) fun k => pv ev (inp k)) i) ∧
      (∀ g, Holds g log → (∀ i, True' g (w i)) → (∀ k, InTrue g (inp k)) →
        CopiesHold g log ∧ ∀ i, True' g (w' i)) := by
  obtain ⟨w₁, L₁, log₁, e₁, x₁, v₁, h₁⟩ := add_ok S cols σ kc hd L w inp
  obtain ⟨w₂, L₂, log₂, e₂, x₂, v₂, h₂⟩ := perm_ok S cols σ kc hinv hd L₁ w₁
  refine ⟨w₂, L₂, log₁ ++ log₂, ?_, x₁.trans x₂, ?_, ?_⟩
  · simp only [poseidonSponge, stepInput, e₁, e₂, bind, Except.bind, pure, Except.pure]
  · intro ev hev i
    rw [v₂ ev (hev.mono fun o h => List.mem_append_right _ h)]
    congr 1
    funext j
    exact v₁ ev (hev.mono fun o h => List.mem_append_left _ h) j
  · intro g hH hw hin
    obtain ⟨c₁, t₁⟩ := h₁ g (hH.mono fun o h => List.mem_append_left _ h) hw hin
    obtain ⟨c₂, t₂⟩ := h₂ g (hH.mono fun o h => List.mem_append_right _ h) t₁
    refine ⟨fun a b hm => ?_, t₂⟩
    rcases List.mem_append.mp hm with hm | hm
    · exact c₁ a b hm
    · exact c₂ a b hm

theorem sponge_none (hinv : Matrix.of S.mReg * Matrix.of S.mInv = 1) (hd : cols.Distinct)
    (L : Layouter F) (w : Words F (t + 1)) :
    ∃ w' L' log, poseidonSponge S (config S cols σ) L w none = .ok (w', getOutput w', L') ∧
      Ext S cols σ kc L L' log ∧
      (∀ ev, Eval S cols σ log ev → ∀ i, ev (w' i) = Pow5.perm S (fun i => ev (w i)) i) ∧
      (∀ g, Holds g log → (∀ i, True' g (w i)) → CopiesHold g log ∧ ∀ i, True' g (w' i)) := by
  obtain ⟨w₂, L₂, log₂, e₂, x₂, v₂, h₂⟩ := perm_ok S cols σ kc hinv hd L w
  refine ⟨w₂, L₂, log₂, ?_, x₂, v₂, h₂⟩
  simp only [poseidonSponge, stepInput, e₂, bind, Except.bind, pure, Except.pure]

/-! ## Simulation of the native sponge -/

/-- Native and in-circuit sponge agree under an evaluation of cells. -/
structure Rel (ev : ACell F → F) (gs : Sponge F (AMode F t) t)
    (bs : Base.Sponge F (Base.Absorbing F t) (t + 1)) : Prop where
  layout : bs.layout = 0
  state : ∀ i, ev (gs.state i) = bs.state i
  mode : ∀ k, (gs.mode k).map (pv ev) = bs.mode.val k

structure RelS (ev : ACell F → F) (gs : Sponge F (SMode F t) t)
    (bs : Base.Sponge F (Base.Squeezing F t) (t + 1)) : Prop where
  layout : bs.layout = 0
  state : ∀ i, ev (gs.state i) = bs.state i
  mode : ∀ k, (gs.mode k).map ev = bs.mode.val k

/-- All cells of the sponge hold their values. -/
def Hon (g : Grid F) (gs : Sponge F (AMode F t) t) : Prop :=
  (∀ i, True' g (gs.state i)) ∧ ∀ k p, gs.mode k = some p → InTrue g p

def HonS (g : Grid F) (gs : Sponge F (SMode F t) t) : Prop :=
  (∀ i, True' g (gs.state i)) ∧ ∀ k p, gs.mode k = some p → True' g p

theorem base_addInput (x : Fin (t + 1) → F) (y : Fin t → F) :
    Base.addInput 0 (fun k => some (y k)) x = .ok (plus x y) := by
  have h := Base.addInput_ok (T := t + 1) (RATE := t) 0 (List.ofFn y) (by simp) x
  have e : (Base.modeOf t (List.ofFn y)).val = fun k => some (y k) := by
    funext k
    simp [Base.modeOf]
  rw [e] at h
  rw [h]
  refine congrArg Except.ok ?_
  funext i
  simp only [Spec.addBlock, plus, zero_le, if_true, Nat.sub_zero, List.getD_eq_getElem?_getD]
  split_ifs with hi
  · simp [hi]
  · rw [List.getElem?_eq_none (by simp; omega)]; simp

theorem base_sponge_some (π : (Fin (t + 1) → F) → Fin (t + 1) → F) (x : Fin (t + 1) → F)
    (y : Fin t → F) (m : Base.Absorbing F t) (hm : ∀ k, m.val k = some (y k)) :
    Base.poseidonSponge (RATE := t) π x (some (m, 0)) =
      .ok (π (plus x y), ⟨fun k => some (π (plus x y) k.castSucc)⟩) := by
  have hm' : m.val = fun k => some (y k) := funext hm
  have ho : ∀ z : Fin (t + 1) → F, Base.outputOf (RATE := t) z = fun k => some (z k.castSucc) := by
    intro z; funext k
    unfold Base.outputOf
    rw [dif_pos (by omega)]
    rfl
  simp only [Base.poseidonSponge, hm', base_addInput, Nat.le_succ, zero_le, if_true, bind,
    Except.bind, pure, Except.pure, ho]

theorem base_sponge_none (π : (Fin (t + 1) → F) → Fin (t + 1) → F) (x : Fin (t + 1) → F) :
    Base.poseidonSponge (RATE := t) π x none = .ok (π x, ⟨fun k => some (π x k.castSucc)⟩) := by
  have ho : ∀ z : Fin (t + 1) → F, Base.outputOf (RATE := t) z = fun k => some (z k.castSucc) := by
    intro z; funext k
    unfold Base.outputOf
    rw [dif_pos (by omega)]
    rfl
  simp only [Base.poseidonSponge, bind, Except.bind, pure, Except.pure, ho]

/-- A missing word makes the native sponge panic. -/
theorem base_gap (π : (Fin (t + 1) → F) → Fin (t + 1) → F)
    (bs : Base.Sponge F (Base.Absorbing F t) (t + 1)) (hl : bs.layout = 0) (k : Fin t)
    (hk : bs.mode.val k = none) : bs.finishAbsorbing π = .error .notPadded := by
  have key : ∀ (l : List (Fin t)) (st : Fin (t + 1) → F), k ∈ l →
      l.foldlM (fun st (k : Fin t) =>
        if h : 0 + k.val < t + 1 then
          match bs.mode.val k with
          | none => Except.error Panic.notPadded
          | some v => .ok (Function.update st ⟨0 + k.val, h⟩ (st ⟨0 + k.val, h⟩ + v))
        else .ok st) st = .error .notPadded := by
    intro l
    induction l with
    | nil => intro st h; simp at h
    | cons j l ih =>
      intro st h
      rw [List.foldlM_cons, dif_pos (by omega)]
      cases hj : bs.mode.val j with
      | none => rfl
      | some v =>
        refine ih _ ?_
        rcases List.mem_cons.mp h with rfl | h
        · rw [hk] at hj; cases hj
        · exact h
  have h : Base.addInput 0 bs.mode.val bs.state = .error .notPadded :=
    key (List.finRange t) bs.state (List.mem_finRange _)
  simp only [Base.Sponge.finishAbsorbing, Base.poseidonSponge, hl, Nat.le_succ, zero_le, if_true]
  rw [h]
  rfl

/-- A mode without gaps. -/
theorem full_of_find {α : Type} {m : Fin t → Option α}
    (h : (List.finRange t).find? (fun k => (m k).isNone) = none) :
    ∃ inp : Fin t → α, m = fun k => some (inp k) := by
  rw [List.find?_eq_none] at h
  have : ∀ k, ∃ a, m k = some a := fun k => by
    have := h k (List.mem_finRange _)
    exact Option.isSome_iff_exists.mp (by simpa [Option.isSome_iff_ne_none] using this)
  choose inp hinp using this
  exact ⟨inp, funext hinp⟩

theorem find_congr {α : Type} {p q : α → Bool} (h : ∀ a, p a = q a) (l : List α) :
    l.find? p = l.find? q := by rw [funext h]

theorem absorb_ok (hinv : Matrix.of S.mReg * Matrix.of S.mInv = 1) (hd : cols.Distinct) (ht : 0 < t)
    (L : Layouter F) (gs : Sponge F (AMode F t) t) (v : PaddedWord F) :
    ∃ gs' L' log, gs.absorb S (config S cols σ) L v = .ok (gs', L') ∧
      Ext S cols σ kc L L' log ∧
      (∀ ev, Eval S cols σ log ev → ∀ bs, Rel ev gs bs → ∃ bs',
        bs.absorb (Pow5.perm S) (pv ev v) = .ok bs' ∧ Rel ev gs' bs') ∧
      (∀ g, Holds g log → Hon g gs → InTrue g v → CopiesHold g log ∧ Hon g gs') := by
  have hfind : ∀ ev bs, Rel ev gs bs →
      (List.finRange t).find? (fun k => (bs.mode.val k).isNone) =
        (List.finRange t).find? (fun k => (gs.mode k).isNone) := fun ev bs h =>
    find_congr (fun k => by rw [← h.mode k]; simp) _
  cases hf : (List.finRange t).find? (fun k => (gs.mode k).isNone) with
  | some k =>
    refine ⟨{ gs with mode := Function.update gs.mode k (some v) }, L, [], ?_, Ext.refl S cols σ kc L,
      ?_, ?_⟩
    · unfold Sponge.absorb; rw [hf]
    · intro ev _ bs h
      refine ⟨{ bs with mode := ⟨Function.update bs.mode.val k (some (pv ev v))⟩ }, ?_,
        h.layout, h.state, ?_⟩
      · unfold Base.Sponge.absorb; rw [hfind ev bs h, hf]
      · intro j
        by_cases hj : j = k
        · subst hj; simp
        · simp [Function.update_of_ne hj, h.mode j]
    · intro g _ hh hv
      refine ⟨by intro a b hm; simp at hm, hh.1, fun j p hp => ?_⟩
      by_cases hj : j = k
      · subst hj
        simp only [Function.update_self, Option.some.injEq] at hp
        exact hp ▸ hv
      · simp only [Function.update_of_ne hj] at hp
        exact hh.2 j p hp
  | none =>
    obtain ⟨inp, hinp⟩ := full_of_find hf
    obtain ⟨w', L', log, e, x, hv, hh⟩ := sponge_some S cols σ kc hinv hd L gs.state inp
    refine ⟨⟨fun k => if k.val = 0 then some v else none, w'⟩, L', log, ?_, x, ?_, ?_⟩
    · unfold Sponge.absorb
      rw [hf]
      simp only [hinp, e, initWith, bind, Except.bind, pure, Except.pure, if_neg (Nat.ne_of_gt ht)]
    · intro ev hev bs h
      have hm : ∀ k, bs.mode.val k = some (pv ev (inp k)) := fun k => by
        rw [← h.mode k, hinp]; rfl
      have hb := base_sponge_some (Pow5.perm S) bs.state _ bs.mode hm
      have hst : (fun i => ev (gs.state i)) = bs.state := funext h.state
      refine ⟨⟨⟨fun k => if k.val = 0 then some (pv ev v) else none⟩,
        Pow5.perm S (plus bs.state fun k => pv ev (inp k)), bs.layout⟩, ?_, h.layout, ?_, ?_⟩
      · unfold Base.Sponge.absorb
        rw [hfind ev bs h, hf]
        simp only [h.layout, hb, Base.Absorbing.initWith, if_neg (Nat.ne_of_gt ht), bind, Except.bind,
          pure, Except.pure]
      · intro i
        rw [hv ev hev i, hst]
      · intro k
        dsimp only
        split_ifs <;> simp
    · intro g hH hon hiv
      obtain ⟨c, t'⟩ := hh g hH hon.1 fun k => hon.2 k _ (by rw [hinp])
      refine ⟨c, t', fun k p hp => ?_⟩
      simp only at hp
      split_ifs at hp
      simp only [Option.some.injEq] at hp
      exact hp ▸ hiv

theorem absorbAll_ok (hinv : Matrix.of S.mReg * Matrix.of S.mInv = 1) (hd : cols.Distinct)
    (ht : 0 < t) : ∀ (vs : List (PaddedWord F)) (L : Layouter F) (gs : Sponge F (AMode F t) t),
    ∃ gs' L' log, gs.absorbAll S (config S cols σ) L vs = .ok (gs', L') ∧
      Ext S cols σ kc L L' log ∧
      (∀ ev, Eval S cols σ log ev → ∀ bs, Rel ev gs bs → ∃ bs',
        (vs.map (pv ev)).foldlM (fun s v => Base.Sponge.absorb (Pow5.perm S) s v) bs = .ok bs' ∧
          Rel ev gs' bs') ∧
      (∀ g, Holds g log → Hon g gs → (∀ v ∈ vs, InTrue g v) → CopiesHold g log ∧ Hon g gs')
  | [], L, gs => ⟨gs, L, [], rfl, Ext.refl S cols σ kc L, fun ev _ bs h => ⟨bs, rfl, h⟩,
      fun g _ h _ => ⟨by intro a b hm; simp at hm, h⟩⟩
  | v :: vs, L, gs => by
    obtain ⟨gs₁, L₁, log₁, e₁, x₁, r₁, h₁⟩ := absorb_ok S cols σ kc hinv hd ht L gs v
    obtain ⟨gs₂, L₂, log₂, e₂, x₂, r₂, h₂⟩ := absorbAll_ok hinv hd ht vs L₁ gs₁
    refine ⟨gs₂, L₂, log₁ ++ log₂, ?_, x₁.trans x₂, ?_, ?_⟩
    · simp only [Sponge.absorbAll, e₁, bind, Except.bind, e₂]
    · intro ev hev bs h
      obtain ⟨bs₁, b₁, q₁⟩ := r₁ ev (hev.mono fun o h => List.mem_append_left _ h) bs h
      obtain ⟨bs₂, b₂, q₂⟩ := r₂ ev (hev.mono fun o h => List.mem_append_right _ h) bs₁ q₁
      refine ⟨bs₂, ?_, q₂⟩
      simp only [List.map_cons, List.foldlM_cons, b₁, bind, Except.bind]
      exact b₂
    · intro g hH hon hv
      obtain ⟨c₁, t₁⟩ := h₁ g (hH.mono fun o h => List.mem_append_left _ h) hon (hv v (by simp))
      obtain ⟨c₂, t₂⟩ := h₂ g (hH.mono fun o h => List.mem_append_right _ h) t₁
        fun v h => hv v (by simp [h])
      refine ⟨fun a b hm => ?_, t₂⟩
      rcases List.mem_append.mp hm with hm | hm
      · exact c₁ a b hm
      · exact c₂ a b hm

theorem finish_ok (hinv : Matrix.of S.mReg * Matrix.of S.mInv = 1) (hd : cols.Distinct)
    (L : Layouter F) (gs : Sponge F (AMode F t) t) (hfull : ∀ k, (gs.mode k).isSome) :
    ∃ gs' L' log, gs.finishAbsorbing S (config S cols σ) L = .ok (gs', L') ∧
      Ext S cols σ kc L L' log ∧
      (∀ ev, Eval S cols σ log ev → ∀ bs, Rel ev gs bs → ∃ bs',
        bs.finishAbsorbing (Pow5.perm S) = .ok bs' ∧ RelS ev gs' bs') ∧
      (∀ g, Holds g log → Hon g gs → CopiesHold g log ∧ HonS g gs') := by
  obtain ⟨inp, hinp⟩ : ∃ inp : Fin t → PaddedWord F, gs.mode = fun k => some (inp k) := by
    refine full_of_find ?_
    rw [List.find?_eq_none]
    intro k _
    simpa [Option.isSome_iff_ne_none] using hfull k
  obtain ⟨w', L', log, e, x, hv, hh⟩ := sponge_some S cols σ kc hinv hd L gs.state inp
  refine ⟨⟨getOutput w', w'⟩, L', log, ?_, x, ?_, ?_⟩
  · simp only [Sponge.finishAbsorbing, hinp, e, bind, Except.bind, pure, Except.pure]
  · intro ev hev bs h
    have hm : ∀ k, bs.mode.val k = some (pv ev (inp k)) := fun k => by
      rw [← h.mode k, hinp]; rfl
    have hb := base_sponge_some (Pow5.perm S) bs.state _ bs.mode hm
    have hst : (fun i => ev (gs.state i)) = bs.state := funext h.state
    refine ⟨⟨⟨fun k => some (Pow5.perm S (plus bs.state fun k => pv ev (inp k)) k.castSucc)⟩,
        Pow5.perm S (plus bs.state fun k => pv ev (inp k)), bs.layout⟩, ?_, h.layout, ?_, ?_⟩
    · unfold Base.Sponge.finishAbsorbing
      simp only [h.layout, hb, bind, Except.bind, pure, Except.pure]
    · intro i
      rw [hv ev hev i, hst]
    · intro k
      simp only [getOutput, Option.map_some, hv ev hev, hst]
  · intro g hH hon
    obtain ⟨c, t'⟩ := hh g hH hon.1 fun k => hon.2 k _ (by rw [hinp])
    refine ⟨c, t', fun k p hp => ?_⟩
    simp only [getOutput, Option.some.injEq] at hp
    exact hp ▸ t' _

/-- A mode with a gap makes `finish_absorbing` panic. -/
theorem finish_gap (L : Layouter F) (gs : Sponge F (AMode F t) t) (k : Fin t)
    (hk : gs.mode k = none) :
    gs.finishAbsorbing S (config S cols σ) L = .error .notPadded := by
  have : allSome gs.mode = none := by
    unfold allSome
    rw [dif_neg]
    intro h
    have := h k
    rw [hk] at this
    cases this
  simp only [Sponge.finishAbsorbing, poseidonSponge, stepInput, Pow5.addInput, this, bind, Except.bind]

/-- Taking the first available word. -/
theorem take_rel {ev : ACell F → F} {m : SMode F t} {b : Base.Squeezing F t}
    (h : ∀ k, (m k).map ev = b.val k) :
    match takeFirst m, Base.takeFirst b with
    | some (e, m'), some (e', b') => ev e = e' ∧ ∀ k, (m' k).map ev = b'.val k
    | none, none => True
    | _, _ => False := by
  have hf : (List.finRange t).find? (fun k => (b.val k).isSome) =
      (List.finRange t).find? (fun k => (m k).isSome) :=
    find_congr (fun k => by rw [← h k]; simp) _
  unfold takeFirst Base.takeFirst
  rw [hf]
  cases hfm : (List.finRange t).find? (fun k => (m k).isSome) with
  | none => simp
  | some k =>
    have hk := List.find?_some hfm
    obtain ⟨a, ha⟩ := Option.isSome_iff_exists.mp hk
    have hb : b.val k = some (ev a) := by rw [← h k, ha]; rfl
    simp only [ha, hb, Option.map_some, true_and]
    intro j
    by_cases hj : j = k
    · subst hj; simp
    · simp [Function.update_of_ne hj, h j]

theorem take_hon {g : Grid F} {m : SMode F t} {e : ACell F} {m' : SMode F t}
    (h : takeFirst m = some (e, m')) (hm : ∀ k p, m k = some p → True' g p) :
    True' g e ∧ ∀ k p, m' k = some p → True' g p := by
  unfold takeFirst at h
  cases hfm : (List.finRange t).find? (fun k => (m k).isSome) with
  | none => rw [hfm] at h; cases h
  | some k =>
    rw [hfm] at h
    have hk := List.find?_some hfm
    obtain ⟨a, ha⟩ := Option.isSome_iff_exists.mp hk
    simp only [ha, Option.map_some, Option.some.injEq, Prod.mk.injEq] at h
    obtain ⟨rfl, rfl⟩ := h
    refine ⟨hm k _ ha, fun j p hp => ?_⟩
    by_cases hj : j = k
    · subst hj; simp at hp
    · rw [Function.update_of_ne hj] at hp
      exact hm j p hp

theorem take_output (ht : 0 < t) (w : Words F (t + 1)) :
    ∃ m, takeFirst (getOutput w) = some (w 0, m) := by
  obtain ⟨t, rfl⟩ : ∃ u, t = u + 1 := ⟨t - 1, by omega⟩
  unfold takeFirst
  have : (List.finRange (t + 1)).find? (fun k => (getOutput w k).isSome) = some 0 := by
    rw [List.finRange_succ]
    simp [getOutput]
  rw [this]
  exact ⟨_, rfl⟩

theorem squeeze_ok (hinv : Matrix.of S.mReg * Matrix.of S.mInv = 1) (hd : cols.Distinct) (ht : 0 < t)
    (L : Layouter F) (gs : Sponge F (SMode F t) t) :
    ∃ x gs' L' log, gs.squeeze S (config S cols σ) L = .ok (x, gs', L') ∧
      Ext S cols σ kc L L' log ∧
      (∀ ev, Eval S cols σ log ev → ∀ bs, RelS ev gs bs → ∃ bs',
        bs.squeeze (Pow5.perm S) = .ok (ev x, bs') ∧ RelS ev gs' bs') ∧
      (∀ g, Holds g log → HonS g gs → CopiesHold g log ∧ HonS g gs' ∧ True' g x) := by
  cases hf : takeFirst gs.mode with
  | some em =>
    obtain ⟨e, m⟩ := em
    refine ⟨e, { gs with mode := m }, L, [], ?_, Ext.refl S cols σ kc L, ?_, ?_⟩
    · unfold Sponge.squeeze; rw [hf]
    · intro ev _ bs h
      have := take_rel h.mode
      rw [hf] at this
      cases hb : Base.takeFirst bs.mode with
      | none => rw [hb] at this; exact this.elim
      | some eb =>
        rw [hb] at this
        obtain ⟨e', b'⟩ := eb
        obtain ⟨rfl, hm⟩ := this
        refine ⟨{ bs with mode := b' }, ?_, h.layout, h.state, hm⟩
        unfold Base.Sponge.squeeze; rw [hb]
    · intro g _ hon
      obtain ⟨h1, h2⟩ := take_hon hf hon.2
      exact ⟨by intro a b hm; simp at hm, ⟨hon.1, h2⟩, h1⟩
  | none =>
    obtain ⟨w', L', log, e, x, hv, hh⟩ := sponge_none S cols σ kc hinv hd L gs.state
    obtain ⟨m, hm⟩ := take_output ht w'
    refine ⟨w' 0, ⟨m, w'⟩, L', log, ?_, x, ?_, ?_⟩
    · unfold Sponge.squeeze
      rw [hf]
      simp only [e, bind, Except.bind, hm]
    · intro ev hev bs h
      have hst : (fun i => ev (gs.state i)) = bs.state := funext h.state
      have h0 := take_rel h.mode
      rw [hf] at h0
      cases hb : Base.takeFirst bs.mode with
      | some eb => rw [hb] at h0; exact h0.elim
      | none =>
        have h1 : ∀ k, (getOutput w' k).map ev =
            (⟨fun k => some (Pow5.perm S bs.state k.castSucc)⟩ : Base.Squeezing F t).val k := by
          intro k
          simp only [getOutput, Option.map_some, hv ev hev, hst]
        have h2 := take_rel h1
        rw [hm] at h2
        cases hb2 : Base.takeFirst
            (⟨fun k => some (Pow5.perm S bs.state k.castSucc)⟩ : Base.Squeezing F t) with
        | none => rw [hb2] at h2; exact h2.elim
        | some eb =>
          obtain ⟨e', b'⟩ := eb
          rw [hb2] at h2
          obtain ⟨rfl, hm'⟩ := h2
          refine ⟨{ bs with mode := b', state := Pow5.perm S bs.state }, ?_, h.layout, ?_, hm'⟩
          · unfold Base.Sponge.squeeze
            rw [hb]
            simp only [base_sponge_none, bind, Except.bind, hb2]
          · intro i
            rw [hv ev hev i, hst]
    · intro g hH hon
      obtain ⟨c, t'⟩ := hh g hH hon.1
      obtain ⟨h1, h2⟩ := take_hon (g := g) hm fun k p hp => by
        simp only [getOutput, Option.some.injEq] at hp
        exact hp ▸ t' _
      exact ⟨c, ⟨t', h2⟩, h1⟩

end
end Circuit.Gadget
