import Verif.Circuit.SeptidonSound
import Verif.Circuit.Pow5Sound

/-!
# The permutation chips: all advice cells of a region

The gates of either chip hold exactly when every advice cell of every region, except the helper cells of
Septidon, has the value `permute` writes for the state found in the first row of the region.
-/

set_option linter.unusedVariables false
set_option linter.unusedSectionVars false

open Halo2

namespace Circuit

namespace Septidon

variable {F : Type} [Field F]

/-- The helper cells of a block: the two cells of the transition column that are written as 0,
transition_round.rs:82-84. -/
def Helper (a p c r : ℕ) : Prop := c = a + 12 ∧ (r = p ∨ r = p + 4)

section
variable {a f : ℕ} {m : Base.Mds F 3} {rc : ℕ → Fin 3 → F} {x : Fin 3 → F} {p : ℕ}

theorem cells_of_partial (g : Grid F) (r : ℕ) : ∀ (l : List SBox) (y : Fin 3 → F),
    PartialCells m g r l y → ∀ j (h : j < l.length), sIn g l[j] r = partialOut m g r (l.take j) y 0 := by
  intro l
  induction l with
  | nil => intro y _ j h; simp at h
  | cons s l ih =>
    rintro y ⟨h1, h2⟩ j hj
    cases j with
    | zero => exact h1
    | succ j => exact ih _ h2 j (by simpa using hj)

/-- A trace holds the written values, except in the helper cells. -/
theorem TraceOK.cell (hc : Compact rc) {g : Grid F} (hf : FixedOK rc g (config a f) p)
    (h : TraceOK m rc g (config a f) p x) {c r : ℕ} {v : F} (hb : BlockOp a f m rc x p (.advice c r v))
    (hh : ¬ Helper a p c r) : g.advice c r = v := by
  generalize hop : Op.advice c r v = op at hb
  cases hb with
  | fullIn o ho i =>
    cases hop
    have e : g.advice (a + i) (p + o) = fullIn g (config a f) (p + o) i := (fullIn_apply a f g _ i).symm
    rw [e]
    by_cases h4 : o < 4
    · rw [h.full1 o h4, fullIdx, if_pos h4]
    · obtain ⟨o, rfl⟩ : ∃ o', o = 4 + o' := ⟨o - 4, by omega⟩
      have := h.full2 o (by omega)
      rw [Nat.add_assoc] at this
      rw [this, fullIdx, if_neg h4]
      congr 1; omega
  | mid i =>
    cases hop
    have := congrFun h.mid i
    rw [← this]
    simp [transIn, config, show p + 3 - 2 = p + 1 by omega]
  | midH => cases hop; exact absurd ⟨rfl, Or.inl rfl⟩ hh
  | lin o ho i =>
    cases hop
    rw [← h.sept o ho]
    fin_cases i <;> rfl
  | partIn o ho j hj =>
    cases hop
    have hl : j < (sboxes (config a f)).length := by simpa [sboxes, config] using hj
    have := cells_of_partial g (p + o) _ _ (h.cells o ho) j hl
    have e : (sboxes (config a f))[j] = ⟨⟨sCol a j, 0⟩, f + 4 + j⟩ := sbox_get a f j hj
    have e' : sIn g (sboxes (config a f))[j] (p + o) = g.advice (sCol a j) (p + o) := by
      rw [e]; rfl
    rw [← e', this, partialOut_eq, List.map_take, hf.part o ho, ← List.map_take, List.take_range,
      show min j 7 = j by omega, ← St_septuple m rc x hc (5 + o * 7) (by omega) j (by omega)]
  | fin i =>
    cases hop
    have := congrFun h.fin i
    rw [← this]
    simp [transIn, config, show p + 7 - 2 = p + 5 by omega]
  | finH => cases hop; exact absurd ⟨rfl, Or.inr rfl⟩ hh
  | _ => cases hop

/-- Conversely, the helper cells do not matter. -/
theorem trace_of_cells (hc : Compact rc) (g : Grid F) (hf : FixedOK rc g (config a f) p)
    (h : ∀ c r v, BlockOp a f m rc x p (.advice c r v) → ¬ Helper a p c r → g.advice c r = v) :
    TraceOK m rc g (config a f) p x := by
  have hfull : ∀ o < 8, fullIn g (config a f) (p + o) = St m rc (fullIdx o) x := by
    intro o ho
    funext i
    have := h _ _ _ (BlockOp.fullIn o ho i) (by rintro ⟨h, -⟩; omega)
    fin_cases i <;> exact this
  have hsept : ∀ o < 8, septIn g (config a f) (p + o) = St m rc (5 + o * 7) x := by
    intro o ho
    funext i
    have h0 := h _ _ _ (BlockOp.partIn o ho 0 (by omega)) (by rintro ⟨h, -⟩; simp [sCol] at h)
    have h1 := h _ _ _ (BlockOp.lin o ho 0) (by rintro ⟨h, -⟩; simp at h)
    have h2 := h _ _ _ (BlockOp.lin o ho 1) (by rintro ⟨h, -⟩; simp at h)
    fin_cases i
    · exact h0
    · exact h1
    · exact h2
  refine ⟨?_, ?_, hsept, ?_, ?_, ?_⟩
  · intro o ho
    rw [hfull o (by omega), fullIdx, if_pos ho]
  · funext i
    have := h _ _ _ (BlockOp.mid i) (by rintro ⟨-, h | h⟩ <;> omega)
    simpa [transIn, config, show p + 3 - 2 = p + 1 by omega] using this
  · intro o ho
    apply partialCells_of
    intro j hj
    have hj7 : j < 7 := by simpa [sboxes, config] using hj
    have hin := h _ _ _ (BlockOp.partIn o ho j hj7) (by
      rintro ⟨h, -⟩
      unfold sCol at h
      split_ifs at h <;> omega)
    have e : (sboxes (config a f))[j] = ⟨⟨sCol a j, 0⟩, f + 4 + j⟩ := sbox_get a f j hj7
    have e' : sIn g (sboxes (config a f))[j] (p + o) = g.advice (sCol a j) (p + o) := by
      rw [e]; rfl
    refine e'.trans ?_
    rw [partialOut_eq, List.map_take, hf.part o ho, ← List.map_take, List.take_range,
      show min j 7 = j by omega, ← St_septuple m rc x hc (5 + o * 7) (by omega) j (by omega)]
    exact hin
  · intro o ho
    rw [Nat.add_assoc, hfull (4 + o) (by omega), fullIdx, if_neg (by omega)]
    congr 1; omega
  · funext i
    have := h _ _ _ (BlockOp.fin i) (by rintro ⟨-, h | h⟩ <;> omega)
    simpa [transIn, config, show p + 7 - 2 = p + 5 by omega] using this

end

section
variable (a f : ℕ) (m : Base.Mds F 3) (rc : ℕ → Fin 3 → F) (hc : Compact rc)
  (ps : List ((Fin 3 → ACell F) × ℕ))
include hc

/-- The gates say exactly which values the cells of the blocks have. -/
theorem placed_cells (hd : Apart ps) (g : Grid F) (hfit : Fits (placedOps a f m rc ps) g.n)
    (hfix : ∀ c, f ≤ c → c < f + 11 → ∀ r < g.n,
      g.fixed c r = finalFixed (placedOps a f m rc ps) c r) :
    (∀ p ∈ gates m rc (config a f), p.Holds g) ↔
      ∀ q ∈ ps, ∀ c r v, BlockOp a f m rc (fullIn g (config a f) q.2) q.2 (.advice c r v) →
        ¬ Helper a q.2 c r → g.advice c r = v := by
  have hm := marks_of a f m rc hc ps hd g hfit (fun r hr => hfix f le_rfl (by omega) r hr)
  have hf : ∀ q ∈ ps, FixedOK rc g (config a f) q.2 := by
    intro q hq
    have hn := fits_blocks a f m rc hc ps g.n hfit q hq
    refine fixedOK_of (a := a) (m := m) (x := fun k => (q.1 k).value) g fun c r v h => ?_
    rcases h.shape with ⟨_, _, _, e, _⟩ | ⟨_, _, _, e, h1, h2, h3, h4⟩
    · cases e
    · cases e
      rw [hfix c h1 h2 r (by omega)]
      exact final_fixed a f m rc hc ps hd q hq c r v h
  rw [gates_iff a f m rc g _ hm]
  constructor
  · intro h q hq c r v hb hh
    exact (trace_of_block hc (hf q hq) (h q.2 (List.mem_map.mpr ⟨q, hq, rfl⟩))).cell hc (hf q hq) hb hh
  · intro h t ht
    obtain ⟨q, hq, rfl⟩ := List.mem_map.mp ht
    exact block_of_trace hc (hf q hq) (trace_of_cells hc g (hf q hq) (h q hq))

end
end Septidon

namespace Pow5
variable {F : Type} [Field F] {t : ℕ} (S : Params F t) (cols : Cols t) (σ : ℕ)

/-- In a grid with the right fixed cells and selectors, the gates force every state row. -/
theorem block_states (g : Grid F) (hinv : Matrix.of S.mReg * Matrix.of S.mInv = 1) (s : ℕ)
    (hn : s + steps S < g.n)
    (hsel : ∀ o < steps S, g.selector (selAt S σ o) (s + o) = true)
    (hA : ∀ o < steps S, ∀ i, g.fixed (cols.rcA i) (s + o) = S.rc (roundAt S o) i)
    (hB : ∀ o < steps S, kindAt S o = .double → ∀ i,
      g.fixed (cols.rcB i) (s + o) = S.rc (roundAt S o + 1) i)
    (hg : ∀ p ∈ gates (config S cols σ), p.Holds g) :
    (∀ o ≤ steps S, cur g (config S cols σ) (s + o) = xAt S (cur g (config S cols σ) s) o) ∧
    ∀ o < steps S, kindAt S o = .double → g.advice cols.partialSbox (s + o) =
      (xAt S (cur g (config S cols σ) s) o 0 + S.rc (roundAt S o) 0) ^ 5 := by
  rw [gates_iff] at hg
  have key : ∀ o ≤ steps S, cur g (config S cols σ) (s + o) =
      xAt S (cur g (config S cols σ) s) o := by
    intro o
    induction o with
    | zero => intro _; rw [xAt_zero]; rfl
    | succ o ih =>
      intro ho
      have ih := ih (by omega)
      have hrot : g.rot (s + o) 1 = s + (o + 1) :=
        g.rot_of_lt _ (by push_cast; ring) (by omega)
      obtain ⟨h1, h2, h3, -⟩ := hg (s + o) (by omega)
      rw [hrot] at h1 h2 h3
      have hs := hsel o (by omega)
      have hrc : rcAt g (config S cols σ) (s + o) = S.rc (roundAt S o) := by
        funext i; exact hA o (by omega) i
      cases hk : kindAt S o with
      | full =>
        rw [(selAt_full S σ).mpr hk] at hs
        have := h1 hs
        unfold FullRow at this
        rw [this, ih, hrc, xAt_full S _ o (by omega) hk]; rfl
      | double =>
        rw [(selAt_double S σ).mpr hk] at hs
        have := ((doubleRow_iff g (config S cols σ) hinv _ _).mp (h2 hs)).2
        have hrb : rcBt g (config S cols σ) (s + o) = S.rc (roundAt S o + 1) := by
          funext i; exact hB o (by omega) hk i
        rw [this, ih, hrc, hrb, xAt_double S _ o hk]; rfl
      | single =>
        rw [(selAt_single S σ).mpr hk] at hs
        have := h3 hs
        unfold SingleRow at this
        rw [this, ih, hrc, xAt_single S _ o hk]; rfl
  refine ⟨key, fun o ho hk => ?_⟩
  have hs := hsel o ho
  rw [(selAt_double S σ).mpr hk] at hs
  have := ((doubleRow_iff g (config S cols σ) hinv _ _).mp ((hg (s + o) (by omega)).2.1 hs)).1
  have hrc : rcAt g (config S cols σ) (s + o) = S.rc (roundAt S o) := by
    funext i; exact hA o (by omega) i
  rw [key o (by omega), hrc] at this
  exact this

/-- The gates say exactly which values the cells of the regions have. -/
theorem placed_cells (g : Grid F) (hinv : Matrix.of S.mReg * Matrix.of S.mInv = 1)
    (ps : List (Words F (t + 1) × ℕ)) (hn : ∀ q ∈ ps, q.2 + steps S < g.n)
    (hfix : ∀ q ∈ ps, ∀ c r v, BlockOp S cols σ (fun i => (q.1 i).value) q.2 (.fixed c r v) →
      g.fixed c r = v)
    (hsel : ∀ k < 4, ∀ r < g.n, g.selector (σ + k) r = true ↔ ∃ q ∈ ps, ∃ o < steps S,
      r = q.2 + o ∧ selAt S σ o = σ + k) :
    (∀ p ∈ gates (config S cols σ), p.Holds g) ↔
      ∀ q ∈ ps, ∀ c r v, BlockOp S cols σ (cur g (config S cols σ) q.2) q.2 (.advice c r v) →
        g.advice c r = v := by
  have hA : ∀ q ∈ ps, ∀ o < steps S, ∀ i, g.fixed (cols.rcA i) (q.2 + o) = S.rc (roundAt S o) i :=
    fun q hq o ho i => hfix q hq _ _ _ (.rcA o ho i)
  have hB : ∀ q ∈ ps, ∀ o < steps S, kindAt S o = .double → ∀ i,
      g.fixed (cols.rcB i) (q.2 + o) = S.rc (roundAt S o + 1) i :=
    fun q hq o ho hk i => hfix q hq _ _ _ (.rcB o ho hk i)
  constructor
  · intro hg q hq c r v hb
    obtain ⟨h1, h2⟩ := block_states S cols σ g hinv q.2 (hn q hq) (fun o ho => by
      have hl := selAt_lt S σ o
      have := (hsel (selAt S σ o - σ) (by omega) (q.2 + o) (by have := hn q hq; omega)).mpr
        ⟨q, hq, o, ho, rfl, by omega⟩
      rwa [show σ + (selAt S σ o - σ) = selAt S σ o by omega] at this) (hA q hq) (hB q hq) hg
    generalize hop : Op.advice c r v = op at hb
    cases hb with
    | state o ho i => cases hop; exact congrFun (h1 o ho) i
    | sbox o ho hk => cases hop; exact h2 o ho hk
    | _ => cases hop
  · intro h
    have hrow : ∀ k < 4, ∀ r < g.n, g.selector (σ + k) r = true → ∃ q ∈ ps, ∃ o < steps S, r = q.2 + o ∧
        selAt S σ o = σ + k ∧ g.rot r 1 = q.2 + (o + 1) := by
      intro k hk r hr hs
      obtain ⟨q, hq, o, ho, e, e'⟩ := (hsel k hk r hr).mp hs
      refine ⟨q, hq, o, ho, e, e', g.rot_of_lt _ (by rw [e]; push_cast; ring) ?_⟩
      have := hn q hq
      omega
    have hcomp : ∀ q ∈ ps, ∀ o < steps S, _ := fun q hq o ho =>
      row_complete S cols σ g hinv (cur g (config S cols σ) q.2) q.2 (h q hq) (fun c r v hb => by
        refine hfix q hq c r v ?_
        generalize hop : Op.fixed c r v = op at hb
        cases hb with
        | rcA o ho i => cases hop; exact .rcA o ho i
        | rcB o ho hk i => cases hop; exact .rcB o ho hk i
        | _ => cases hop) o ho
    rw [gates_iff]
    intro r hr
    refine ⟨fun hs => ?_, fun hs => ?_, fun hs => ?_, fun hs => ?_⟩
    · obtain ⟨q, hq, o, ho, rfl, hsl, hrot⟩ := hrow 0 (by omega) r hr hs
      rw [hrot]
      exact (hcomp q hq o ho).1 ((selAt_full S σ).mp hsl)
    · obtain ⟨q, hq, o, ho, rfl, hsl, hrot⟩ := hrow 1 (by omega) r hr hs
      rw [hrot]
      exact (hcomp q hq o ho).2.1 ((selAt_double S σ).mp hsl)
    · obtain ⟨q, hq, o, ho, rfl, hsl, hrot⟩ := hrow 2 (by omega) r hr hs
      rw [hrot]
      exact (hcomp q hq o ho).2.2 ((selAt_single S σ).mp hsl)
    · obtain ⟨q, hq, o, ho, rfl, hsl, hrot⟩ := hrow 3 (by omega) r hr hs
      have := (selAt_lt S σ o).2
      omega

end Pow5
end Circuit
