import Verif.Circuit.Septidon
import Verif.Halo2.Lemmas
import Verif.Spec
import Mathlib.Tactic.Ring
import Mathlib.Tactic.LinearCombination
import Mathlib.Tactic.IntervalCases
import Mathlib.Tactic.FinCases
import Mathlib.Data.Matrix.Mul
import Mathlib.Algebra.BigOperators.Fin

/-!
# Septidon chip: soundness and completeness of the gates
-/

set_option linter.unusedVariables false
set_option linter.unusedSectionVars false

open Halo2

namespace Circuit.Septidon

variable {F : Type} [Field F]

/-- The columns handed out by `configure` when `a` advice and `f` fixed columns exist already. -/
def config (a f : ℕ) : Config where
  isLast := f
  transition := a + 12
  full := ![⟨⟨a, 0⟩, f + 1⟩, ⟨⟨a + 1, 0⟩, f + 2⟩, ⟨⟨a + 2, 0⟩, f + 3⟩]
  septuple := ⟨⟨⟨a + 3, 0⟩, f + 4⟩, ![⟨a + 4, 0⟩, ⟨a + 5, 0⟩],
    [⟨⟨a + 6, 0⟩, f + 5⟩, ⟨⟨a + 7, 0⟩, f + 6⟩, ⟨⟨a + 8, 0⟩, f + 7⟩, ⟨⟨a + 9, 0⟩, f + 8⟩,
      ⟨⟨a + 10, 0⟩, f + 9⟩, ⟨⟨a + 11, 0⟩, f + 10⟩]⟩

/-- The expression of the selector of a chip. -/
def qExpr (c : Config) : Expr F := deriveSelector c.isLast

/-- Constraints and output of the septuple round of a chip. -/
def septExprs (m : Base.Mds F 3) (c : Config) : List (Expr F) × (Fin 3 → Expr F) :=
  septupleLoop m c.septuple.first (fun i => (c.septuple.input i).query 0) c.septuple.following

def gateQuery : Gate F := ⟨"query", [Expr.const 0]⟩
def gateSept (m : Base.Mds F 3) (c : Config) : Gate F :=
  ⟨"septuple_round", withSelector (qExpr c) (septExprs m c).1⟩
def gateTransition (m : Base.Mds F 3) (rc4 : F) (c : Config) : Gate F :=
  ⟨"transition round", withSelector (.fixed c.isLast 4) ((List.finRange 3).map fun i =>
    firstPartialRoundExpr m rc4 (fun i => (transitionInput c.transition i).query 0) i -
      (c.septuple.input i).query (-3))⟩
def gateFull (m : Base.Mds F 3) (c : Config) : Gate F :=
  ⟨"loop", withSelector (qExpr c) ((List.finRange 3).map fun i =>
    selectExpr (.fixed c.isLast 4 + .fixed c.isLast 0) ((transitionInput c.transition i).query 0)
      ((c.full i).input.query 1) - fullRoundExpr m c.full i)⟩
def gatePartial (m : Base.Mds F 3) (c : Config) : Gate F :=
  ⟨"loop", withSelector (qExpr c) ((List.finRange 3).map fun i =>
    selectExpr (.fixed c.isLast 0) (((c.full i).input.rotated (-3)).query 0)
      ((c.septuple.input i).query 1) - (septExprs m c).2 i)⟩

def gates (m : Base.Mds F 3) (rc : ℕ → Fin 3 → F) (c : Config) : List (Gate F) :=
  [gateQuery, gateQuery, gateQuery, gateSept m c, gateTransition m (rc 4 0) c, gateFull m c,
    gatePartial m c]

theorem configure_eq (m : Base.Mds F 3) (rc : ℕ → Fin 3 → F) (cs : CS F) :
    configure m rc cs = (config cs.numAdvice cs.numFixed,
      {cs with
        numAdvice := cs.numAdvice + 13
        numFixed := cs.numFixed + 11
        gates := cs.gates ++ gates m rc (config cs.numAdvice cs.numFixed)
        equality := cs.equality ++ [.advice cs.numAdvice, .advice (cs.numAdvice + 1),
          .advice (cs.numAdvice + 2), .advice (cs.numAdvice + 12), .advice (cs.numAdvice + 12),
          .advice (cs.numAdvice + 12)]}) := by
  have h : configure m rc cs = ((configure m rc cs).1, (configure m rc cs).2) := rfl
  rw [h]
  refine Prod.ext rfl ?_
  change CS.mk _ _ _ _ _ _ = CS.mk _ _ _ _ _ _
  congr 1
  · change ((((((cs.gates ++ _) ++ _) ++ _) ++ _) ++ _) ++ _) ++ _ = _
    simp only [List.append_assoc]
    rfl
  · change (((((cs.equality ++ _) ++ _) ++ _) ++ _) ++ _) ++ _ = _
    simp only [List.append_assoc]
    rfl


/-! ## Evaluation of the expressions -/

@[simp] theorem pow5Expr_eval (g : Grid F) (r : ℕ) (v : Expr F) :
    (pow5Expr v).eval g r = (v.eval g r) ^ 5 := by
  simp only [pow5Expr, Expr.eval_mul]; ring

@[simp] theorem pow5Value_eq (v : F) : pow5Value v = v ^ 5 := by
  simp only [pow5Value]; ring

theorem matmulExpr_eval (m : Base.Mds F 3) (g : Grid F) (r : ℕ) (v : Fin 3 → Expr F) (i : Fin 3) :
    (matmulExpr m v i).eval g r = (Matrix.of m).mulVec (fun j => (v j).eval g r) i := by
  simp only [matmulExpr, Expr.eval_add, Expr.eval_scaled, Matrix.mulVec, dotProduct,
    Fin.sum_univ_three, Matrix.of_apply]
  ring

theorem matmulValue_eq (m : Base.Mds F 3) (v : Fin 3 → F) :
    matmulValue m v = (Matrix.of m).mulVec v := by
  funext i
  simp only [matmulValue, Matrix.mulVec, dotProduct, Fin.sum_univ_three, Matrix.of_apply]
  ring

/-- One full round on values. -/
def fr (m : Base.Mds F 3) (k x : Fin 3 → F) : Fin 3 → F :=
  Spec.fullRound (fun v => v ^ 5) (Matrix.of m) k x

/-- One partial round whose constant is zero on words 1 and 2. -/
def pr (m : Base.Mds F 3) (k : F) (x : Fin 3 → F) : Fin 3 → F :=
  Spec.partialRound (fun v => v ^ 5) (Matrix.of m) ![k, 0, 0] x

theorem pr_eq (m : Base.Mds F 3) (k : F) (x : Fin 3 → F) :
    pr m k x = (Matrix.of m).mulVec ![(x 0 + k) ^ 5, x 1, x 2] := by
  unfold pr Spec.partialRound
  congr 1
  funext i
  fin_cases i <;> simp

/-- Value of the input cell of an S-box at a row. -/
def sIn (g : Grid F) (s : SBox) (r : ℕ) : F := g.advice s.input.column r
/-- Value of the round constant of an S-box at a row. -/
def sRC (g : Grid F) (s : SBox) (r : ℕ) : F := g.fixed s.roundConstant r

theorem sbox_eval (g : Grid F) (s : SBox) (r : ℕ) (h0 : s.input.offset = 0) (hr : r < g.n) :
    s.outputExpr.eval g r = (sIn g s r + sRC g s r) ^ 5 := by
  simp [SBox.outputExpr, SBox.inputExpr, SBox.rcExpr, sboxExpr, RelCell.query, h0, g.rot_zero hr,
    sIn, sRC]

theorem sbox_input_eval (g : Grid F) (s : SBox) (r : ℕ) (h0 : s.input.offset = 0) (hr : r < g.n) :
    s.inputExpr.eval g r = sIn g s r := by
  simp [SBox.inputExpr, RelCell.query, h0, g.rot_zero hr, sIn]

/-- The S-box cells of one row hold, in turn, word 0 of the state before each partial round. -/
def PartialCells (m : Base.Mds F 3) (g : Grid F) (r : ℕ) : List SBox → (Fin 3 → F) → Prop
  | [], _ => True
  | s :: rest, x => sIn g s r = x 0 ∧ PartialCells m g r rest (pr m (sRC g s r) x)

/-- The state after the partial rounds of one row. -/
def partialOut (m : Base.Mds F 3) (g : Grid F) (r : ℕ) (l : List SBox) (x : Fin 3 → F) : Fin 3 → F :=
  l.foldl (fun x s => pr m (sRC g s r) x) x

theorem partialRoundExpr_eval (m : Base.Mds F 3) (g : Grid F) (r : ℕ) (hr : r < g.n) (ck : SBox)
    (st : Fin 3 → Expr F) (h0 : ck.input.offset = 0) (hin : sIn g ck r = (st 0).eval g r) :
    (fun i => (partialRoundExpr m ck st i).eval g r) =
      pr m (sRC g ck r) fun i => (st i).eval g r := by
  funext i
  rw [partialRoundExpr, matmulExpr_eval, pr_eq]
  congr 1
  funext j
  fin_cases j
  · simp [sbox_eval g ck r h0 hr, hin]
  · simp
  · simp

theorem septupleLoop_eval (m : Base.Mds F 3) (g : Grid F) (r : ℕ) (hr : r < g.n) (rest : List SBox) :
    ∀ (ck : SBox) (st : Fin 3 → Expr F), ck.input.offset = 0 → (∀ s ∈ rest, s.input.offset = 0) →
      sIn g ck r = (st 0).eval g r →
      ((∀ e ∈ (septupleLoop m ck st rest).1, e.eval g r = 0) ↔
        PartialCells m g r (ck :: rest) fun i => (st i).eval g r) ∧
      (PartialCells m g r (ck :: rest) (fun i => (st i).eval g r) →
        (fun i => ((septupleLoop m ck st rest).2 i).eval g r) =
          partialOut m g r (ck :: rest) fun i => (st i).eval g r) := by
  induction rest with
  | nil =>
    intro ck st h0 _ hin
    refine ⟨?_, ?_⟩
    · simp [septupleLoop, PartialCells, hin]
    · intro _
      simp only [septupleLoop, partialOut, List.foldl_cons, List.foldl_nil]
      exact partialRoundExpr_eval m g r hr ck st h0 hin
  | cons s rest ih =>
    intro ck st h0 hr0 hin
    have hpr := partialRoundExpr_eval m g r hr ck st h0 hin
    have hpr0 : (partialRoundExpr m ck st 0).eval g r =
      pr m (sRC g ck r) (fun i => (st i).eval g r) 0 := congrFun hpr 0
    have hs0 : s.input.offset = 0 := hr0 s (by simp)
    refine ⟨?_, ?_⟩
    · simp only [septupleLoop, List.mem_cons, forall_eq_or_imp, Expr.eval_sub]
      rw [sbox_input_eval g s r hs0 hr, hpr0]
      constructor
      · rintro ⟨h1, h2⟩
        have hin' : sIn g s r = (partialRoundExpr m ck st 0).eval g r := by
          rw [hpr0]; exact (sub_eq_zero.mp h1).symm
        have := ((ih s (partialRoundExpr m ck st) hs0 (fun s hs => hr0 s (by simp [hs])) hin').1.mp h2)
        rw [hpr] at this
        exact ⟨hin, this⟩
      · rintro ⟨_, h2⟩
        have hin'' := h2.1
        have hin' : sIn g s r = (partialRoundExpr m ck st 0).eval g r := by
          rw [hpr0]; exact hin''
        refine ⟨sub_eq_zero.mpr hin''.symm, ?_⟩
        refine (ih s (partialRoundExpr m ck st) hs0 (fun s hs => hr0 s (by simp [hs])) hin').1.mpr ?_
        rw [hpr]
        exact h2
    · rintro ⟨_, h2⟩
      have hin' : sIn g s r = (partialRoundExpr m ck st 0).eval g r := by
        rw [hpr0]; exact h2.1
      have := (ih s (partialRoundExpr m ck st) hs0 (fun s hs => hr0 s (by simp [hs])) hin').2
        (by rw [hpr]; exact h2)
      rw [hpr] at this
      exact this

/-! ## Control signals -/

/-- The marker column is 1 exactly on the last rows of the 8-row blocks starting at `starts`; the
blocks are disjoint and lie within the domain. -/
structure Marks (g : Grid F) (col : ℕ) (starts : List ℕ) : Prop where
  fits : ∀ s ∈ starts, s + 8 ≤ g.n
  disj : ∀ s ∈ starts, ∀ t ∈ starts, s = t ∨ s + 8 ≤ t ∨ t + 8 ≤ s
  one : ∀ s ∈ starts, g.fixed col (s + 7) = 1
  zero : ∀ r < g.n, (∀ s ∈ starts, r ≠ s + 7) → g.fixed col r = 0

namespace Marks
variable {g : Grid F} {col : ℕ} {starts : List ℕ} (hm : Marks g col starts)
include hm

theorem at_one {r i s : ℕ} (hs : s ∈ starts) (h : r + i = s + 7) :
    g.fixed col (g.rot r (i : ℤ)) = 1 := by
  have := hm.fits s hs
  rw [g.rot_of_lt (s + 7) (by omega) (by omega)]
  exact hm.one s hs

theorem at_zero {r i : ℕ} (hr : r < g.n) (hi : i < 8) (h : ∀ s ∈ starts, r + i ≠ s + 7) :
    g.fixed col (g.rot r (i : ℤ)) = 0 := by
  by_cases hlt : r + i < g.n
  · rw [g.rot_of_lt (r + i) (by omega) hlt]
    exact hm.zero _ hlt h
  · by_cases h8 : 8 ≤ g.n
    · rw [g.rot_wrap (r + i - g.n) (by omega) (by omega)]
      exact hm.zero _ (by omega) fun s hs => by omega
    · have : starts = [] := by
        cases hst : starts with
        | nil => rfl
        | cons s _ => have := hm.fits s (by simp [hst]); omega
      subst this
      exact hm.zero _ (g.rot_lt _ _ (by omega)) (by simp)

theorem q_eval (r : ℕ) : (deriveSelector col : Expr F).eval g r =
    g.fixed col (g.rot r ((0 : ℕ) : ℤ)) + g.fixed col (g.rot r ((1 : ℕ) : ℤ)) +
    g.fixed col (g.rot r ((2 : ℕ) : ℤ)) + g.fixed col (g.rot r ((3 : ℕ) : ℤ)) +
    g.fixed col (g.rot r ((4 : ℕ) : ℤ)) + g.fixed col (g.rot r ((5 : ℕ) : ℤ)) +
    g.fixed col (g.rot r ((6 : ℕ) : ℤ)) + g.fixed col (g.rot r ((7 : ℕ) : ℤ)) := rfl

theorem at_in {s j i : ℕ} (hs : s ∈ starts) (hj : j < 8) (hi : i < 8) :
    g.fixed col (g.rot (s + j) (i : ℤ)) = if j + i = 7 then 1 else 0 := by
  have hf := hm.fits s hs
  split_ifs with h
  · exact hm.at_one hs (by omega)
  · refine hm.at_zero (by omega) hi fun t ht => ?_
    rcases hm.disj s hs t ht with rfl | h' | h' <;> omega

theorem q_in {s j : ℕ} (hs : s ∈ starts) (hj : j < 8) :
    (deriveSelector col : Expr F).eval g (s + j) = 1 := by
  rw [hm.q_eval]
  simp only [hm.at_in hs hj (by norm_num : (0:ℕ) < 8), hm.at_in hs hj (by norm_num : (1:ℕ) < 8),
    hm.at_in hs hj (by norm_num : (2:ℕ) < 8), hm.at_in hs hj (by norm_num : (3:ℕ) < 8),
    hm.at_in hs hj (by norm_num : (4:ℕ) < 8), hm.at_in hs hj (by norm_num : (5:ℕ) < 8),
    hm.at_in hs hj (by norm_num : (6:ℕ) < 8), hm.at_in hs hj (by norm_num : (7:ℕ) < 8)]
  interval_cases j <;> simp

theorem q_out {r : ℕ} (hr : r < g.n) (h : ∀ s ∈ starts, ¬ (s ≤ r ∧ r < s + 8)) :
    (deriveSelector col : Expr F).eval g r = 0 := by
  have hz : ∀ i : ℕ, i < 8 → g.fixed col (g.rot r (i : ℤ)) = 0 := by
    intro i hi
    refine hm.at_zero hr hi fun s hs e => h s hs ?_
    omega
  rw [hm.q_eval, hz 0 (by norm_num), hz 1 (by norm_num), hz 2 (by norm_num), hz 3 (by norm_num),
    hz 4 (by norm_num), hz 5 (by norm_num), hz 6 (by norm_num), hz 7 (by norm_num)]
  simp

end Marks

/-! ## What the gates say about one block -/

def fullIn (g : Grid F) (c : Config) (r : ℕ) : Fin 3 → F := fun i => sIn g (c.full i) r
def fullRC (g : Grid F) (c : Config) (r : ℕ) : Fin 3 → F := fun i => sRC g (c.full i) r
def septIn (g : Grid F) (c : Config) (r : ℕ) : Fin 3 → F :=
  fun i => g.advice (c.septuple.input i).column r
/-- The three vertical cells of the transition column ending at row `r`. -/
def transIn (g : Grid F) (c : Config) (r : ℕ) : Fin 3 → F := fun i => g.advice c.transition (r - 2 + i)
def sboxes (c : Config) : List SBox := c.septuple.first :: c.septuple.following

/-- Equations between the cells of the block starting at row `s`. -/
structure BlockOK (m : Base.Mds F 3) (rc4 : F) (g : Grid F) (c : Config) (s : ℕ) : Prop where
  full_step : ∀ j < 8, j ≠ 3 → j ≠ 7 →
    fullIn g c (s + j + 1) = fr m (fullRC g c (s + j)) (fullIn g c (s + j))
  full_break : ∀ j, j = 3 ∨ j = 7 →
    transIn g c (s + j) = fr m (fullRC g c (s + j)) (fullIn g c (s + j))
  transition : septIn g c s = pr m rc4 (transIn g c (s + 3))
  cells : ∀ j < 8, PartialCells m g (s + j) (sboxes c) (septIn g c (s + j))
  part_step : ∀ j < 7,
    septIn g c (s + j + 1) = partialOut m g (s + j) (sboxes c) (septIn g c (s + j))
  part_break : fullIn g c (s + 4) = partialOut m g (s + 7) (sboxes c) (septIn g c (s + 7))

theorem withSelector_zero (g : Grid F) (r : ℕ) (q : Expr F) (l : List (Expr F))
    (h : q.eval g r = 0) : ∀ e ∈ withSelector q l, e.eval g r = 0 := by
  intro e he
  obtain ⟨e', _, rfl⟩ := List.mem_map.mp he
  simp [h]

theorem withSelector_one (g : Grid F) (r : ℕ) (q : Expr F) (l : List (Expr F))
    (h : q.eval g r = 1) : (∀ e ∈ withSelector q l, e.eval g r = 0) ↔ ∀ e ∈ l, e.eval g r = 0 := by
  unfold withSelector
  simp [List.mem_map, h]

section
variable (a f : ℕ)

theorem full_offset (i : Fin 3) : ((config a f).full i).input.offset = 0 := by
  fin_cases i <;> rfl

theorem sept_offset (i : Fin 3) : ((config a f).septuple.input i).offset = 0 := by
  fin_cases i <;> rfl

theorem following_offset : ∀ s ∈ (config a f).septuple.following, s.input.offset = 0 := by
  simp [config]

theorem septIn_eval (g : Grid F) (r : ℕ) (hr : r < g.n) :
    (fun i => (((config a f).septuple.input i).query 0 : Expr F).eval g r) =
      septIn g (config a f) r := by
  funext i
  simp [RelCell.query, sept_offset, g.rot_zero hr, septIn]

theorem fullRoundExpr_eval (m : Base.Mds F 3) (g : Grid F) (r : ℕ) (hr : r < g.n) (i : Fin 3) :
    (fullRoundExpr m (config a f).full i).eval g r =
      fr m (fullRC g (config a f) r) (fullIn g (config a f) r) i := by
  rw [fullRoundExpr, matmulExpr_eval]
  simp only [fr, Spec.fullRound, fullIn, fullRC, sbox_eval g _ r (full_offset a f _) hr]

theorem septExprs_eval (m : Base.Mds F 3) (g : Grid F) (r : ℕ) (hr : r < g.n) :
    ((∀ e ∈ (septExprs m (config a f)).1, e.eval g r = 0) ↔
      PartialCells m g r (sboxes (config a f)) (septIn g (config a f) r)) ∧
    (PartialCells m g r (sboxes (config a f)) (septIn g (config a f) r) →
      (fun i => ((septExprs m (config a f)).2 i).eval g r) =
        partialOut m g r (sboxes (config a f)) (septIn g (config a f) r)) := by
  have := septupleLoop_eval m g r hr (config a f).septuple.following (config a f).septuple.first
    (fun i => ((config a f).septuple.input i).query 0) rfl (following_offset a f) (by
      have := congrFun (septIn_eval a f g r hr) 0
      rw [this]; rfl)
  rw [septIn_eval a f g r hr] at this
  exact this

theorem transIn_eval (g : Grid F) (r : ℕ) (hr : r < g.n) (h2 : 2 ≤ r) (i : Fin 3) :
    ((transitionInput (config a f).transition i).query 0 : Expr F).eval g r =
      transIn g (config a f) r i := by
  fin_cases i
  · simp only [transitionInput, RelCell.query, Expr.eval_advice]
    rw [g.rot_of_lt (r - 2) (by simp; omega) (by omega)]
    simp [transIn]
  · simp only [transitionInput, RelCell.query, Expr.eval_advice]
    rw [g.rot_of_lt (r - 1) (by simp; omega) (by omega)]
    simp only [transIn]
    congr 1; simp; omega
  · simp only [transitionInput, RelCell.query, Expr.eval_advice]
    rw [g.rot_of_lt r (by simp) (by omega)]
    simp only [transIn]
    congr 1; exact (Nat.sub_add_cancel h2).symm

variable (m : Base.Mds F 3) (rc : ℕ → Fin 3 → F) (g : Grid F) (starts : List ℕ)

theorem gateQuery_holds : (gateQuery : Gate F).Holds g := by
  intro e he r _
  simp only [gateQuery, List.mem_singleton] at he
  subst he; rfl

variable (hm : Marks g f starts)
include hm

theorem split_rows (P : ℕ → Prop) (hin : ∀ s ∈ starts, ∀ j < 8, P (s + j))
    (hout : ∀ r < g.n, (∀ s ∈ starts, ¬ (s ≤ r ∧ r < s + 8)) → P r) : ∀ r < g.n, P r := by
  intro r hr
  by_cases h : ∃ s ∈ starts, s ≤ r ∧ r < s + 8
  · obtain ⟨s, hs, h1, h2⟩ := h
    have := hin s hs (r - s) (by omega)
    rwa [show s + (r - s) = r by omega] at this
  · push Not at h
    exact hout r hr fun s hs hh => by have := h s hs hh.1; omega

/-- A gate multiplied by the chip selector holds iff its polynomials vanish inside the blocks. -/
theorem holds_q_iff (name : String) (l : List (Expr F)) :
    (Gate.mk name (withSelector (deriveSelector f) l)).Holds g ↔
      ∀ s ∈ starts, ∀ j < 8, ∀ e ∈ l, e.eval g (s + j) = 0 := by
  constructor
  · intro h s hs j hj
    have hf := hm.fits s hs
    exact (withSelector_one g (s + j) _ l (hm.q_in hs hj)).mp fun e he => h e he (s + j) (by omega)
  · intro h e he
    refine split_rows f g starts hm (fun r => e.eval g r = 0) ?_ ?_
    · intro s hs j hj
      exact (withSelector_one g (s + j) _ l (hm.q_in hs hj)).mpr (h s hs j hj) e he
    · intro r hr hout
      exact withSelector_zero g r _ l (hm.q_out hr hout) e he

theorem sig_middle {s j : ℕ} (hs : s ∈ starts) (hj : j < 8) :
    g.fixed f (g.rot (s + j) 4) = if j = 3 then 1 else 0 := by
  have := hm.at_in hs hj (by norm_num : (4 : ℕ) < 8)
  rw [show ((4 : ℕ) : ℤ) = 4 from rfl] at this
  rw [this]
  congr 1
  simp

theorem sig_last {s j : ℕ} (hs : s ∈ starts) (hj : j < 8) :
    g.fixed f (g.rot (s + j) 0) = if j = 7 then 1 else 0 := by
  have := hm.at_in hs hj (by norm_num : (0 : ℕ) < 8)
  rw [show ((0 : ℕ) : ℤ) = 0 from rfl] at this
  rw [this]
  congr 1

theorem gateSept_iff : (gateSept m (config a f)).Holds g ↔
    ∀ s ∈ starts, ∀ j < 8,
      PartialCells m g (s + j) (sboxes (config a f)) (septIn g (config a f) (s + j)) := by
  refine (holds_q_iff f g starts hm _ _).trans ?_
  refine forall₂_congr fun s hs => forall₂_congr fun j hj => ?_
  have := hm.fits s hs
  exact (septExprs_eval a f m g (s + j) (by omega)).1

theorem gateTransition_iff (rc4 : F) : (gateTransition m rc4 (config a f)).Holds g ↔
    ∀ s ∈ starts, septIn g (config a f) s = pr m rc4 (transIn g (config a f) (s + 3)) := by
  have key : ∀ s ∈ starts, ((∀ e ∈ ((List.finRange 3).map fun i =>
      firstPartialRoundExpr m rc4 (fun i => (transitionInput (config a f).transition i).query 0) i -
      ((config a f).septuple.input i).query (-3)), e.eval g (s + 3) = 0) ↔
      septIn g (config a f) s = pr m rc4 (transIn g (config a f) (s + 3))) := by
    intro s hs
    have hf := hm.fits s hs
    have he : ∀ i, (firstPartialRoundExpr m rc4
        (fun i => (transitionInput (config a f).transition i).query 0) i -
        ((config a f).septuple.input i).query (-3)).eval g (s + 3) =
        pr m rc4 (transIn g (config a f) (s + 3)) i - septIn g (config a f) s i := by
      intro i
      rw [Expr.eval_sub, firstPartialRoundExpr, matmulExpr_eval, pr_eq]
      congr 1
      · congr 1
        funext j
        fin_cases j
        · simp [sboxExpr, transIn_eval a f g (s + 3) (by omega) (by omega)]
        · simp [transIn_eval a f g (s + 3) (by omega) (by omega)]
        · simp [transIn_eval a f g (s + 3) (by omega) (by omega)]
      · simp only [RelCell.query, sept_offset, Expr.eval_advice]
        rw [g.rot_of_lt s (by simp) (by omega)]
        rfl
    constructor
    · intro h
      funext i
      have := h _ (List.mem_map.mpr ⟨i, List.mem_finRange i, rfl⟩)
      rw [he] at this
      exact (sub_eq_zero.mp this).symm
    · intro h e hme
      obtain ⟨i, _, rfl⟩ := List.mem_map.mp hme
      rw [he, h, sub_self]
  constructor
  · intro h s hs
    have hf := hm.fits s hs
    refine (key s hs).mp ((withSelector_one g (s + 3) (.fixed f 4) _ ?_).mp fun e he =>
      h e he (s + 3) (by omega))
    rw [Expr.eval_fixed, sig_middle f g starts hm hs (by norm_num)]; rfl
  · intro h e he
    refine split_rows f g starts hm (fun r => e.eval g r = 0) ?_ ?_
    · intro s hs j hj
      by_cases hj3 : j = 3
      · subst hj3
        refine (withSelector_one g (s + 3) (.fixed f 4) _ ?_).mpr ((key s hs).mpr (h s hs)) e he
        rw [Expr.eval_fixed, sig_middle f g starts hm hs (by norm_num)]; rfl
      · refine withSelector_zero g (s + j) (.fixed f 4) _ ?_ e he
        rw [Expr.eval_fixed, sig_middle f g starts hm hs hj, if_neg hj3]
    · intro r hr hout
      refine withSelector_zero g r (.fixed f 4) _ ?_ e he
      have := hm.at_zero hr (by norm_num : (4:ℕ) < 8) (fun s hs e => hout s hs (by omega))
      exact this

theorem gateFull_iff : (gateFull m (config a f)).Holds g ↔
    ∀ s ∈ starts, (∀ j < 8, j ≠ 3 → j ≠ 7 →
      fullIn g (config a f) (s + j + 1) =
        fr m (fullRC g (config a f) (s + j)) (fullIn g (config a f) (s + j))) ∧
      (∀ j, j = 3 ∨ j = 7 → transIn g (config a f) (s + j) =
        fr m (fullRC g (config a f) (s + j)) (fullIn g (config a f) (s + j))) := by
  refine (holds_q_iff f g starts hm _ _).trans ?_
  refine forall₂_congr fun s hs => ?_
  have hf := hm.fits s hs
  have hsel : ∀ j < 8, ((Expr.fixed (config a f).isLast 4 + Expr.fixed (config a f).isLast 0 :
      Expr F).eval g (s + j)) = if j = 3 ∨ j = 7 then 1 else 0 := by
    intro j hj
    rw [Expr.eval_add, Expr.eval_fixed, Expr.eval_fixed]
    rw [show (config a f).isLast = f from rfl, sig_middle f g starts hm hs hj,
      sig_last f g starts hm hs hj]
    by_cases h3 : j = 3
    · subst h3; simp
    · by_cases h7 : j = 7 <;> simp [h3, h7]
  have key : ∀ j < 8, ((∀ e ∈ ((List.finRange 3).map fun i =>
      selectExpr (.fixed (config a f).isLast 4 + .fixed (config a f).isLast 0)
        ((transitionInput (config a f).transition i).query 0)
        (((config a f).full i).input.query 1) - fullRoundExpr m (config a f).full i),
        e.eval g (s + j) = 0) ↔
      ((j ≠ 3 → j ≠ 7 → fullIn g (config a f) (s + j + 1) =
        fr m (fullRC g (config a f) (s + j)) (fullIn g (config a f) (s + j))) ∧
      (j = 3 ∨ j = 7 → transIn g (config a f) (s + j) =
        fr m (fullRC g (config a f) (s + j)) (fullIn g (config a f) (s + j))))) := by
    intro j hj
    by_cases hb : j = 3 ∨ j = 7
    · have he : ∀ i, (selectExpr (Expr.fixed (config a f).isLast 4 + Expr.fixed (config a f).isLast 0)
          ((transitionInput (config a f).transition i).query 0)
          (((config a f).full i).input.query 1) - fullRoundExpr m (config a f).full i).eval g (s + j)
          = transIn g (config a f) (s + j) i -
            fr m (fullRC g (config a f) (s + j)) (fullIn g (config a f) (s + j)) i := by
        intro i
        simp only [selectExpr, Expr.eval_sub, Expr.eval_add, Expr.eval_mul, Expr.eval_const]
        rw [← Expr.eval_add, hsel j hj, if_pos hb,
          transIn_eval a f g (s + j) (by omega) (by omega),
          fullRoundExpr_eval a f m g (s + j) (by omega)]
        ring
      constructor
      · intro h
        refine ⟨fun h3 h7 => absurd hb (by omega), fun _ => ?_⟩
        funext i
        have := h _ (List.mem_map.mpr ⟨i, List.mem_finRange i, rfl⟩)
        rw [he] at this
        exact sub_eq_zero.mp this
      · rintro ⟨_, h⟩ e hme
        obtain ⟨i, _, rfl⟩ := List.mem_map.mp hme
        rw [he, h hb, sub_self]
    · have he : ∀ i, (selectExpr (Expr.fixed (config a f).isLast 4 + Expr.fixed (config a f).isLast 0)
          ((transitionInput (config a f).transition i).query 0)
          (((config a f).full i).input.query 1) - fullRoundExpr m (config a f).full i).eval g (s + j)
          = fullIn g (config a f) (s + j + 1) i -
            fr m (fullRC g (config a f) (s + j)) (fullIn g (config a f) (s + j)) i := by
        intro i
        simp only [selectExpr, Expr.eval_sub, Expr.eval_add, Expr.eval_mul, Expr.eval_const]
        rw [← Expr.eval_add, hsel j hj, if_neg hb,
          fullRoundExpr_eval a f m g (s + j) (by omega)]
        have h1 : ((((config a f).full i).input.query 1 : Expr F).eval g (s + j)) =
            fullIn g (config a f) (s + j + 1) i := by
          simp only [RelCell.query, full_offset, Expr.eval_advice]
          rw [g.rot_of_lt (s + j + 1) (by push_cast; ring) (by omega)]
          rfl
        rw [h1]
        ring
      constructor
      · intro h
        refine ⟨fun h3 h7 => ?_, fun hb' => absurd hb' hb⟩
        funext i
        have := h _ (List.mem_map.mpr ⟨i, List.mem_finRange i, rfl⟩)
        rw [he] at this
        exact sub_eq_zero.mp this
      · rintro ⟨h, _⟩ e hme
        obtain ⟨i, _, rfl⟩ := List.mem_map.mp hme
        rw [he, h (by tauto) (by tauto), sub_self]
  constructor
  · intro h
    exact ⟨fun j hj => ((key j hj).mp (h j hj)).1,
      fun j hb => ((key j (by omega)).mp (h j (by omega))).2 hb⟩
  · intro h j hj
    exact (key j hj).mpr ⟨h.1 j hj, h.2 j⟩

theorem gatePartial_iff
    (hcells : ∀ s ∈ starts, ∀ j < 8,
      PartialCells m g (s + j) (sboxes (config a f)) (septIn g (config a f) (s + j))) :
    (gatePartial m (config a f)).Holds g ↔
    ∀ s ∈ starts, (∀ j < 7, septIn g (config a f) (s + j + 1) =
        partialOut m g (s + j) (sboxes (config a f)) (septIn g (config a f) (s + j))) ∧
      fullIn g (config a f) (s + 4) =
        partialOut m g (s + 7) (sboxes (config a f)) (septIn g (config a f) (s + 7)) := by
  refine (holds_q_iff f g starts hm _ _).trans ?_
  refine forall₂_congr fun s hs => ?_
  have hf := hm.fits s hs
  have key : ∀ j < 8, ((∀ e ∈ ((List.finRange 3).map fun i =>
      selectExpr (.fixed (config a f).isLast 0) ((((config a f).full i).input.rotated (-3)).query 0)
        (((config a f).septuple.input i).query 1) - (septExprs m (config a f)).2 i),
        e.eval g (s + j) = 0) ↔
      ((j ≠ 7 → septIn g (config a f) (s + j + 1) =
        partialOut m g (s + j) (sboxes (config a f)) (septIn g (config a f) (s + j))) ∧
      (j = 7 → fullIn g (config a f) (s + 4) =
        partialOut m g (s + j) (sboxes (config a f)) (septIn g (config a f) (s + j))))) := by
    intro j hj
    have hout := fun i => congrFun ((septExprs_eval a f m g (s + j) (by omega)).2 (hcells s hs j hj)) i
    have hs0 : (Expr.fixed (config a f).isLast 0 : Expr F).eval g (s + j) =
        if j = 7 then 1 else 0 := sig_last f g starts hm hs hj
    by_cases h7 : j = 7
    · subst h7
      have he : ∀ i, (selectExpr (.fixed (config a f).isLast 0)
          ((((config a f).full i).input.rotated (-3)).query 0)
          (((config a f).septuple.input i).query 1) - (septExprs m (config a f)).2 i).eval g (s + 7)
          = fullIn g (config a f) (s + 4) i -
            partialOut m g (s + 7) (sboxes (config a f)) (septIn g (config a f) (s + 7)) i := by
        intro i
        rw [Expr.eval_sub, selectExpr, Expr.eval_add, Expr.eval_mul, Expr.eval_mul, Expr.eval_sub,
          Expr.eval_const, hs0, if_pos rfl, hout i]
        simp only [RelCell.query, RelCell.rotated, full_offset, Expr.eval_advice]
        rw [g.rot_of_lt (s + 4) (by push_cast; ring) (by omega)]
        simp only [fullIn, sIn]
        ring
      constructor
      · intro h
        refine ⟨fun h => absurd rfl h, fun _ => ?_⟩
        funext i
        have := h _ (List.mem_map.mpr ⟨i, List.mem_finRange i, rfl⟩)
        rw [he] at this
        exact sub_eq_zero.mp this
      · rintro ⟨_, h⟩ e hme
        obtain ⟨i, _, rfl⟩ := List.mem_map.mp hme
        rw [he, h rfl, sub_self]
    · have he : ∀ i, (selectExpr (.fixed (config a f).isLast 0)
          ((((config a f).full i).input.rotated (-3)).query 0)
          (((config a f).septuple.input i).query 1) - (septExprs m (config a f)).2 i).eval g (s + j)
          = septIn g (config a f) (s + j + 1) i -
            partialOut m g (s + j) (sboxes (config a f)) (septIn g (config a f) (s + j)) i := by
        intro i
        rw [Expr.eval_sub, selectExpr, Expr.eval_add, Expr.eval_mul, Expr.eval_mul, Expr.eval_sub,
          Expr.eval_const, hs0, if_neg h7, hout i]
        have h1 : ((((config a f).septuple.input i).query 1 : Expr F).eval g (s + j)) =
            septIn g (config a f) (s + j + 1) i := by
          simp only [RelCell.query, sept_offset, Expr.eval_advice]
          rw [g.rot_of_lt (s + j + 1) (by push_cast; ring) (by omega)]
          rfl
        rw [h1]
        ring
      constructor
      · intro h
        refine ⟨fun _ => ?_, fun h => absurd h h7⟩
        funext i
        have := h _ (List.mem_map.mpr ⟨i, List.mem_finRange i, rfl⟩)
        rw [he] at this
        exact sub_eq_zero.mp this
      · rintro ⟨h, _⟩ e hme
        obtain ⟨i, _, rfl⟩ := List.mem_map.mp hme
        rw [he, h h7, sub_self]
  constructor
  · intro h
    exact ⟨fun j hj => ((key j (by omega)).mp (h j (by omega))).1 (by omega),
      ((key 7 (by omega)).mp (h 7 (by omega))).2 rfl⟩
  · rintro ⟨h1, h2⟩ j hj
    exact (key j hj).mpr ⟨fun h7 => h1 j (by omega), fun h7 => by subst h7; exact h2⟩

/-- The gates of the chip hold on all rows of the grid iff every block satisfies the round equations.
-/
theorem gates_iff : (∀ p ∈ gates m rc (config a f), p.Holds g) ↔
    ∀ s ∈ starts, BlockOK m (rc 4 0) g (config a f) s := by
  simp only [gates, List.mem_cons, List.not_mem_nil, or_false, forall_eq_or_imp, forall_eq]
  constructor
  · rintro ⟨_, _, _, h1, h2, h3, h4⟩ s hs
    have hc := (gateSept_iff a f m g starts hm).mp h1
    have h2 := (gateTransition_iff a f m g starts hm _).mp h2 s hs
    have h3 := (gateFull_iff a f m g starts hm).mp h3 s hs
    have h4 := (gatePartial_iff a f m g starts hm hc).mp h4 s hs
    exact ⟨h3.1, h3.2, h2, hc s hs, h4.1, h4.2⟩
  · intro h
    have hc : ∀ s ∈ starts, ∀ j < 8,
      PartialCells m g (s + j) (sboxes (config a f)) (septIn g (config a f) (s + j)) :=
      fun s hs => (h s hs).cells
    refine ⟨gateQuery_holds g, gateQuery_holds g, gateQuery_holds g,
      (gateSept_iff a f m g starts hm).mpr hc,
      (gateTransition_iff a f m g starts hm _).mpr fun s hs => (h s hs).transition,
      (gateFull_iff a f m g starts hm).mpr fun s hs => ⟨(h s hs).full_step, (h s hs).full_break⟩,
      (gatePartial_iff a f m g starts hm hc).mpr fun s hs => ⟨(h s hs).part_step, (h s hs).part_break⟩⟩

end

end Circuit.Septidon
