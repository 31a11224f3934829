import Verif.Circuit.Pow5
import Verif.Halo2.Layout
import Verif.Spec
import Mathlib.Algebra.BigOperators.Fin
import Mathlib.LinearAlgebra.Matrix.NonsingularInverse
import Mathlib.Tactic.LinearCombination
import Mathlib.Tactic.Ring

/-!
# Pow5 chip: gates, schedule and trace
-/

set_option linter.unusedVariables false
set_option linter.unusedSectionVars false
set_option linter.unusedSimpArgs false

open Halo2

namespace Circuit

theorem mem_forFin {F α : Type} {n : ℕ} (f : Fin n → W F α) (o : Op F) :
    o ∈ (forFin n f).ops ↔ ∃ i, o ∈ (f i).ops := by
  simp [forFin, List.mem_flatMap]

theorem forFin_val {F α : Type} {n : ℕ} (f : Fin n → W F α) :
    (forFin n f).val = fun i => (f i).val := rfl

namespace Pow5

variable {F : Type} [Field F] {t : ℕ}

/-- The configuration, given the columns and the first selector. -/
def config (S : Params F t) (cols : Cols t) (σ : ℕ) : Config F t :=
  { cols with
    sFull := σ, sPartial := σ + 1, sPartialSingle := σ + 2, sPadAndAdd := σ + 3
    halfFull := S.fullRounds / 2
    halfPartial := S.partialRounds / 2
    rc := S.rc, mReg := S.mReg, mInv := S.mInv }

/-- Columns put under copy constraints by `configure`. -/
def eqCols (cols : Cols t) : List Col :=
  (List.finRange (t + 1)).map (fun i => Col.advice (cols.state i)) ++
    (List.finRange (t + 1)).map fun i => Col.fixed (cols.rcB i)

theorem enableAll_eq (l : List Col) (cs : CS F) :
    enableAll l cs = ((), { cs with equality := cs.equality ++ l }) := by
  induction l generalizing cs with
  | nil => simp [enableAll, pure, StateT.pure, StateM, Id]
  | cons c l ih =>
    have : enableAll (c :: l) cs = enableAll l (CS.enableEquality c cs).2 := rfl
    rw [this, ih]
    simp [CS.enableEquality]

theorem configure_eq (S : Params F t) (cols : Cols t) (cs : CS F) :
    configure S cols cs = (config S cols cs.numSelectors,
      { cs with
        numSelectors := cs.numSelectors + 4
        gates := cs.gates ++ gates (config S cols cs.numSelectors)
        equality := cs.equality ++ eqCols cols }) := by
  simp only [configure, bind, StateT.bind, pure, StateT.pure, enableAll_eq, CS.newSelector,
    CS.createGate, config, gates, eqCols, List.append_assoc]
  rfl

/-! ## Gates -/

theorem eval_foldl_add (g : Grid F) (r : ℕ) {α : Type} (f : α → Expr F) (l : List α) (e : Expr F) :
    (l.foldl (fun acc k => acc + f k) e).eval g r = e.eval g r + (l.map fun k => (f k).eval g r).sum := by
  induction l generalizing e with
  | nil => simp
  | cons k l ih => simp [ih, add_assoc]

theorem eval_reduceAdd (g : Grid F) (r : ℕ) (l : List (Expr F)) :
    (reduceAdd l).eval g r = (l.map fun e => e.eval g r).sum := by
  cases l with
  | nil => simp [reduceAdd]
  | cons e l => simpa [reduceAdd] using eval_foldl_add g r (fun e => e) l e

theorem sum_finRange {n : ℕ} (f : Fin n → F) : ((List.finRange n).map f).sum = ∑ i, f i := by
  rw [← List.ofFn_eq_map, List.sum_ofFn]

theorem pow5Expr_eval (g : Grid F) (r : ℕ) (e : Expr F) :
    (pow5Expr e).eval g r = (e.eval g r) ^ 5 := by
  simp only [pow5Expr, Expr.eval_mul]; ring

section rows
variable (g : Grid F) (c : Config F t) (r : ℕ)

/-- The state cells of row `r`. -/
def cur : Fin (t + 1) → F := fun i => g.advice (c.state i) r
def rcAt : Fin (t + 1) → F := fun i => g.fixed (c.rcA i) r
def rcBt : Fin (t + 1) → F := fun i => g.fixed (c.rcB i) r

/-- What the gates say on a row, in terms of the next row `r'` and the previous row. -/
def FullRow (r' : ℕ) : Prop :=
  cur g c r' = Spec.fullRound (fun v => v ^ 5) (Matrix.of c.mReg) (rcAt g c r) (cur g c r)

def SingleRow (r' : ℕ) : Prop :=
  cur g c r' = Spec.partialRound (fun v => v ^ 5) (Matrix.of c.mReg) (rcAt g c r) (cur g c r)

/-- Words after the first S-box layer of a double partial row, reading word 0 from `partial_sbox`. -/
def midIn : Fin (t + 1) → F := fun i =>
  if i = 0 then g.advice c.partialSbox r else cur g c r i + rcAt g c r i

def DoubleRow (r' : ℕ) : Prop :=
  (cur g c r 0 + rcAt g c r 0) ^ 5 = g.advice c.partialSbox r ∧
  (Matrix.of c.mInv).mulVec (cur g c r') = fun i =>
    if i = 0 then ((Matrix.of c.mReg).mulVec (midIn g c r) i + rcBt g c r i) ^ 5
    else (Matrix.of c.mReg).mulVec (midIn g c r) i + rcBt g c r i

def PadRow (r₀ r' : ℕ) : Prop :=
  (∀ k : Fin t, cur g c r' k.castSucc = cur g c r₀ k.castSucc + cur g c r k.castSucc) ∧
  cur g c r' (Fin.last t) = cur g c r₀ (Fin.last t)

end rows

theorem mem_map_finRange {α : Type} {n : ℕ} (f : Fin n → α) (P : α → Prop) :
    (∀ e ∈ (List.finRange n).map f, P e) ↔ ∀ i, P (f i) := by
  simp

theorem sel_mul (g : Grid F) (s r : ℕ) (e : Expr F) :
    (Expr.selector s * e).eval g r = 0 ↔ (g.selector s r = true → e.eval g r = 0) := by
  simp only [Expr.eval_mul, Expr.eval_selector]
  split_ifs with h <;> simp [h]

theorem fullGate_iff (g : Grid F) (c : Config F t) :
    (fullGate c).Holds g ↔ ∀ r < g.n, g.selector c.sFull r = true → FullRow g c r (g.rot r 1) := by
  simp only [Gate.Holds, fullGate, mem_map_finRange, sel_mul]
  have key : ∀ (i : Fin (t + 1)) (r : ℕ), r < g.n →
      ((reduceAdd ((List.finRange (t + 1)).map fun idx =>
      Expr.scaled (pow5Expr (Expr.advice (c.state idx) 0 + Expr.fixed (c.rcA idx) 0))
        (c.mReg i idx)) - Expr.advice (c.state i) 1).eval g r = 0 ↔
      cur g c (g.rot r 1) i =
        Spec.fullRound (fun v => v ^ 5) (Matrix.of c.mReg) (rcAt g c r) (cur g c r) i) := by
    intro i r hr
    rw [Expr.eval_sub, eval_reduceAdd, List.map_map, sum_finRange, sub_eq_zero]
    simp only [Function.comp, Expr.eval_scaled, pow5Expr_eval, Expr.eval_add, Expr.eval_advice,
      Expr.eval_fixed, g.rot_zero hr, Spec.fullRound, Matrix.mulVec, dotProduct, Matrix.of_apply, cur,
      rcAt]
    rw [eq_comm]
    simp only [mul_comm]
  constructor
  · intro h r hr hs
    funext i
    exact (key i r hr).mp (h i r hr hs)
  · intro h i r hr hs
    exact (key i r hr).mpr (congrFun (h r hr hs) i)

theorem singleGate_iff (g : Grid F) (c : Config F t) :
    (singleGate c).Holds g ↔
      ∀ r < g.n, g.selector c.sPartialSingle r = true → SingleRow g c r (g.rot r 1) := by
  simp only [Gate.Holds, singleGate, mem_map_finRange, sel_mul]
  have key : ∀ (i : Fin (t + 1)) (r : ℕ), r < g.n →
      ((Expr.scaled (pow5Expr (Expr.advice (c.state 0) 0 + Expr.fixed (c.rcA 0) 0))
      (c.mReg i 0) + reduceAdd ((List.finRange t).map fun k : Fin t =>
      Expr.scaled (Expr.advice (c.state k.succ) 0 + Expr.fixed (c.rcA k.succ) 0)
        (c.mReg i k.succ)) - Expr.advice (c.state i) 1).eval g r = 0 ↔
      cur g c (g.rot r 1) i =
        Spec.partialRound (fun v => v ^ 5) (Matrix.of c.mReg) (rcAt g c r) (cur g c r) i) := by
    intro i r hr
    rw [Expr.eval_sub, Expr.eval_add, eval_reduceAdd, List.map_map, sum_finRange, sub_eq_zero]
    simp only [Function.comp, Expr.eval_scaled, pow5Expr_eval, Expr.eval_add, Expr.eval_advice,
      Expr.eval_fixed, g.rot_zero hr, Spec.partialRound, Matrix.mulVec, dotProduct, Matrix.of_apply,
      cur, rcAt, Fin.sum_univ_succ, if_true, Fin.succ_ne_zero, if_false]
    rw [eq_comm]
    simp only [mul_comm]
  constructor
  · intro h r hr hs
    funext i
    exact (key i r hr).mp (h i r hr hs)
  · intro h i r hr hs
    exact (key i r hr).mpr (congrFun (h r hr hs) i)

theorem midExpr_eval (g : Grid F) (c : Config F t) (i : Fin (t + 1)) {r : ℕ} (hr : r < g.n) :
    (midExpr c i).eval g r = (Matrix.of c.mReg).mulVec (midIn g c r) i := by
  unfold midExpr
  rw [eval_foldl_add, sum_finRange]
  simp only [Expr.eval_scaled, Expr.eval_add, Expr.eval_advice, Expr.eval_fixed, g.rot_zero hr,
    Matrix.mulVec, dotProduct, Matrix.of_apply, Fin.sum_univ_succ, midIn, if_true, Fin.succ_ne_zero,
    if_false, cur, rcAt]
  simp only [mul_comm]

theorem nextExpr_eval (g : Grid F) (c : Config F t) (i : Fin (t + 1)) (r : ℕ) :
    (nextExpr c i).eval g r = (Matrix.of c.mInv).mulVec (cur g c (g.rot r 1)) i := by
  unfold nextExpr
  rw [eval_reduceAdd, List.map_map, sum_finRange]
  simp only [Function.comp, Expr.eval_scaled, Expr.eval_advice, Matrix.mulVec, dotProduct,
    Matrix.of_apply, cur]
  simp only [mul_comm]

theorem partialGate_iff (g : Grid F) (c : Config F t) :
    (partialGate c).Holds g ↔
      ∀ r < g.n, g.selector c.sPartial r = true → DoubleRow g c r (g.rot r 1) := by
  simp only [Gate.Holds, partialGate, List.forall_mem_map, sel_mul]
  have h1 : ∀ r < g.n, ((pow5Expr (Expr.advice (c.state 0) 0 + Expr.fixed (c.rcA 0) 0) -
      Expr.advice c.partialSbox 0).eval g r = 0 ↔
      (cur g c r 0 + rcAt g c r 0) ^ 5 = g.advice c.partialSbox r) := by
    intro r hr
    rw [Expr.eval_sub, sub_eq_zero]
    simp only [pow5Expr_eval, Expr.eval_add, Expr.eval_advice, Expr.eval_fixed, g.rot_zero hr, cur,
      rcAt]
  have h2 : ∀ r < g.n, ((pow5Expr (midExpr c 0 + Expr.fixed (c.rcB 0) 0) - nextExpr c 0).eval g r = 0
      ↔ (Matrix.of c.mInv).mulVec (cur g c (g.rot r 1)) 0 =
        ((Matrix.of c.mReg).mulVec (midIn g c r) 0 + rcBt g c r 0) ^ 5) := by
    intro r hr
    rw [Expr.eval_sub, sub_eq_zero, nextExpr_eval, eq_comm]
    simp only [pow5Expr_eval, Expr.eval_add, Expr.eval_fixed, g.rot_zero hr, midExpr_eval g c _ hr,
      rcBt]
  have h3 : ∀ r < g.n, ∀ k : Fin t,
      ((midExpr c k.succ + Expr.fixed (c.rcB k.succ) 0 - nextExpr c k.succ).eval g r = 0
      ↔ (Matrix.of c.mInv).mulVec (cur g c (g.rot r 1)) k.succ =
        (Matrix.of c.mReg).mulVec (midIn g c r) k.succ + rcBt g c r k.succ) := by
    intro r hr k
    rw [Expr.eval_sub, sub_eq_zero, nextExpr_eval, eq_comm]
    simp only [Expr.eval_add, Expr.eval_fixed, g.rot_zero hr, midExpr_eval g c _ hr, rcBt]
  constructor
  · intro h r hr hs
    refine ⟨(h1 r hr).mp (h _ (by simp) r hr hs), ?_⟩
    funext i
    cases i using Fin.cases with
    | zero => rw [if_pos rfl]; exact (h2 r hr).mp (h _ (by simp) r hr hs)
    | succ k =>
      rw [if_neg (Fin.succ_ne_zero k)]
      exact (h3 r hr k).mp (h _ (by simp) r hr hs)
  · intro h e he r hr hs
    obtain ⟨ha, hb⟩ := h r hr hs
    simp only [List.cons_append, List.nil_append, List.mem_cons, List.mem_map, List.mem_finRange,
      true_and] at he
    rcases he with rfl | rfl | ⟨k, rfl⟩
    · exact (h1 r hr).mpr ha
    · exact (h2 r hr).mpr (by rw [hb]; exact if_pos rfl)
    · exact (h3 r hr k).mpr (by rw [hb]; exact if_neg (Fin.succ_ne_zero k))

theorem padGate_iff (g : Grid F) (c : Config F t) :
    (padGate c).Holds g ↔
      ∀ r < g.n, g.selector c.sPadAndAdd r = true → PadRow g c r (g.rot r (-1)) (g.rot r 1) := by
  simp only [Gate.Holds, padGate, List.forall_mem_map, sel_mul]
  constructor
  · intro h r hr hs
    refine ⟨fun k => ?_, ?_⟩
    · have := h (Expr.advice (c.state k.castSucc) (-1) + Expr.advice (c.state k.castSucc) 0 -
          Expr.advice (c.state k.castSucc) 1) (by simp) r hr hs
      simp only [Expr.eval_sub, Expr.eval_add, Expr.eval_advice, g.rot_zero hr] at this
      simp only [cur]; linear_combination -this
    · have := h (Expr.advice (c.state (Fin.last t)) (-1) - Expr.advice (c.state (Fin.last t)) 1)
        (by simp) r hr hs
      simp only [Expr.eval_sub, Expr.eval_advice] at this
      simp only [cur]; linear_combination -this
  · intro h e he r hr hs
    obtain ⟨ha, hb⟩ := h r hr hs
    simp only [List.mem_append, List.mem_map, List.mem_finRange, true_and, List.mem_singleton] at he
    rcases he with ⟨k, rfl⟩ | rfl
    · have := ha k
      simp only [cur] at this
      simp only [Expr.eval_sub, Expr.eval_add, Expr.eval_advice, g.rot_zero hr]
      linear_combination -this
    · simp only [cur] at hb
      simp only [Expr.eval_sub, Expr.eval_advice]
      linear_combination -hb

theorem gates_iff (g : Grid F) (c : Config F t) :
    (∀ p ∈ gates c, p.Holds g) ↔ ∀ r < g.n,
      (g.selector c.sFull r = true → FullRow g c r (g.rot r 1)) ∧
      (g.selector c.sPartial r = true → DoubleRow g c r (g.rot r 1)) ∧
      (g.selector c.sPartialSingle r = true → SingleRow g c r (g.rot r 1)) ∧
      (g.selector c.sPadAndAdd r = true → PadRow g c r (g.rot r (-1)) (g.rot r 1)) := by
  simp only [gates, List.forall_mem_cons, fullGate_iff, partialGate_iff, singleGate_iff, padGate_iff,
    List.not_mem_nil, false_imp_iff, implies_true, and_true]
  constructor
  · rintro ⟨h1, h2, h3, h4⟩ r hr
    exact ⟨h1 r hr, h2 r hr, h3 r hr, h4 r hr⟩
  · intro h
    exact ⟨fun r hr => (h r hr).1, fun r hr => (h r hr).2.1, fun r hr => (h r hr).2.2.1,
      fun r hr => (h r hr).2.2.2⟩

/-- A double row applies two partial rounds. -/
theorem doubleRow_iff (g : Grid F) (c : Config F t)
    (hinv : Matrix.of c.mReg * Matrix.of c.mInv = 1) (r r' : ℕ) :
    DoubleRow g c r r' ↔
      g.advice c.partialSbox r = (cur g c r 0 + rcAt g c r 0) ^ 5 ∧
      cur g c r' = Spec.partialRound (fun v => v ^ 5) (Matrix.of c.mReg) (rcBt g c r)
        (Spec.partialRound (fun v => v ^ 5) (Matrix.of c.mReg) (rcAt g c r) (cur g c r)) := by
  have hinv' : Matrix.of c.mInv * Matrix.of c.mReg = 1 := mul_eq_one_comm.mp hinv
  have hmid : g.advice c.partialSbox r = (cur g c r 0 + rcAt g c r 0) ^ 5 →
      (Matrix.of c.mReg).mulVec (midIn g c r) =
        Spec.partialRound (fun v => v ^ 5) (Matrix.of c.mReg) (rcAt g c r) (cur g c r) := by
    intro h
    unfold Spec.partialRound
    congr 1
    funext i
    simp only [midIn]
    split_ifs with hi
    · rw [h, hi]
    · rfl
  unfold DoubleRow
  constructor
  · rintro ⟨h1, h2⟩
    refine ⟨h1.symm, ?_⟩
    have := congrArg (Matrix.of c.mReg).mulVec h2
    rw [Matrix.mulVec_mulVec, hinv, Matrix.one_mulVec, hmid h1.symm] at this
    rw [this]
    rfl
  · rintro ⟨h1, h2⟩
    refine ⟨h1.symm, ?_⟩
    rw [h2, hmid h1]
    conv_lhs => unfold Spec.partialRound
    rw [Matrix.mulVec_mulVec, hinv', Matrix.one_mulVec]
    rfl

/-! ## Schedule -/

section schedule
variable (S : Params F t)

/-- Number of rows with a round: `R_F` full rounds, `⌊R_P / 2⌋` double rows, and one single row if
`R_P` is odd. -/
def steps : ℕ := S.fullRounds / 2 + S.partialRounds / 2 + S.partialRounds % 2 + S.fullRounds / 2

/-- First round done in row `o`. -/
def roundAt (o : ℕ) : ℕ :=
  if o < S.fullRounds / 2 then o
  else if o < S.fullRounds / 2 + S.partialRounds / 2 then 2 * o - S.fullRounds / 2
  else o + S.partialRounds / 2

inductive Kind | full | double | single
  deriving DecidableEq

def kindAt (o : ℕ) : Kind :=
  if o < S.fullRounds / 2 then .full
  else if o < S.fullRounds / 2 + S.partialRounds / 2 then .double
  else if o < S.fullRounds / 2 + S.partialRounds / 2 + S.partialRounds % 2 then .single
  else .full

/-- State before round `r`. -/
def st (x : Fin (t + 1) → F) (r : ℕ) : Fin (t + 1) → F :=
  (List.range r).foldl (fun x r => Spec.round (fun v => v ^ 5) (Matrix.of S.mReg) (S.fullRounds / 2)
    S.partialRounds S.rc r x) x

theorem st_succ (x : Fin (t + 1) → F) (r : ℕ) : st S x (r + 1) =
    Spec.round (fun v => v ^ 5) (Matrix.of S.mReg) (S.fullRounds / 2) S.partialRounds S.rc r
      (st S x r) := by
  simp only [st, List.range_succ, List.foldl_append, List.foldl_cons, List.foldl_nil]

/-- State before row `o`. -/
def xAt (x : Fin (t + 1) → F) (o : ℕ) : Fin (t + 1) → F := st S x (roundAt S o)

/-- The permutation. -/
def perm : (Fin (t + 1) → F) → Fin (t + 1) → F :=
  Spec.poseidon (fun v => v ^ 5) (Matrix.of S.mReg) (S.fullRounds / 2) S.partialRounds S.rc

theorem xAt_zero (x : Fin (t + 1) → F) : xAt S x 0 = x := by
  have : roundAt S 0 = 0 := by unfold roundAt; split_ifs <;> omega
  simp [xAt, this, st]

theorem xAt_steps (x : Fin (t + 1) → F) : xAt S x (steps S) = perm S x := by
  have : roundAt S (steps S) = 2 * (S.fullRounds / 2) + S.partialRounds := by
    unfold roundAt steps; split_ifs <;> omega
  simp only [xAt, this, st, perm, Spec.poseidon]

theorem xAt_full (x : Fin (t + 1) → F) (o : ℕ) (ho : o < steps S) (hk : kindAt S o = .full) :
    xAt S x (o + 1) =
      Spec.fullRound (fun v => v ^ 5) (Matrix.of S.mReg) (S.rc (roundAt S o)) (xAt S x o) := by
  unfold kindAt at hk
  have h1 : roundAt S (o + 1) = roundAt S o + 1 := by
    unfold roundAt steps at *; split_ifs at * <;> omega
  have h2 : roundAt S o < S.fullRounds / 2 ∨ S.fullRounds / 2 + S.partialRounds ≤ roundAt S o := by
    unfold roundAt steps at *; split_ifs at * <;> omega
  simp only [xAt, h1, st_succ]
  rw [Spec.round, if_pos h2]

theorem xAt_single (x : Fin (t + 1) → F) (o : ℕ) (hk : kindAt S o = .single) :
    xAt S x (o + 1) =
      Spec.partialRound (fun v => v ^ 5) (Matrix.of S.mReg) (S.rc (roundAt S o)) (xAt S x o) := by
  unfold kindAt at hk
  have h1 : roundAt S (o + 1) = roundAt S o + 1 := by
    unfold roundAt at *; split_ifs at * <;> omega
  have h2 : ¬ (roundAt S o < S.fullRounds / 2 ∨ S.fullRounds / 2 + S.partialRounds ≤ roundAt S o) := by
    unfold roundAt at *; split_ifs at * <;> omega
  simp only [xAt, h1, st_succ]
  rw [Spec.round, if_neg h2]

theorem xAt_double (x : Fin (t + 1) → F) (o : ℕ) (hk : kindAt S o = .double) :
    xAt S x (o + 1) =
      Spec.partialRound (fun v => v ^ 5) (Matrix.of S.mReg) (S.rc (roundAt S o + 1))
        (Spec.partialRound (fun v => v ^ 5) (Matrix.of S.mReg) (S.rc (roundAt S o)) (xAt S x o)) := by
  unfold kindAt at hk
  have h1 : roundAt S (o + 1) = roundAt S o + 1 + 1 := by
    unfold roundAt at *; split_ifs at * <;> omega
  have h2 : ¬ (roundAt S o < S.fullRounds / 2 ∨ S.fullRounds / 2 + S.partialRounds ≤ roundAt S o) := by
    unfold roundAt at *; split_ifs at * <;> omega
  have h3 : ¬ (roundAt S o + 1 < S.fullRounds / 2 ∨
      S.fullRounds / 2 + S.partialRounds ≤ roundAt S o + 1) := by
    unfold roundAt at *; split_ifs at * <;> omega
  simp only [xAt, h1, st_succ]
  rw [Spec.round, if_neg h3, Spec.round, if_neg h2]

end schedule

theorem mulMds_eq (m : Base.Mds F (t + 1)) (r : Fin (t + 1) → F) :
    mulMds m r = (Matrix.of m).mulVec r := by
  funext i
  have : ∀ (l : List (Fin (t + 1))) (a : F),
      l.foldl (fun acc j => acc + m i j * r j) a = a + (l.map fun j => m i j * r j).sum := by
    intro l
    induction l with
    | nil => simp
    | cons j l ih => intro a; simp [ih, add_assoc]
  simp only [mulMds, this, zero_add, sum_finRange, Matrix.mulVec, dotProduct, Matrix.of_apply]

/-! ## What a permutation region writes -/

section region
variable (S : Params F t) (cols : Cols t) (σ : ℕ)

/-- The selector of row `o`. -/
def selAt (o : ℕ) : ℕ :=
  match kindAt S o with
  | .full => σ
  | .double => σ + 1
  | .single => σ + 2

/-- Non-copy operations of a permutation of `x` in a region starting at row `s`. -/
inductive BlockOp (x : Fin (t + 1) → F) (s : ℕ) : Op F → Prop
  | state (o : ℕ) (ho : o ≤ steps S) (i : Fin (t + 1)) :
      BlockOp x s (.advice (cols.state i) (s + o) (xAt S x o i))
  | sel (o : ℕ) (ho : o < steps S) : BlockOp x s (.selector (selAt S σ o) (s + o))
  | rcA (o : ℕ) (ho : o < steps S) (i : Fin (t + 1)) :
      BlockOp x s (.fixed (cols.rcA i) (s + o) (S.rc (roundAt S o) i))
  | sbox (o : ℕ) (ho : o < steps S) (hk : kindAt S o = .double) :
      BlockOp x s (.advice cols.partialSbox (s + o) ((xAt S x o 0 + S.rc (roundAt S o) 0) ^ 5))
  | rcB (o : ℕ) (ho : o < steps S) (hk : kindAt S o = .double) (i : Fin (t + 1)) :
      BlockOp x s (.fixed (cols.rcB i) (s + o) (S.rc (roundAt S o + 1) i))

/-- The cells of row `o` of the region. -/
def stWords (x : Fin (t + 1) → F) (s o : ℕ) : Words F (t + 1) :=
  fun i => ⟨⟨.advice (cols.state i), s + o⟩, xAt S x o i⟩

theorem mem_roundRow (c : Config F t) (s rnd off gate : ℕ) (fn : W F (Fin (t + 1) → F)) (op : Op F) :
    op ∈ (roundRow c s rnd off gate fn).ops ↔
      op = .selector gate (s + off) ∨ (∃ i, op = .fixed (c.rcA i) (s + off) (c.rc rnd i)) ∨
        op ∈ fn.ops ∨ ∃ i, op = .advice (c.state i) (s + (off + 1)) (fn.val i) := by
  simp only [roundRow, W.bind_ops, List.mem_append, mem_forFin, enableSelector, assignFixed,
    assignAdvice, List.mem_singleton]

theorem roundRow_val (c : Config F t) (s rnd off gate : ℕ) (fn : W F (Fin (t + 1) → F)) :
    (roundRow c s rnd off gate fn).val =
      fun i => ⟨⟨.advice (c.state i), s + (off + 1)⟩, fn.val i⟩ := rfl

/-- Operations of row `o`. -/
def RowOp (x : Fin (t + 1) → F) (s o : ℕ) (op : Op F) : Prop :=
  op = .selector (selAt S σ o) (s + o) ∨
  (∃ i, op = .fixed (cols.rcA i) (s + o) (S.rc (roundAt S o) i)) ∨
  (kindAt S o = .double ∧
    (op = .advice cols.partialSbox (s + o) ((xAt S x o 0 + S.rc (roundAt S o) 0) ^ 5) ∨
      ∃ i, op = .fixed (cols.rcB i) (s + o) (S.rc (roundAt S o + 1) i))) ∨
  ∃ i, op = .advice (cols.state i) (s + (o + 1)) (xAt S x (o + 1) i)

variable (x : Fin (t + 1) → F) (s : ℕ)

theorem fullRound_row (o : ℕ) (ho : o < steps S) (hk : kindAt S o = .full) :
    (fullRound (config S cols σ) s (stWords S cols x s o) (roundAt S o) o).val =
      stWords S cols x s (o + 1) ∧
    ∀ op, op ∈ (fullRound (config S cols σ) s (stWords S cols x s o) (roundAt S o) o).ops ↔
      RowOp S cols σ x s o op := by
  have hv : mulMds (config S cols σ).mReg (fun i =>
      ((stWords S cols x s o i).value + (config S cols σ).rc (roundAt S o) i) ^ 5) =
      xAt S x (o + 1) := by
    rw [xAt_full S x o ho hk, mulMds_eq]; rfl
  constructor
  · unfold fullRound
    rw [roundRow_val, W.pure_val, hv]
    rfl
  · intro op
    unfold fullRound
    rw [mem_roundRow, W.pure_val, hv]
    simp only [RowOp, selAt, hk, W.pure_ops, List.not_mem_nil, false_or, reduceCtorEq, false_and]
    rfl

theorem single_row (o : ℕ) (hk : kindAt S o = .single) :
    (partialRoundSingle (config S cols σ) s (stWords S cols x s o) (roundAt S o) o).val =
      stWords S cols x s (o + 1) ∧
    ∀ op, op ∈ (partialRoundSingle (config S cols σ) s (stWords S cols x s o) (roundAt S o) o).ops ↔
      RowOp S cols σ x s o op := by
  have hv : mulMds (config S cols σ).mReg (fun i => if i = 0 then
      ((stWords S cols x s o i).value + (config S cols σ).rc (roundAt S o) i) ^ 5 else
      (stWords S cols x s o i).value + (config S cols σ).rc (roundAt S o) i) =
      xAt S x (o + 1) := by
    rw [xAt_single S x o hk, mulMds_eq]; rfl
  constructor
  · unfold partialRoundSingle
    rw [roundRow_val, W.pure_val, hv]
    rfl
  · intro op
    unfold partialRoundSingle
    rw [mem_roundRow, W.pure_val, hv]
    simp only [RowOp, selAt, hk, W.pure_ops, List.not_mem_nil, false_or, reduceCtorEq, false_and]
    rfl

theorem double_row (o : ℕ) (hk : kindAt S o = .double) :
    (partialRound (config S cols σ) s (stWords S cols x s o) (roundAt S o) o).val =
      stWords S cols x s (o + 1) ∧
    ∀ op, op ∈ (partialRound (config S cols σ) s (stWords S cols x s o) (roundAt S o) o).ops ↔
      RowOp S cols σ x s o op := by
  have hm : mulMds (config S cols σ).mReg (fun i => if i = 0 then
      ((stWords S cols x s o i).value + (config S cols σ).rc (roundAt S o) i) ^ 5 else
      (config S cols σ).rc (roundAt S o) i + (stWords S cols x s o i).value) =
      Spec.partialRound (fun v => v ^ 5) (Matrix.of S.mReg) (S.rc (roundAt S o)) (xAt S x o) := by
    rw [mulMds_eq]
    simp only [add_comm ((config S cols σ).rc (roundAt S o) _)]; rfl
  have hv : mulMds (config S cols σ).mReg (fun i => if i = 0 then
      (mulMds (config S cols σ).mReg (fun i => if i = 0 then
      ((stWords S cols x s o i).value + (config S cols σ).rc (roundAt S o) i) ^ 5 else
      (config S cols σ).rc (roundAt S o) i + (stWords S cols x s o i).value) i +
        (config S cols σ).rc (roundAt S o + 1) i) ^ 5 else
      (config S cols σ).rc (roundAt S o + 1) i + mulMds (config S cols σ).mReg (fun i => if i = 0 then
      ((stWords S cols x s o i).value + (config S cols σ).rc (roundAt S o) i) ^ 5 else
      (config S cols σ).rc (roundAt S o) i + (stWords S cols x s o i).value) i) =
      xAt S x (o + 1) := by
    rw [xAt_double S x o hk, hm, mulMds_eq]
    simp only [add_comm ((config S cols σ).rc (roundAt S o + 1) _)]; rfl
  constructor
  · unfold partialRound
    rw [roundRow_val]
    simp only [W.bind_val, W.pure_val]
    rw [hv]
    rfl
  · intro op
    unfold partialRound
    rw [mem_roundRow]
    simp only [W.bind_val, W.bind_ops, W.pure_val, W.pure_ops]
    rw [hv]
    simp only [RowOp, selAt, hk, List.append_nil, List.mem_append, mem_forFin, assignAdvice,
      assignFixed, List.mem_singleton, true_and, if_true]
    rfl

/-- A loop whose steps are the rows from `base` on. -/
theorem loop_rows (f : ℕ → Words F (t + 1) → W F (Words F (t + 1))) (base n : ℕ)
    (hf : ∀ r < n, (f r (stWords S cols x s (base + r))).val = stWords S cols x s (base + r + 1) ∧
      ∀ op, op ∈ (f r (stWords S cols x s (base + r))).ops ↔ RowOp S cols σ x s (base + r) op) :
    (W.loop f n (stWords S cols x s base)).val = stWords S cols x s (base + n) ∧
    ∀ op, op ∈ (W.loop f n (stWords S cols x s base)).ops ↔
      ∃ o, base ≤ o ∧ o < base + n ∧ RowOp S cols σ x s o op := by
  have hv : ∀ k ≤ n, (W.loop f k (stWords S cols x s base)).val = stWords S cols x s (base + k) := by
    intro k
    induction k with
    | zero => intro _; rfl
    | succ k ih =>
      intro hk
      rw [W.loop_succ_val, ih (by omega), (hf k (by omega)).1]; rfl
  refine ⟨hv n le_rfl, fun op => ?_⟩
  rw [W.mem_loop]
  constructor
  · rintro ⟨i, hi, h⟩
    rw [hv i (by omega), (hf i hi).2] at h
    exact ⟨base + i, by omega, by omega, h⟩
  · rintro ⟨o, h1, h2, h⟩
    refine ⟨o - base, by omega, ?_⟩
    rw [hv _ (by omega), (hf _ (by omega)).2]
    rwa [show base + (o - base) = o by omega]

theorem rowOp_blockOp (op : Op F) :
    ((∃ i, op = .advice (cols.state i) s (x i)) ∨ ∃ o < steps S, RowOp S cols σ x s o op) ↔
      BlockOp S cols σ x s op := by
  constructor
  · rintro (⟨i, rfl⟩ | ⟨o, ho, rfl | ⟨i, rfl⟩ | ⟨hk, rfl | ⟨i, rfl⟩⟩ | ⟨i, rfl⟩⟩)
    · have := BlockOp.state (S := S) (cols := cols) (σ := σ) (x := x) (s := s) 0 (by omega) i
      rwa [xAt_zero] at this
    · exact .sel o ho
    · exact .rcA o ho i
    · exact .sbox o ho hk
    · exact .rcB o ho hk i
    · exact .state (o + 1) ho i
  · intro h
    cases h with
    | state o ho i =>
      cases o with
      | zero => left; exact ⟨i, by rw [xAt_zero]; rfl⟩
      | succ o => right; exact ⟨o, ho, Or.inr (Or.inr (Or.inr ⟨i, rfl⟩))⟩
    | sel o ho => right; exact ⟨o, ho, Or.inl rfl⟩
    | rcA o ho i => right; exact ⟨o, ho, Or.inr (Or.inl ⟨i, rfl⟩)⟩
    | sbox o ho hk => right; exact ⟨o, ho, Or.inr (Or.inr (Or.inl ⟨hk, Or.inl rfl⟩))⟩
    | rcB o ho hk i => right; exact ⟨o, ho, Or.inr (Or.inr (Or.inl ⟨hk, Or.inr ⟨i, rfl⟩⟩))⟩

/-- Everything `permute` does in its region. -/
theorem permuteBody_spec (w : Words F (t + 1)) :
    (permuteBody S (config S cols σ) w s).val =
      stWords S cols (fun i => (w i).value) s (steps S) ∧
    ∀ op, op ∈ (permuteBody S (config S cols σ) w s).ops ↔
      BlockOp S cols σ (fun i => (w i).value) s op ∨
        ∃ i, op = .copy ⟨.advice (cols.state i), s⟩ (w i).cell := by
  obtain ⟨x, hx⟩ : ∃ x, x = fun i => (w i).value := ⟨_, rfl⟩
  rw [← hx]
  have hload : (load (config S cols σ) s w).val = stWords S cols x s 0 := by
    rw [hx]
    unfold load stWords
    rw [forFin_val]
    simp only [xAt_zero]
    rfl
  have hload2 : ∀ op, op ∈ (load (config S cols σ) s w).ops ↔
      (∃ i, op = .advice (cols.state i) s (x i)) ∨
        ∃ i, op = .copy ⟨.advice (cols.state i), s⟩ (w i).cell := by
    intro op
    simp only [load, mem_forFin, copyAdvice, List.mem_cons, List.not_mem_nil, or_false, hx,
      exists_or]
    rfl
  have L1 := loop_rows S cols σ x s
    (fun r w => fullRound (config S cols σ) s w r r) 0 (S.fullRounds / 2) (by
      intro r hr
      have e : roundAt S (0 + r) = r := by unfold roundAt; split_ifs <;> omega
      have h := fullRound_row S cols σ x s (0 + r) (by unfold steps; omega)
        (by unfold kindAt; split_ifs <;> first | rfl | omega)
      rw [e] at h
      simpa using h)
  have L2 := loop_rows S cols σ x s
    (fun r w => partialRound (config S cols σ) s w (S.fullRounds / 2 + 2 * r)
      (S.fullRounds / 2 + r)) (0 + S.fullRounds / 2) (S.partialRounds / 2) (by
      intro r hr
      have e : roundAt S (0 + S.fullRounds / 2 + r) = S.fullRounds / 2 + 2 * r := by
        unfold roundAt; split_ifs <;> omega
      have h := double_row S cols σ x s (0 + S.fullRounds / 2 + r)
        (by unfold kindAt; split_ifs <;> first | rfl | omega)
      rw [e] at h
      simpa using h)
  have L3 : (oddRound S (config S cols σ) s
        (stWords S cols x s (0 + S.fullRounds / 2 + S.partialRounds / 2))).val =
        stWords S cols x s (S.fullRounds / 2 + S.partialRounds / 2 + S.partialRounds % 2) ∧
      ∀ op, op ∈ (oddRound S (config S cols σ) s
        (stWords S cols x s (0 + S.fullRounds / 2 + S.partialRounds / 2))).ops ↔
        ∃ o, S.fullRounds / 2 + S.partialRounds / 2 ≤ o ∧
          o < S.fullRounds / 2 + S.partialRounds / 2 + S.partialRounds % 2 ∧
          RowOp S cols σ x s o op := by
    unfold oddRound
    have c1 : (config S cols σ).halfFull = S.fullRounds / 2 := rfl
    have c2 : (config S cols σ).halfPartial = S.partialRounds / 2 := rfl
    simp only [c1, c2]
    by_cases hodd : S.partialRounds / 2 * 2 < S.partialRounds
    · have hp : S.partialRounds % 2 = 1 := by omega
      rw [if_pos hodd, hp]
      have e : roundAt S (0 + S.fullRounds / 2 + S.partialRounds / 2) =
          S.fullRounds / 2 + 2 * (S.partialRounds / 2) := by
        unfold roundAt; split_ifs <;> omega
      have h := single_row S cols σ x s (0 + S.fullRounds / 2 + S.partialRounds / 2)
        (by unfold kindAt; split_ifs <;> first | rfl | omega)
      rw [e] at h
      simp only [Nat.zero_add] at h ⊢
      refine ⟨h.1, fun op => (h.2 op).trans ⟨fun h => ⟨_, le_rfl, by omega, h⟩, ?_⟩⟩
      rintro ⟨o, h1, h2, h⟩
      obtain rfl : o = S.fullRounds / 2 + S.partialRounds / 2 := by omega
      exact h
    · have hp : S.partialRounds % 2 = 0 := by omega
      rw [if_neg hodd, hp]
      refine ⟨by simp, fun op => ?_⟩
      simp only [W.pure_ops, List.not_mem_nil, false_iff]
      rintro ⟨o, h1, h2, -⟩
      omega
  have L4 := loop_rows S cols σ x s
    (fun r w => fullRound (config S cols σ) s w
      (S.fullRounds / 2 + 2 * (S.partialRounds / 2) + S.partialRounds % 2 + r)
      (S.fullRounds / 2 + S.partialRounds / 2 + S.partialRounds % 2 + r))
      (S.fullRounds / 2 + S.partialRounds / 2 + S.partialRounds % 2) (S.fullRounds / 2) (by
      intro r hr
      have e : roundAt S (S.fullRounds / 2 + S.partialRounds / 2 + S.partialRounds % 2 + r) =
          S.fullRounds / 2 + 2 * (S.partialRounds / 2) + S.partialRounds % 2 + r := by
        unfold roundAt; split_ifs <;> omega
      have h := fullRound_row S cols σ x s
        (S.fullRounds / 2 + S.partialRounds / 2 + S.partialRounds % 2 + r) (by unfold steps; omega)
        (by unfold kindAt; split_ifs <;> first | rfl | omega)
      rw [e] at h
      exact h)
  unfold permuteBody
  simp only [W.bind_val, W.bind_ops]
  rw [hload]
  have c1 : (config S cols σ).halfFull = S.fullRounds / 2 := rfl
  have c2 : (config S cols σ).halfPartial = S.partialRounds / 2 := rfl
  simp only [c1, c2]
  rw [L1.1, L2.1, L3.1, L4.1]
  refine ⟨rfl, fun op => ?_⟩
  simp only [List.mem_append, hload2, L1.2, L2.2, L3.2, L4.2]
  rw [← rowOp_blockOp]
  constructor
  · rintro ((h | h) | ⟨o, h1, h2, h⟩ | ⟨o, h1, h2, h⟩ | ⟨o, h1, h2, h⟩ | ⟨o, h1, h2, h⟩)
    · exact Or.inl (Or.inl h)
    · exact Or.inr h
    all_goals exact Or.inl (Or.inr ⟨o, by unfold steps; omega, h⟩)
  · rintro ((h | ⟨o, ho, h⟩) | h)
    · exact Or.inl (Or.inl h)
    · right
      unfold steps at ho
      by_cases h1 : o < S.fullRounds / 2
      · exact Or.inl ⟨o, by omega, by omega, h⟩
      by_cases h2 : o < S.fullRounds / 2 + S.partialRounds / 2
      · exact Or.inr (Or.inl ⟨o, by omega, by omega, h⟩)
      by_cases h3 : o < S.fullRounds / 2 + S.partialRounds / 2 + S.partialRounds % 2
      · exact Or.inr (Or.inr (Or.inl ⟨o, by omega, by omega, h⟩))
      · exact Or.inr (Or.inr (Or.inr ⟨o, by omega, by omega, h⟩))
    · exact Or.inl (Or.inr h)

end region

end Pow5
end Circuit
