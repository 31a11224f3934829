import Verif.Circuit.Table
import Verif.Halo2.Layout
import Mathlib.Tactic.FinCases

/-!
# The fill loops of the hash table

Closed forms of `fillRows`, the chunker, and of the serial and parallel assignments.
-/

set_option linter.unusedVariables false
set_option linter.unusedSectionVars false

open Halo2

namespace Circuit.Table

variable {F : Type} [Field F] [DecidableEq F] (legacy : Bool) (STEP : ℕ)
  (π : (Fin 3 → F) → Fin 3 → F) {P : Type} (cfg : SpongeConfig P)

/-- Permutation input of a row. -/
def inState (st : FillState F) (row : RowData F) : Fin 3 → F :=
  ![if st.isNew then specFlag legacy (row.control.getD 0) + row.domain.getD 0 else st.state 0,
    if st.isNew then (row.inp.getD (0, 0)).1 else st.state 1 + (row.inp.getD (0, 0)).1,
    if st.isNew then (row.inp.getD (0, 0)).2 else st.state 2 + (row.inp.getD (0, 0)).2]

/-- Variables after a row. -/
def stepSt (off : ℕ) (st : FillState F) (row : RowData F) : FillState F :=
  ⟨decide (row.control.getD 0 ≤ STEP), if st.isNew then off else st.processStart,
    π (inState legacy st row)⟩

def rowW (start off : ℕ) (st : FillState F) (row : RowData F) : W F (WordPair F) :=
  writeRow cfg start off (inState legacy st row) (π (inState legacy st row)) (row.inp.getD (0, 0))
    (specFlag legacy (row.control.getD 0)) (row.domain.getD 0) st.isNew

def rowOps (start off : ℕ) (st : FillState F) (row : RowData F) : List (Op F) :=
  (rowW legacy π cfg start off st row).ops ++
    if row.control.getD 0 ≤ STEP then
      (writeIndex cfg start (if st.isNew then off else st.processStart) off
        (π (inState legacy st row) 0)).ops
    else []

/-- The check of a row (if any) is right. -/
def rowCheck (st : FillState F) (row : RowData F) : Prop :=
  ∀ ck, row.check = some ck → ck = π (inState legacy st row) 0

instance (st : FillState F) (row : RowData F) : Decidable (rowCheck legacy π st row) := by
  unfold rowCheck
  cases row.check with
  | none => exact isTrue (by simp)
  | some ck => exact decidable_of_iff (ck = π (inState legacy st row) 0) (by simp)

theorem fillRow_eq (start off : ℕ) (st : FillState F) (row : RowData F) :
    fillRow legacy STEP (fun s => .ok (π s)) cfg start off st row =
      if rowCheck legacy π st row then
        .ok ⟨((rowW legacy π cfg start off st row).val, stepSt legacy STEP π off st row),
          rowOps legacy STEP π cfg start off st row⟩
      else .error .checkMismatch := by
  have body : ∀ (b : Bool) (x : W F (WordPair F)) (y : W F Unit) (f : FillState F),
      (do
        let words ← x
        if b = true then y
        return (words, f) : W F (WordPair F × FillState F)) =
      ⟨(x.val, f), x.ops ++ if b = true then y.ops else []⟩ := by
    intro b x y f
    cases b
    · simp [bind, pure]
    · simp [bind, pure]
  obtain ⟨inp, control, domain, check⟩ := row
  cases check with
  | none =>
    rw [if_pos (by intro ck h; cases h)]
    unfold fillRow
    simp only [bind, Except.bind, pure, Except.pure]
    refine congrArg Except.ok ?_
    refine (body _ _ _ _).trans ?_
    simp only [rowOps, rowW, stepSt, inState, decide_eq_true_eq]
  | some ck =>
    by_cases h : ck = π (inState legacy st ⟨inp, control, domain, some ck⟩) 0
    · rw [if_pos (by intro c hc; cases hc; exact h)]
      have h' : ¬ (ck ≠ π (inState legacy st ⟨inp, control, domain, some ck⟩) 0) := not_not.mpr h
      simp only [inState] at h'
      unfold fillRow
      simp only [bind, Except.bind, pure, Except.pure, if_neg h']
      refine congrArg Except.ok ?_
      refine (body _ _ _ _).trans ?_
      simp only [rowOps, rowW, stepSt, inState, decide_eq_true_eq]
    · rw [if_neg (by intro hc; exact h (hc ck rfl))]
      have h' : ck ≠ π (inState legacy st ⟨inp, control, domain, some ck⟩) 0 := h
      simp only [inState] at h'
      unfold fillRow
      simp only [bind, Except.bind, pure, Except.pure, if_pos h']
      rfl

theorem fillRowPartial_eq (native : (Fin 3 → F) → Except Panic (Fin 3 → F)) (start off : ℕ)
    (st : FillState F) (row : RowData F) :
    fillRowPartial legacy STEP native cfg start off st row =
      fillRow legacy STEP native cfg start off st row := rfl

theorem fillRowsPartial_eq (native : (Fin 3 → F) → Except Panic (Fin 3 → F)) (start off : ℕ)
    (st : FillState F) (rows : List (RowData F)) :
    fillRowsPartial legacy STEP native cfg start off st rows =
      fillRows legacy STEP native cfg start off st rows := by
  induction rows generalizing off st with
  | nil => rfl
  | cons r rest ih =>
    simp only [fillRowsPartial, fillRows, fillRowPartial_eq, ih]

/-- Words and operations of the loop. -/
def fillPairs (start : ℕ) : ℕ → FillState F → List (RowData F) → List (WordPair F)
  | _, _, [] => []
  | off, st, row :: rest => (rowW legacy π cfg start off st row).val ::
      fillPairs start (off + 1) (stepSt legacy STEP π off st row) rest

def fillOps (start : ℕ) : ℕ → FillState F → List (RowData F) → List (Op F)
  | _, _, [] => []
  | off, st, row :: rest => rowOps legacy STEP π cfg start off st row ++
      fillOps start (off + 1) (stepSt legacy STEP π off st row) rest

def ChecksOK : ℕ → FillState F → List (RowData F) → Prop
  | _, _, [] => True
  | off, st, row :: rest => rowCheck legacy π st row ∧
      ChecksOK (off + 1) (stepSt legacy STEP π off st row) rest

def stAfter : ℕ → FillState F → List (RowData F) → FillState F
  | _, st, [] => st
  | off, st, row :: rest => stAfter (off + 1) (stepSt legacy STEP π off st row) rest

theorem fillRows_ok (start off : ℕ) (st : FillState F) (rows : List (RowData F))
    (h : ChecksOK legacy STEP π off st rows) :
    fillRows legacy STEP (fun s => .ok (π s)) cfg start off st rows =
      .ok ⟨fillPairs legacy STEP π cfg start off st rows,
        fillOps legacy STEP π cfg start off st rows⟩ := by
  induction rows generalizing off st with
  | nil => rfl
  | cons row rest ih =>
    simp only [fillRows, fillRow_eq, if_pos h.1, ih _ _ h.2, bind, Except.bind, pure, Except.pure,
      fillPairs, fillOps]

theorem fillRows_error (start off : ℕ) (st : FillState F) (rows : List (RowData F))
    (h : ¬ ChecksOK legacy STEP π off st rows) :
    fillRows legacy STEP (fun s => .ok (π s)) cfg start off st rows = .error .checkMismatch := by
  induction rows generalizing off st with
  | nil => exact absurd trivial h
  | cons row rest ih =>
    simp only [fillRows, fillRow_eq]
    by_cases h1 : rowCheck legacy π st row
    · simp only [if_pos h1, bind, Except.bind]
      rw [ih _ _ (fun h2 => h ⟨h1, h2⟩)]
    · simp only [if_neg h1, bind, Except.bind]

theorem fillPairs_append (start off : ℕ) (st : FillState F) (r1 r2 : List (RowData F)) :
    fillPairs legacy STEP π cfg start off st (r1 ++ r2) =
      fillPairs legacy STEP π cfg start off st r1 ++
      fillPairs legacy STEP π cfg start (off + r1.length) (stAfter legacy STEP π off st r1) r2 := by
  induction r1 generalizing off st with
  | nil => simp [fillPairs, stAfter]
  | cons r rest ih =>
    simp only [List.cons_append, fillPairs, stAfter, List.length_cons, ih]
    rw [show off + 1 + rest.length = off + (rest.length + 1) by omega]

theorem fillOps_append (start off : ℕ) (st : FillState F) (r1 r2 : List (RowData F)) :
    fillOps legacy STEP π cfg start off st (r1 ++ r2) =
      fillOps legacy STEP π cfg start off st r1 ++
      fillOps legacy STEP π cfg start (off + r1.length) (stAfter legacy STEP π off st r1) r2 := by
  induction r1 generalizing off st with
  | nil => simp [fillOps, stAfter]
  | cons r rest ih =>
    simp only [List.cons_append, fillOps, stAfter, List.length_cons, ih]
    rw [show off + 1 + rest.length = off + (rest.length + 1) by omega, List.append_assoc]

theorem checksOK_append (off : ℕ) (st : FillState F) (r1 r2 : List (RowData F)) :
    ChecksOK legacy STEP π off st (r1 ++ r2) ↔
      ChecksOK legacy STEP π off st r1 ∧
      ChecksOK legacy STEP π (off + r1.length) (stAfter legacy STEP π off st r1) r2 := by
  induction r1 generalizing off st with
  | nil => simp [ChecksOK, stAfter]
  | cons r rest ih =>
    simp only [List.cons_append, ChecksOK, stAfter, List.length_cons, ih]
    rw [show off + 1 + rest.length = off + (rest.length + 1) by omega, and_assoc]

/-- Two loop states that lead to the same writes, when rows are counted from starts `k` apart. -/
def Sim (k : ℕ) (st st' : FillState F) : Prop :=
  st.isNew = st'.isNew ∧ (st.isNew = false → st.processStart = st'.processStart + k ∧ st.state = st'.state)

theorem Sim.inState {k : ℕ} {st st' : FillState F} (h : Sim k st st') (row : RowData F) :
    inState legacy st row = inState legacy st' row := by
  unfold Table.inState
  rw [h.1]
  cases hn : st'.isNew with
  | true => simp
  | false => rw [(h.2 (by rw [h.1, hn])).2]

theorem Sim.step {k : ℕ} {st st' : FillState F} (h : Sim k st st') (off : ℕ) (row : RowData F) :
    Sim k (stepSt legacy STEP π (off + k) st row) (stepSt legacy STEP π off st' row) := by
  refine ⟨rfl, fun _ => ⟨?_, ?_⟩⟩
  · simp only [stepSt, h.1]
    cases hn : st'.isNew with
    | true => simp
    | false => simpa using (h.2 (by rw [h.1, hn])).1
  · simp only [stepSt, h.inState legacy row]

theorem writeRow_shift (start off k : ℕ) (a b : Fin 3 → F) (i : F × F) (fl d : F) (n : Bool) :
    writeRow cfg start (off + k) a b i fl d n = writeRow cfg (start + k) off a b i fl d n := by
  have : start + (off + k) = start + k + off := by omega
  simp only [writeRow, assignFixed, assignAdvice, this]

theorem writeIndex_shift (start p off k : ℕ) (v : F) :
    (writeIndex cfg start (p + k) (off + k) v).ops = (writeIndex cfg (start + k) p off v).ops := by
  simp only [writeIndex, assignAdvice]
  rw [show off + k + 1 - (p + k) = off + 1 - p by omega, Nat.add_comm p k, ← List.map_add_range',
    List.flatMap_map]
  apply congrArg (fun f => List.flatMap f _)
  funext i
  rw [show start + (k + i) = start + k + i by omega]

theorem rowW_shift {k : ℕ} {st st' : FillState F} (h : Sim k st st') (start off : ℕ)
    (row : RowData F) :
    rowW legacy π cfg start (off + k) st row = rowW legacy π cfg (start + k) off st' row := by
  simp only [rowW, h.inState legacy row, h.1, writeRow_shift]

theorem rowOps_shift {k : ℕ} {st st' : FillState F} (h : Sim k st st') (start off : ℕ)
    (row : RowData F) :
    rowOps legacy STEP π cfg start (off + k) st row = rowOps legacy STEP π cfg (start + k) off st' row := by
  simp only [rowOps, rowW_shift legacy π cfg h, h.inState legacy row]
  congr 2
  rw [← writeIndex_shift]
  congr 2
  rw [h.1]
  cases hn : st'.isNew with
  | true => simp
  | false => simpa using (h.2 (by rw [h.1, hn])).1

theorem fill_shift {k : ℕ} {st st' : FillState F} (h : Sim k st st') (start off : ℕ)
    (rows : List (RowData F)) :
    fillPairs legacy STEP π cfg start (off + k) st rows =
        fillPairs legacy STEP π cfg (start + k) off st' rows ∧
    fillOps legacy STEP π cfg start (off + k) st rows =
        fillOps legacy STEP π cfg (start + k) off st' rows ∧
    (ChecksOK legacy STEP π (off + k) st rows ↔ ChecksOK legacy STEP π off st' rows) := by
  induction rows generalizing off st st' with
  | nil => exact ⟨rfl, rfl, Iff.rfl⟩
  | cons row rest ih =>
    obtain ⟨h1, h2, h3⟩ := ih (h.step legacy STEP π off row) (off + 1)
    rw [show off + 1 + k = off + k + 1 by omega] at h1 h2 h3
    refine ⟨?_, ?_, ?_⟩
    · simp only [fillPairs, rowW_shift legacy π cfg h, h1]
    · simp only [fillOps, rowOps_shift legacy STEP π cfg h, h2]
    · simp only [ChecksOK, rowCheck, h.inState legacy row, h3]

/-- A block boundary: the state after rows whose last control is at most `STEP`. -/
theorem stAfter_isNew (off : ℕ) (st : FillState F) (rows : List (RowData F)) :
    (stAfter legacy STEP π off st rows).isNew =
      match rows.getLast? with
      | none => st.isNew
      | some row => decide (row.control.getD 0 ≤ STEP) := by
  induction rows generalizing off st with
  | nil => rfl
  | cons r rest ih =>
    rw [stAfter, ih]
    cases rest with
    | nil => rfl
    | cons r' rest' => rw [List.getLast?_cons_cons]; cases hx : (r' :: rest').getLast? with
      | none => simp at hx
      | some x => rfl

/-- The initial variables of the loops. -/
def st0 : FillState F := ⟨true, 0, fun _ => 0⟩

/-! ## The chunker -/

/-- The chunks as a structural recursion: `cur` is the current chunk. -/
def chunksFrom (minLen : ℕ) : List (RowData F) → List (RowData F) → List (List (RowData F))
  | cur, [] => if cur.length > 0 then [cur] else []
  | cur, row :: rest =>
    if row.control.getD 0 ≤ STEP ∧ cur.length + 1 ≥ minLen then
      (cur ++ [row]) :: chunksFrom minLen [] rest
    else chunksFrom minLen (cur ++ [row]) rest

/-- The last step of `chunks`. -/
def closeChunks (data : List (RowData F)) (r : ℕ × List (List (RowData F))) :
    List (List (RowData F)) :=
  if r.1 < data.length then r.2 ++ [data.drop r.1] else r.2

theorem chunkLoop_eq (data : List (RowData F)) (minLen : ℕ) (done cur rest : List (RowData F))
    (out : List (List (RowData F))) (hd : data = done ++ cur ++ rest) :
    closeChunks data (chunkLoop STEP data minLen (done.length + cur.length) done.length rest out) =
      out ++ chunksFrom STEP minLen cur rest := by
  induction rest generalizing done cur out with
  | nil =>
    subst hd
    simp only [closeChunks, chunkLoop, chunksFrom, List.append_nil, List.length_append, List.drop_left]
    by_cases h : cur.length > 0
    · rw [if_pos (by omega), if_pos h]
    · rw [if_neg (by omega), if_neg h, List.append_nil]
  | cons row rest ih =>
    simp only [chunkLoop, chunksFrom]
    rw [show done.length + cur.length - done.length + 1 = cur.length + 1 by omega]
    by_cases h : row.control.getD 0 ≤ STEP ∧ cur.length + 1 ≥ minLen
    · rw [if_pos h, if_pos h]
      have := ih (done ++ cur ++ [row]) [] (out ++ [cur ++ [row]]) (by rw [hd]; simp)
      simp only [List.length_append, List.length_cons, List.length_nil, Nat.zero_add, Nat.add_zero] at this
      have e : (data.drop done.length).take (done.length + cur.length + 1 - done.length) =
          cur ++ [row] := by
        rw [hd, List.append_assoc, List.drop_left, show cur ++ row :: rest = (cur ++ [row]) ++ rest by simp,
          List.take_append_of_le_length (by simp; omega), List.take_of_length_le (by simp; omega)]
      rw [e, this]
      simp
    · rw [if_neg h, if_neg h]
      have := ih done (cur ++ [row]) out (by rw [hd]; simp)
      simp only [List.length_append, List.length_cons, List.length_nil, Nat.zero_add] at this
      rw [show done.length + cur.length + 1 = done.length + (cur.length + 1) by omega]
      exact this

theorem chunks_eq (data : List (RowData F)) (minLen : ℕ) :
    chunks STEP data minLen = chunksFrom STEP minLen [] data := by
  have := chunkLoop_eq STEP data minLen [] [] data [] (by simp)
  simpa [chunks, closeChunks] using this

theorem chunksFrom_flatten (minLen : ℕ) (cur rest : List (RowData F)) :
    (chunksFrom STEP minLen cur rest).flatten = cur ++ rest := by
  induction rest generalizing cur with
  | nil =>
    simp only [chunksFrom]
    split
    · simp
    · rename_i h
      have : cur = [] := by
        cases cur with
        | nil => rfl
        | cons a l => simp at h
      simp [this]
  | cons row rest ih =>
    simp only [chunksFrom]
    split
    · simp [ih]
    · simp [ih]

theorem chunksFrom_ne (minLen : ℕ) (cur rest : List (RowData F)) :
    ∀ c ∈ chunksFrom STEP minLen cur rest, c ≠ [] := by
  induction rest generalizing cur with
  | nil =>
    simp only [chunksFrom]
    split
    · rename_i h
      intro c hc
      simp only [List.mem_singleton] at hc
      subst hc
      intro h0; simp [h0] at h
    · simp
  | cons row rest ih =>
    simp only [chunksFrom]
    split
    · intro c hc
      rcases List.mem_cons.mp hc with rfl | hc
      · simp
      · exact ih [] c hc
    · exact ih _

/-- A chunk that is closed before the end of the data. -/
def Closed (minLen : ℕ) (c : List (RowData F)) : Prop :=
  minLen ≤ c.length ∧ ∃ row, c.getLast? = some row ∧ row.control.getD 0 ≤ STEP

theorem chunksFrom_closed (minLen : ℕ) (cur rest : List (RowData F)) :
    ∀ c ∈ (chunksFrom STEP minLen cur rest).dropLast, Closed STEP minLen c := by
  induction rest generalizing cur with
  | nil =>
    simp only [chunksFrom]
    split <;> simp
  | cons row rest ih =>
    simp only [chunksFrom]
    split
    · rename_i h
      intro c hc
      have hcl : Closed STEP minLen (cur ++ [row]) := ⟨by simpa using h.2, row, by simp, h.1⟩
      cases hx : chunksFrom STEP minLen [] rest with
      | nil => rw [hx] at hc; simp at hc
      | cons y ys =>
        rw [hx, List.dropLast_cons_of_ne_nil (by simp)] at hc
        rcases List.mem_cons.mp hc with rfl | hc
        · exact hcl
        · exact ih [] c (by rw [hx]; exact hc)
    · exact ih _

end Circuit.Table
