import Verif.Circuit.Chip
import Verif.Circuit.Builder

/-!
# Model of the hash table circuit

Models `SpongeConfig` and `SpongeChip`, `/repo/poseidon-circuit/src/hash.rs` lines 48-227 and 332-905,
generic over the permutation chip `PC` (`Chip`).
-/

set_option linter.unusedVariables false

open Halo2

namespace Circuit

variable {F : Type} [Field F]

/-- `SpongeConfig<F, PC>`, hash.rs:50-61. -/
structure SpongeConfig (PCConfig : Type) where
  permuteConfig : PCConfig
  hashTable : Fin 6 → ℕ
  aux : Fin 6 → ℕ
  controlAux : ℕ
  sContinue : ℕ
  stepRange : ℕ
  qEnable : ℕ
  sCustom : ℕ
  step : ℕ

/-- `F::from_u128(x as u128 * HASHABLE_DOMAIN_SPEC)`, hash.rs:150, 441, 601, 739. The product wraps at
`2^128` as in release builds (debug builds would panic); C42 shows that it never does. -/
def specFlag (legacy : Bool) (x : ℕ) : F := ((x * Base.domainSpec legacy % 2 ^ 128 : ℕ) : F)

section Configure

/-- The columns used by the gates of `configure_sub`. -/
structure TableCols where
  hashTable : Fin 6 → ℕ
  aux : Fin 6 → ℕ
  controlAux : ℕ
  sContinue : ℕ
  stepRange : ℕ
  qEnable : ℕ
  sCustom : ℕ

variable (c : TableCols)

/-- "custom row", hash.rs:101-109. -/
def customRowGate : List (Expr F) :=
  let qCustom := Expr.selector c.sCustom
  [qCustom * .advice (c.hashTable 1) 0,
   qCustom * .advice (c.hashTable 2) 0,
   qCustom * .advice (c.hashTable 3) 0]

/-- "control constrain", hash.rs:111-133. -/
def controlConstrainGate : List (Expr F) :=
  let qEnable := Expr.fixed c.qEnable 0
  let ctrl := Expr.advice (c.hashTable 3) 0
  let ctrlBool := ctrl * .advice c.controlAux 0
  let sContinue := Expr.advice c.sContinue 0
  [qEnable * sContinue * (.const 1 - sContinue),
   qEnable * ctrl * (.const 1 - ctrlBool),
   qEnable * sContinue * (.const 1 - ctrlBool),
   qEnable * (.const 1 - sContinue - .advice (c.hashTable 5) 0)]

/-- "control step", hash.rs:135-154. -/
def controlStepGate (legacy : Bool) (step : ℕ) : List (Expr F) :=
  let sContinue := Expr.advice c.sContinue 0
  let qEnable := Expr.fixed c.qEnable 0 * sContinue
  let ctrl := Expr.advice (c.hashTable 3) 0
  let ctrlPrev := Expr.advice (c.hashTable 3) (-1)
  let ctrlBool := ctrl * .advice c.controlAux 0
  [qEnable * (ctrl + .const (specFlag legacy step) - ctrlPrev),
   qEnable * (.const 1 - ctrlBool)]

/-- The lookup input of "control range check", hash.rs:156-161. -/
def controlRangeInput : Expr F := .advice (c.hashTable 5) 0 * .advice (c.hashTable 3) (-1)

/-- "hash index constrain", hash.rs:163-176. -/
def hashIndexGate : List (Expr F) :=
  let qEnable := Expr.fixed c.qEnable 0
  let sContinueHash := Expr.advice c.sContinue 0
  let hashInd := Expr.advice (c.hashTable 0) 0
  let hashPrev := Expr.advice (c.hashTable 0) (-1)
  let hashOut := Expr.advice (c.aux 5) (-1)
  [qEnable * sContinueHash * (hashInd - hashPrev),
   qEnable * (.const 1 - sContinueHash) * (hashOut - hashPrev)]

/-- "input constrain", hash.rs:178-211. `state_in[1..]` is `aux[1..3]`, zipped with
`state_for_next_in = aux[3..5]` and `hash_inp = hash_table[1..3]`. -/
def inputConstrainGate : List (Expr F) :=
  let qEnable := Expr.fixed c.qEnable 0
  let sContinueHash := Expr.advice c.sContinue 0
  let inpPoly (inp prevInp extInp : ℕ) : Expr F :=
    qEnable * (.advice prevInp (-1) * sContinueHash + .advice extInp 0 - .advice inp 0)
  let domainSpec := Expr.advice (c.hashTable 4) 0
  let inpHash := Expr.advice (c.aux 0) 0
  let inpHashPrev := Expr.advice (c.aux 5) (-1)
  let inpHashInit := Expr.advice (c.hashTable 3) 0 + domainSpec
  [inpPoly (c.aux 1) (c.aux 3) (c.hashTable 1),
   inpPoly (c.aux 2) (c.aux 4) (c.hashTable 2),
   qEnable * (.const 1 - sContinueHash) * (inpHash - inpHashInit),
   qEnable * sContinueHash * (inpHash - inpHashPrev - domainSpec)]

/-- `SpongeConfig::configure_sub`, hash.rs:75-226. The arguments are the cargo feature `legacy`, the
`q_enable` column and the six table columns (allocated by the caller), and `step`. -/
def configureSub (ch : Chip F 3) (legacy : Bool) (qEnable : ℕ) (hashTable : Fin 6 → ℕ) (step : ℕ) :
    StateM (CS F) (SpongeConfig ch.Config) := do
  let sCustom ← CS.newSelector
  let a0 ← CS.adviceColumn
  let a1 ← CS.adviceColumn
  let a2 ← CS.adviceColumn
  let a3 ← CS.adviceColumn
  let a4 ← CS.adviceColumn
  let a5 ← CS.adviceColumn
  let aux : Fin 6 → ℕ := ![a0, a1, a2, a3, a4, a5]
  CS.enableEquality (.advice (aux 0))
  CS.enableEquality (.advice (aux 1))
  CS.enableEquality (.advice (aux 2))
  CS.enableEquality (.advice (aux 3))
  CS.enableEquality (.advice (aux 4))
  CS.enableEquality (.advice (aux 5))
  CS.enableEquality (.advice (hashTable 0))
  let sContinue ← CS.adviceColumn
  CS.enableEquality (.advice sContinue)
  let controlAux ← CS.adviceColumn
  let stepRange ← CS.fixedColumn
  let c : TableCols := ⟨hashTable, aux, controlAux, sContinue, stepRange, qEnable, sCustom⟩
  CS.createGate "custom row" (customRowGate c)
  CS.createGate "control constrain" (controlConstrainGate c)
  CS.createGate "control step" (controlStepGate c legacy step)
  CS.lookup "control range check" (controlRangeInput c) stepRange
  CS.createGate "hash index constrain" (hashIndexGate c)
  CS.createGate "input constrain" (inputConstrainGate c)
  let permuteConfig ← ch.configure
  return ⟨permuteConfig, hashTable, aux, controlAux, sContinue, stepRange, qEnable, sCustom, step⟩

end Configure

/-- One item of the zipped iterators: `((inp, control), (domain, check))`, hash.rs:431-434, 811. -/
structure RowData (F : Type) where
  inp : Option (F × F)
  control : Option ℕ
  domain : Option F
  check : Option F

/-- The iterators of hash.rs:398-422 (and 781-804), zipped: each vector of the table followed by
`None` for ever, cut at `calcs` items. -/
def rowData (t : HashTable F) (calcs : ℕ) : List (RowData F) :=
  (List.range calcs).map fun i =>
    ⟨t.inputs[i]?, t.controls[i]?, (t.domain[i]?).join, (t.checks[i]?).join⟩

/-- The local variables of the fill loops that survive an iteration, hash.rs:426-428, 592-594. -/
structure FillState (F : Type) where
  isNew : Bool
  processStart : ℕ
  state : Fin 3 → F

/-- `PermutedStatePair` of one row: its input words and output words. -/
abbrev WordPair (F : Type) := Words F 3 × Words F 3

section Load
variable [DecidableEq F] (legacy : Bool) (STEP : ℕ)
  (native : (Fin 3 → F) → Except Panic (Fin 3 → F)) {P : Type} (cfg : SpongeConfig P)

/-- `fill_hash_tbl_custom`, hash.rs:364-384. -/
def fillCustom (start : ℕ) : W F ℕ := do
  enableSelector start cfg.sCustom 0
  for' (List.ofFn cfg.hashTable) fun col => assignAdvice start col 0 0
  for' (List.ofFn cfg.aux) fun col => assignAdvice start col 0 0
  for' [cfg.controlAux] fun col => assignAdvice start col 0 0
  for' [cfg.sContinue] fun col => assignAdvice start col 0 0
  return 1
where
  /-- `for x in xs { f(x)?; }` -/
  for' {α β : Type} (xs : List α) (f : α → W F β) : W F Unit := ⟨(), xs.flatMap fun x => (f x).ops⟩

/-- The writes of one row that do not depend on the rest of the table: hash.rs:473-534. Returns the
cells `c_start` and `c_end`. -/
def writeRow (start offset : ℕ) (stateStart state : Fin 3 → F) (inp : F × F) (flag domain : F)
    (isNew : Bool) : W F (WordPair F) := do
  let _ ← assignFixed start cfg.qEnable offset 1
  let s0 ← assignAdvice start (cfg.aux 0) offset (stateStart 0)
  let s1 ← assignAdvice start (cfg.aux 1) offset (stateStart 1)
  let s2 ← assignAdvice start (cfg.aux 2) offset (stateStart 2)
  let e0 ← assignAdvice start (cfg.aux 5) offset (state 0)
  let e1 ← assignAdvice start (cfg.aux 3) offset (state 1)
  let e2 ← assignAdvice start (cfg.aux 4) offset (state 2)
  let _ ← assignAdvice start (cfg.hashTable 1) offset inp.1
  let _ ← assignAdvice start (cfg.hashTable 2) offset inp.2
  let _ ← assignAdvice start (cfg.hashTable 3) offset flag
  let _ ← assignAdvice start (cfg.hashTable 4) offset domain
  let _ ← assignAdvice start (cfg.hashTable 5) offset (if isNew then 1 else 0)
  let _ ← assignAdvice start cfg.controlAux offset (if flag = 0 then 0 else flag⁻¹)
  let _ ← assignAdvice start cfg.sContinue offset (if isNew then 0 else 1)
  return (![s0, s1, s2], ![e0, e1, e2])

/-- hash.rs:538-550: write the digest on the rows `process_start..=offset`. -/
def writeIndex (start processStart offset : ℕ) (hash : F) : W F Unit :=
  ⟨(), (List.range' processStart (offset + 1 - processStart)).flatMap fun ith =>
    (assignAdvice start (cfg.hashTable 0) ith hash).ops⟩

/-- One iteration of the loop of `fill_hash_tbl_body`, hash.rs:436-556. -/
def fillRow (start offset : ℕ) (st : FillState F) (row : RowData F) :
    Except Panic (W F (WordPair F × FillState F)) := do
  let control := row.control.getD 0
  let domain := row.domain.getD 0
  let flag : F := specFlag legacy control
  let state0 := if st.isNew then flag + domain else st.state 0
  let processStart := if st.isNew then offset else st.processStart
  let inp := row.inp.getD (0, 0)
  let stateStart : Fin 3 → F :=
    ![state0, if st.isNew then inp.1 else st.state 1 + inp.1,
      if st.isNew then inp.2 else st.state 2 + inp.2]
  let state ← native stateStart
  match row.check with
  | some ck => if ck ≠ state 0 then throw .checkMismatch
  | none => pure ()
  let currentHash := state 0
  let isNew := decide (control ≤ STEP)
  return do
    let words ← writeRow cfg start offset stateStart state inp flag domain st.isNew
    if isNew then writeIndex cfg start processStart offset currentHash
    return (words, ⟨isNew, processStart, state⟩)

/-- The loop of `fill_hash_tbl_body`, hash.rs:431-557, from row `offset` on. -/
def fillRows (start : ℕ) : ℕ → FillState F → List (RowData F) →
    Except Panic (W F (List (WordPair F)))
  | _, _, [] => .ok (pure [])
  | offset, st, row :: rest => do
    let x ← fillRow legacy STEP native cfg start offset st row
    let y ← fillRows start (offset + 1) x.val.2 rest
    return ⟨x.val.1 :: y.val, x.ops ++ y.ops⟩

/-- `fill_hash_tbl_body`, hash.rs:386-563. -/
def fillBody (t : HashTable F) (calcs start beginOffset : ℕ) :
    Except Panic (W F (List (WordPair F))) := do
  if ¬ (calcs ≥ t.inputs.length ∧ calcs ≥ t.controls.length) then throw .calcsTooSmall
  let rows := rowData t calcs
  let x ← fillRows legacy STEP native cfg start beginOffset ⟨true, 0, fun _ => 0⟩ rows
  -- `last_offset` is the offset of the last iteration, 0 if there was none
  let lastOffset := if rows.length = 0 then 0 else rows.length - 1 + beginOffset
  return do
    let ws ← x
    enableSelector start cfg.sCustom lastOffset
    return ws

/-- One iteration of the loop of `fill_hash_tbl_body_partial`, hash.rs:596-717 (a copy of the other
loop in the code, with the end-of-row steps in another order). -/
def fillRowPartial (start offset : ℕ) (st : FillState F) (row : RowData F) :
    Except Panic (W F (WordPair F × FillState F)) := do
  let control := row.control.getD 0
  let domain := row.domain.getD 0
  let flag : F := specFlag legacy control
  let state0 := if st.isNew then flag + domain else st.state 0
  let processStart := if st.isNew then offset else st.processStart
  let inp := row.inp.getD (0, 0)
  let stateStart : Fin 3 → F :=
    ![state0, if st.isNew then inp.1 else st.state 1 + inp.1,
      if st.isNew then inp.2 else st.state 2 + inp.2]
  let state ← native stateStart
  match row.check with
  | some ck => if ck ≠ state 0 then throw .checkMismatch
  | none => pure ()
  let currentHash := state 0
  let isNew := decide (control ≤ STEP)
  return do
    let words ← writeRow cfg start offset stateStart state inp flag domain st.isNew
    if isNew then writeIndex cfg start processStart offset currentHash
    return (words, ⟨isNew, processStart, state⟩)

/-- The loop of `fill_hash_tbl_body_partial`, hash.rs:596-717. -/
def fillRowsPartial (start : ℕ) : ℕ → FillState F → List (RowData F) →
    Except Panic (W F (List (WordPair F)))
  | _, _, [] => .ok (pure [])
  | offset, st, row :: rest => do
    let x ← fillRowPartial legacy STEP native cfg start offset st row
    let y ← fillRowsPartial start (offset + 1) x.val.2 rest
    return ⟨x.val.1 :: y.val, x.ops ++ y.ops⟩

/-- `fill_hash_tbl_body_partial` on its second call, hash.rs:590-722. -/
def fillPartial (data : List (RowData F)) (isLast : Bool) (start : ℕ) :
    Except Panic (W F (List (WordPair F))) := do
  let x ← fillRowsPartial legacy STEP native cfg start 0 ⟨true, 0, fun _ => 0⟩ data
  return do
    let ws ← x
    if isLast then enableSelector start cfg.sCustom (data.length - 1)
    return ws

/-- `fill_hash_tbl_body_partial` on its first call, hash.rs:577-588: only the last row of one column is
shown to the floor planner. -/
def fillPartialShape (data : List (RowData F)) : List (Op F) :=
  (assignAdvice 0 (cfg.aux 0) (data.length - 1) (0 : F)).ops

/-- The loop of hash.rs:824-831: `i` is the index of the next item, `begin_` is `cur_chunk_begin`. -/
def chunkLoop (data : List (RowData F)) (minLen : ℕ) :
    ℕ → ℕ → List (RowData F) → List (List (RowData F)) → ℕ × List (List (RowData F))
  | _, begin_, [], output => (begin_, output)
  | i, begin_, row :: rest, output =>
    if row.control.getD 0 ≤ STEP ∧ i - begin_ + 1 ≥ minLen then
      chunkLoop data minLen (i + 1) (i + 1) rest
        (output ++ [(data.drop begin_).take (i + 1 - begin_)])
    else chunkLoop data minLen (i + 1) begin_ rest output

/-- The chunks of the parallel assignment, hash.rs:820-838. -/
def chunks (data : List (RowData F)) (minLen : ℕ) : List (List (RowData F)) :=
  let (begin_, output) := chunkLoop STEP data minLen 0 0 data []
  if begin_ < data.length then output ++ [data.drop begin_] else output

/-- hash.rs:730-744: the range table `0, SPEC, ..., STEP * SPEC`. -/
def rangeEntries : List F := (List.range (STEP + 1)).map fun i => specFlag legacy i

/-- hash.rs:765-772, the serial assignment. -/
def assignSerial (t : HashTable F) (calcs : ℕ) (L : Layouter F) :
    Except Panic (List (WordPair F) × Layouter F) :=
  L.assignRegion fun start => do
    let c := fillCustom cfg start
    let x ← fillBody legacy STEP native cfg t calcs start c.val
    return do
      let _ ← c
      x

/-- hash.rs:773-869, the parallel assignment with `threads = available_parallelism()` (which is not
zero: `NonZeroUsize`). -/
def assignParallel (t : HashTable F) (calcs threads : ℕ) (L : Layouter F) :
    Except Panic (List (WordPair F) × Layouter F) := do
  let (_, L) ← L.assignRegion fun start => .ok (fillCustom cfg start)
  let minLen := calcs / threads + 1
  let cs := chunks STEP (rowData t calcs) minLen
  let assignments := cs.zipIdx.map fun (data, i) =>
    (fillPartialShape cfg data,
      fillPartial legacy STEP native cfg data (decide (i = cs.length - 1)))
  let (ret, L) ← L.assignRegions assignments
  return (ret.flatten, L)

/-- hash.rs:890-903: tie the outputs of the table to those of the permutation chip. -/
def constrainFinal (outs finals : List (Words F 3)) : W F Unit :=
  ⟨(), (outs.zip finals).flatMap fun (s, f) =>
    (List.finRange 3).flatMap fun k => (constrainEqual (s k).cell (f k).cell).ops⟩

/-- How `load` assigns the table, hash.rs:746-763: serially (the default, or
`CIRCUIT_ASSIGNMENT_TYPE=serial`), or in parallel with the given number of threads. -/
inductive LoadMode where
  | serial
  | parallel (threads : ℕ)

/-- `SpongeChip::load`, hash.rs:727-904, of the chip made by `construct(config, data, calcs)`,
hash.rs:352-362. That halo2 refuses a table column that has been filled before is left out here and added in
`Circuit/Reload.lean`. -/
def load (ch : Chip F 3) (cfg : SpongeConfig ch.Config) (t : HashTable F) (calcs : ℕ)
    (mode : LoadMode) (L : Layouter F) : Except Panic (Layouter F) := do
  let L := L.assignTable cfg.stepRange (rangeEntries legacy STEP)
  match mode with
  | .serial => do
    let (pairs, L) ← assignSerial legacy STEP native cfg t calcs L
    let (finals, L) ← mapPermute (ch.permute cfg.permuteConfig) L (pairs.map Prod.fst)
    let (_, L) ← L.assignRegion fun _ => .ok (constrainFinal (pairs.map Prod.snd) finals)
    return L
  | .parallel threads => do
    let (pairs, L) ← assignParallel legacy STEP native cfg t calcs threads L
    let (finals, L) ← ch.permuteBatch cfg.permuteConfig threads L (pairs.map Prod.fst)
    let (_, L) ← L.assignRegion fun _ => .ok (constrainFinal (pairs.map Prod.snd) finals)
    return L

/-- hash.rs:773-869, the parallel assignment, with the operations of the threads in the order of a
scheduler. -/
def assignParallelBy (σ : Scheduler F) (t : HashTable F) (calcs threads : ℕ) (L : Layouter F) :
    Except Panic (List (WordPair F) × Layouter F) := do
  let (_, L) ← L.assignRegion fun start => .ok (fillCustom cfg start)
  let minLen := calcs / threads + 1
  let cs := chunks STEP (rowData t calcs) minLen
  let assignments := cs.zipIdx.map fun (data, i) =>
    (fillPartialShape cfg data,
      fillPartial legacy STEP native cfg data (decide (i = cs.length - 1)))
  let (ret, L) ← L.assignRegionsBy σ assignments
  return (ret.flatten, L)

/-- `SpongeChip::load`, hash.rs:727-904, as `load`, with the operations of the threads in the order of two
schedulers: `σ` for the assignment of the table, `τ` for `permute_batch`. -/
def loadBy (σ τ : Scheduler F) (ch : Chip F 3) (cfg : SpongeConfig ch.Config) (t : HashTable F) (calcs : ℕ)
    (mode : LoadMode) (L : Layouter F) : Except Panic (Layouter F) := do
  let L := L.assignTable cfg.stepRange (rangeEntries legacy STEP)
  match mode with
  | .serial => do
    let (pairs, L) ← assignSerial legacy STEP native cfg t calcs L
    let (finals, L) ← mapPermute (ch.permute cfg.permuteConfig) L (pairs.map Prod.fst)
    let (_, L) ← L.assignRegion fun _ => .ok (constrainFinal (pairs.map Prod.snd) finals)
    return L
  | .parallel threads => do
    let (pairs, L) ← assignParallelBy legacy STEP native cfg σ t calcs threads L
    let (finals, L) ← ch.permuteBatchBy τ cfg.permuteConfig threads L (pairs.map Prod.fst)
    let (_, L) ← L.assignRegion fun _ => .ok (constrainFinal (pairs.map Prod.snd) finals)
    return L

/-- A layouter whose columns are all used up to row `s`: a region assigned to it starts there. -/
def levelLayouter (s : ℕ) : Layouter F := ⟨fun _ => s, none, []⟩

/-- The rows that a floor planner reserves for a permutation: the row count of its region. -/
def permuteRows (ch : Chip F 3) (cfg : ch.Config) : ℕ :=
  match ch.permute cfg (levelLayouter 0) (fun _ => ⟨⟨.advice 0, 0⟩, 0⟩) with
  | .ok (_, L) => Layouter.shapeRows L.ops
  | .error _ => 0

/-- The loop of permutations of `load`, hash.rs:871-882, when the floor planner puts the region of the
`i`-th permutation at row `p i`. -/
def permutePlanned (permute : Layouter F → Words F 3 → Except Panic (Words F 3 × Layouter F)) :
    (ℕ → ℕ) → List (Words F 3) → Except Panic (List (Words F 3) × List (Op F))
  | _, [] => .ok ([], [])
  | p, w :: ws => do
    let (o, L) ← permute (levelLayouter (p 0)) w
    let (os, ops) ← permutePlanned permute (fun i => p (i + 1)) ws
    return (o :: os, L.ops ++ ops)

/-- `SpongeChip::load` in serial mode, hash.rs:727-904, under another floor planner than the simple one:
the region of the table is put at row `plan 0` and the region of the `i`-th permutation at row
`plan (i + 1)`. (The region of the last copy constraints has no cells. Simplification: the column ends
of the result are those of `L`; they are of no use, as the planner goes by its own plan.) -/
def loadPlanned (ch : Chip F 3) (cfg : SpongeConfig ch.Config) (t : HashTable F) (calcs : ℕ)
    (plan : ℕ → ℕ) (L : Layouter F) : Except Panic (Layouter F) := do
  let L := L.assignTable cfg.stepRange (rangeEntries legacy STEP)
  let (pairs, Lt) ← assignSerial legacy STEP native cfg t calcs (levelLayouter (plan 0))
  let (finals, ops) ← permutePlanned (ch.permute cfg.permuteConfig) (fun i => plan (i + 1))
    (pairs.map Prod.fst)
  return {L with ops := L.ops ++ Lt.ops ++ ops ++ (constrainFinal (pairs.map Prod.snd) finals).ops}

end Load
end Circuit
