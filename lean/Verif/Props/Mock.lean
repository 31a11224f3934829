import Verif.Circuit.MockTable
import Verif.Props.TableLoad

/-!
# The hash table under halo2's mock prover: C69

The tests of the crate do not create proofs; they ask `MockProver::verify` whether the circuit is satisfied.
These theorems say what such a verdict means, for every table and every witness.
-/

set_option linter.unusedVariables false
set_option linter.unusedSectionVars false

namespace Props
open Halo2 Circuit Circuit.Table Base.Bn256

/-- **C69.** The mock prover accepts a grid exactly if the grid satisfies the circuit and, when there are
blinding rows, row 0 carries no block mark (there the range lookup reads the last row, a blinding row). It
does not matter whether gates are checked on the usable rows only or on all rows. -/
theorem C69_mock {x : Run Fr} {k : ChipKind} {short : Bool} (hbn : x.IsBn k short) (hx : x.Legal)
    {L' : Layouter Fr} (hL : x.Loads L') {post : List (Op Fr)} {g : Grid Fr} (hl : x.Laid L' post g)
    {rows : ℕ} (h1 : g.usable ≤ rows) (h2 : rows ≤ g.n) :
    x.MockAccepts L' g rows ↔
      x.Satisfies L' g ∧ (0 < g.usable → g.usable < g.n → x.col g 5 0 = 0) := by
  obtain ⟨lw, hm⟩ := hbn.mock
  have hn := hbn.lawful.2
  have := Run.mock_iff lw hm hx hn hL hl h1 h2
  exact ⟨fun h => ⟨this.1 h, Run.mock_head lw h⟩, fun h => this.2 h.1 h.2⟩

/-- **C69.** On the witness of `load` the mock prover accepts exactly the tables made of complete blocks. -/
theorem C69_honest {x : Run Fr} {k : ChipKind} {short : Bool} (hbn : x.IsBn k short) (hx : x.Legal)
    {L' : Layouter Fr} (hL : x.Loads L') {post : List (Op Fr)} {g : Grid Fr} (hh : x.Honest L' post g)
    {rows : ℕ} (h1 : g.usable ≤ rows) (h2 : rows ≤ g.n) :
    x.MockAccepts L' g rows ↔ Complete x.STEP x.step x.table x.calcs := by
  rw [C69_mock hbn hx hL hh.toLaid h1 h2]
  obtain ⟨⟨lw, -⟩, hn⟩ := hbn.lawful
  obtain ⟨s, -, -, -, hiff⟩ := Run.honest_iff lw fr_big hx hn hL hh
  rw [hiff, ← complete_iff]
  exact and_iff_left fun _ _ => hh.head0 lw hx hn hL

/-- **C69.** The mock prover also wants every cell that a gate queries to be assigned in the region that
enables the gate. All regions of `load` pass: the one region of the table in serial mode, the region of
the leading row and those of the chunks in parallel mode, and those of the permutations in either mode. -/
theorem C69_regions {x : Run Fr} {k : ChipKind} {short : Bool} (hbn : x.IsBn k short) :
    (∀ L ws L', assignSerial x.legacy x.STEP x.native x.configured.1 x.table x.calcs L = .ok (ws, L') →
      ∃ R, L'.ops = L.ops ++ R ∧ ∀ p ∈ x.newGates, p.CellsAssigned R) ∧
    (∀ start, ∀ p ∈ x.newGates, p.CellsAssigned (fillCustom (F := Fr) x.configured.1 start).ops) ∧
    (∀ minLen, ∀ data ∈ chunks x.STEP (rowData x.table x.calcs) minLen, ∀ isLast start w,
      fillPartial x.legacy x.STEP x.native x.configured.1 data isLast start = .ok w →
      ∀ p ∈ x.newGates, p.CellsAssigned w.ops) ∧
    (∀ L w o L', x.ch.permute x.configured.1.permuteConfig L w = .ok (o, L') →
      ∃ R, L'.ops = L.ops ++ R ∧ ∀ p ∈ x.newGates, p.CellsAssigned R) ∧
    (∀ threads L ws os L', x.ch.permuteBatch x.configured.1.permuteConfig threads L ws = .ok (os, L') →
      ∃ Rs : List (List (Op Fr)), Rs.length = ws.length ∧ L'.ops = L.ops ++ Rs.flatten ∧
        ∀ R ∈ Rs, ∀ p ∈ x.newGates, p.CellsAssigned R) := by
  obtain ⟨lw, hm⟩ := hbn.mock
  have hn := hbn.lawful.2
  exact ⟨fun L ws L' h => Run.assignSerial_assigned lw hn h, Run.fillCustom_assigned lw,
    fun m data hd b s w h => Run.fillPartial_assigned lw hn m hd b s h,
    fun L w o L' h => Run.permute_assigned lw hm h, fun t L ws os L' h => Run.permuteBatch_assigned lw hm h⟩

-- the demo table is accepted by the mock prover, with every chip and in every mode, below 5 blinding rows
example (k : ChipKind) (short legacy : Bool) (mode : LoadMode) : ∃ (x : Run Fr) (L' : Layouter Fr) (g : Grid Fr),
    x.IsBn k short ∧ x.Legal ∧ x.Loads L' ∧ x.Honest L' [] g ∧ x.calcs = 6 ∧ x.mode = mode ∧
    x.legacy = legacy ∧ g.n = g.usable + 5 ∧ x.MockAccepts L' g g.n ∧ x.MockAccepts L' g g.usable := by
  obtain ⟨x, L', g, h1, h2, -, h3, -, -, h4, h5, -⟩ := demo_blocks k short legacy mode
  obtain ⟨g', h6, h7⟩ : ∃ g', x.Honest L' [] g' ∧ g'.n = g'.usable + 5 :=
    ⟨⟨g.usable + 5, g.usable, g.advice, finalFixed L'.ops, finalSelector L'.ops⟩,
      ⟨⟨by simp, h2.fits, h2.quietFixed, h2.quietSel, by simp, by simp⟩, h2.quietAdvice, h2.advice⟩, rfl⟩
  have hc := C32_only_complete h1 h2
  exact ⟨x, L', g', h1.bn, h1.legal, h1.loaded, h6, h3, h5, h4, h7,
    (C69_honest h1.bn h1.legal h1.loaded h6 (by omega) le_rfl).mpr hc,
    (C69_honest h1.bn h1.legal h1.loaded h6 le_rfl (by omega)).mpr hc⟩

-- a custom gate for which the cell check fails: the queried cell is outside the region
example : ¬ (⟨"g", [.mul (.selector 0) (.advice 0 1)]⟩ : Gate Fr).CellsAssigned
    [.selector 0 3, .advice 0 3 5] := by
  intro h
  obtain ⟨r', h1, op, h2, h3⟩ := h 0 3 List.mem_cons_self
    ⟨_, List.mem_singleton.mpr rfl, List.mem_singleton.mpr rfl⟩ _ (List.mem_singleton.mpr rfl)
    (.advice 0, 1) (List.mem_singleton.mpr rfl)
  simp only [List.mem_cons, List.not_mem_nil, or_false] at h2
  rcases h2 with rfl | rfl
  · exact h3
  · obtain ⟨-, rfl⟩ := h3
    norm_num at h1

/-! ## The test of the Septidon chip -/

/-- The advice cells queried are at most three rows up and one row down. -/
private def Near {F : Type} (e : Expr F) : Prop :=
  ∀ q ∈ e.queries, ∀ c, q.1 = .advice c → -3 ≤ q.2 ∧ q.2 ≤ 1

section Near
open Septidon
variable {F : Type} [Field F]

private theorem Near.const (c : F) : Near (.const c) := fun q h => by cases h
private theorem Near.fixed (c : ℕ) (k : ℤ) : Near (F := F) (.fixed c k) := by
  intro q h c' e
  rw [List.mem_singleton.mp h] at e
  cases e
private theorem Near.add {a b : Expr F} (ha : Near a) (hb : Near b) : Near (a + b) := fun q h =>
  (List.mem_append.mp h).elim (ha q) (hb q)
private theorem Near.mul {a b : Expr F} (ha : Near a) (hb : Near b) : Near (a * b) := fun q h =>
  (List.mem_append.mp h).elim (ha q) (hb q)
private theorem Near.sub {a b : Expr F} (ha : Near a) (hb : Near b) : Near (a - b) := fun q h =>
  (List.mem_append.mp h).elim (ha q) (hb q)
private theorem Near.scaled {a : Expr F} (c : F) (ha : Near a) : Near (.scaled a c) := ha
private theorem Near.query (c : RelCell) (k : ℤ) (h1 : -3 ≤ c.offset + k) (h2 : c.offset + k ≤ 1) :
    Near (c.query k : Expr F) := by
  intro q h c' e
  rw [List.mem_singleton.mp h]
  exact ⟨h1, h2⟩
private theorem Near.pow5 {v : Expr F} (h : Near v) : Near (pow5Expr v) := ((h.mul h).mul (h.mul h)).mul h
private theorem Near.matmul (m : Base.Mds F 3) {v : Fin 3 → Expr F} (h : ∀ i, Near (v i)) (i : Fin 3) :
    Near (matmulExpr m v i) := (((h 0).scaled _).add ((h 1).scaled _)).add ((h 2).scaled _)
private theorem Near.output {s : SBox} (h : s.input.offset = 0) : Near (s.outputExpr : Expr F) :=
  Near.pow5 ((Near.query _ _ (by omega) (by omega)).add (Near.fixed _ _))
private theorem Near.partialRound (m : Base.Mds F 3) {s : SBox} {st : Fin 3 → Expr F} (h0 : s.input.offset = 0)
    (hst : ∀ i, Near (st i)) (i : Fin 3) : Near (partialRoundExpr m s st i) := by
  refine Near.matmul m (fun i => ?_) i
  fin_cases i
  · exact Near.output h0
  · exact hst 1
  · exact hst 2

private theorem Near.loop (m : Base.Mds F 3) (rest : List SBox) : ∀ (ck : SBox) (st : Fin 3 → Expr F),
    ck.input.offset = 0 → (∀ s ∈ rest, s.input.offset = 0) → (∀ i, Near (st i)) →
    (∀ e ∈ (septupleLoop m ck st rest).1, Near e) ∧ ∀ i, Near ((septupleLoop m ck st rest).2 i) := by
  induction rest with
  | nil => intro ck st h0 _ hst; exact ⟨by simp [septupleLoop], Near.partialRound m h0 hst⟩
  | cons s rest ih =>
    intro ck st h0 h1 hst
    have hp := Near.partialRound m h0 hst
    have hs : s.input.offset = 0 := h1 s (by simp)
    obtain ⟨i1, i2⟩ := ih s _ hs (fun s hs => h1 s (by simp [hs])) hp
    refine ⟨?_, i2⟩
    simp only [septupleLoop, List.forall_mem_cons]
    exact ⟨(hp 0).sub (Near.query _ _ (by omega) (by omega)), i1⟩

private theorem Near.sept (m : Base.Mds F 3) (a f : ℕ) : (∀ e ∈ (septExprs m (config a f)).1, Near e) ∧
    ∀ i, Near ((septExprs m (config a f)).2 i) :=
  Near.loop m _ _ _ rfl (following_offset a f) fun i =>
    Near.query _ _ (by rw [sept_offset]; omega) (by rw [sept_offset]; omega)

private theorem Near.select {s t e : Expr F} (hs : Near s) (ht : Near t) (he : Near e) :
    Near (selectExpr s t e) := (hs.mul ht).add (((Near.const 1).sub hs).mul he)

private theorem Near.derive (c : ℕ) : Near (deriveSelector c : Expr F) :=
  ((((((((Near.fixed c 0).add (Near.fixed c _)).add (Near.fixed c _)).add (Near.fixed c _)).add
    (Near.fixed c _)).add (Near.fixed c _)).add (Near.fixed c _)).add (Near.fixed c _))

private theorem Near.gate {q : Expr F} (hq : Near q) {l : List (Expr F)} (h : ∀ e ∈ l, Near e) :
    ∀ e ∈ withSelector q l, Near e := by
  intro e he
  obtain ⟨e', he', rfl⟩ := List.mem_map.mp he
  exact hq.mul (h e' he')

private theorem gates_near (m : Base.Mds F 3) (rc : ℕ → Fin 3 → F) (a f : ℕ) :
    ∀ p ∈ gates m rc (config a f), ∀ e ∈ p.polys, Near e := by
  have hquery : ∀ e ∈ (gateQuery : Gate F).polys, Near e := by
    intro e he
    simp only [gateQuery, List.mem_singleton] at he
    subst he
    exact Near.const 0
  have hin : ∀ k : Fin 3, -3 ≤ (transitionInput (config a f).transition k).offset + 0 ∧
      (transitionInput (config a f).transition k).offset + 0 ≤ 1 := by
    intro k; fin_cases k <;> simp [transitionInput]
  simp only [gates, List.forall_mem_cons, List.not_mem_nil, false_imp_iff, implies_true, and_true]
  refine ⟨hquery, hquery, hquery, Near.gate (Near.derive _) (Near.sept m a f).1, ?_, ?_, ?_⟩
  · refine Near.gate (Near.fixed _ _) fun e he => ?_
    obtain ⟨i, -, rfl⟩ := List.mem_map.mp he
    refine Near.sub (Near.matmul m (fun k => ?_) i) (Near.query _ _ ?_ ?_)
    · have hc := fun k => Near.query (F := F) _ _ (hin k).1 (hin k).2
      fin_cases k
      · exact Near.pow5 ((hc 0).add (Near.const _))
      · exact hc 1
      · exact hc 2
    · rw [sept_offset]; norm_num
    · rw [sept_offset]; norm_num
  · refine Near.gate (Near.derive _) fun e he => ?_
    obtain ⟨i, -, rfl⟩ := List.mem_map.mp he
    refine Near.sub (Near.select ((Near.fixed _ _).add (Near.fixed _ _)) (Near.query _ _ (hin i).1 (hin i).2)
      (Near.query _ _ ?_ ?_)) (Near.matmul m (fun k => Near.output (full_offset a f k)) i)
    · rw [full_offset]; norm_num
    · rw [full_offset]; norm_num
  · refine Near.gate (Near.derive _) fun e he => ?_
    obtain ⟨i, -, rfl⟩ := List.mem_map.mp he
    refine Near.sub (Near.select (Near.fixed _ _) (Near.query _ _ ?_ ?_) (Near.query _ _ ?_ ?_))
      ((Near.sept m a f).2 i)
    · simp only [RelCell.rotated, full_offset]; norm_num
    · simp only [RelCell.rotated, full_offset]; norm_num
    · rw [sept_offset]; norm_num
    · rw [sept_offset]; norm_num

end Near

private theorem mock_congr {F : Type} [Field F] (g g' : Grid F) (r : ℕ) (hu : g'.usable = g.usable) (hn : g'.n = g.n)
    (hf : g'.fixed = g.fixed) (hs : g'.selector = g.selector)
    (ha : ∀ c k, -3 ≤ k → k ≤ 1 → g'.advice c (g.rot r k) = g.advice c (g.rot r k)) :
    ∀ e : Expr F, Near e → e.mock g' r = e.mock g r
  | .const _, _ => rfl
  | .selector _, _ => by simp only [Expr.mock, hs]
  | .fixed i k, _ => by
    have : g'.rot r k = g.rot r k := by unfold Grid.rot; rw [hn]
    simp only [Expr.mock, hf, this]
  | .advice i k, h => by
    have : g'.rot r k = g.rot r k := by unfold Grid.rot; rw [hn]
    obtain ⟨h1, h2⟩ := h _ (List.mem_singleton.mpr rfl) i rfl
    simp only [Expr.mock, this, hu, ha i k h1 h2]
  | .neg e, h => by simp only [Expr.mock, mock_congr g g' r hu hn hf hs ha e h]
  | .add a b, h => by
    simp only [Expr.mock, mock_congr g g' r hu hn hf hs ha a fun q hq => h q (List.mem_append_left _ hq),
      mock_congr g g' r hu hn hf hs ha b fun q hq => h q (List.mem_append_right _ hq)]
  | .mul a b, h => by
    simp only [Expr.mock, mock_congr g g' r hu hn hf hs ha a fun q hq => h q (List.mem_append_left _ hq),
      mock_congr g g' r hu hn hf hs ha b fun q hq => h q (List.mem_append_right _ hq)]
  | .scaled a _, h => by simp only [Expr.mock, mock_congr g g' r hu hn hf hs ha a h]

/-- **C69.** The only test of the Septidon chip (`septidon/tests.rs`) calls `verify_at_rows(0..1, 0..0)`, which
checks the gates on row 0 and nothing else. A grid that passes still passes with any values in the cells
of the final state: the test does not see whether the constraints determine the output. -/
theorem C69_septidon_test {F : Type} [Field F] (m : Base.Mds F 3) (rc : ℕ → Fin 3 → F) (g : Grid F)
    (hn : 11 ≤ g.n) (h : ∀ p ∈ (Septidon.configure m rc ⟨0, 0, 0, [], [], []⟩).2.gates, p.Mock g 1) (v : Fin 3 → F) :
    ∃ g' : Grid F, g'.n = g.n ∧ g'.usable = g.usable ∧ g'.fixed = g.fixed ∧ g'.selector = g.selector ∧
      (∀ k, g'.advice ((Septidon.configure m rc ⟨0, 0, 0, [], [], []⟩).1.finalCells k).column
        ((Septidon.configure m rc ⟨0, 0, 0, [], [], []⟩).1.finalCells k).offset.toNat = v k) ∧
      (∀ k, g'.advice ((Septidon.configure m rc ⟨0, 0, 0, [], [], []⟩).1.initialCells k).column 0 =
        g.advice ((Septidon.configure m rc ⟨0, 0, 0, [], [], []⟩).1.initialCells k).column 0) ∧
      ∀ p ∈ (Septidon.configure m rc ⟨0, 0, 0, [], [], []⟩).2.gates, p.Mock g' 1 := by
  rw [Septidon.configure_eq] at *
  simp only [List.nil_append] at *
  refine ⟨⟨g.n, g.usable, fun c r => if r = 5 then v 0 else if r = 6 then v 1 else if r = 7 then v 2 else
    g.advice c r, g.fixed, g.selector⟩, rfl, rfl, rfl, rfl, fun k => ?_, fun k => rfl, fun p hp e he r hr => ?_⟩
  · fin_cases k <;> rfl
  · refine (mock_congr g _ r ?_ ?_ ?_ ?_ (fun c k h1 h2 => ?_) e (gates_near m rc 0 0 p hp e he)).trans
      (h p hp e he r hr)
    · rfl
    · rfl
    · rfl
    · rfl
    obtain rfl : r = 0 := by omega
    have : g.rot 0 k = 0 ∨ g.rot 0 k = 1 ∨ 8 ≤ g.rot 0 k := by
      obtain h | h | h : k = 0 ∨ k = 1 ∨ k < 0 := by omega
      · rw [h, g.rot_zero (by omega)]; exact Or.inl rfl
      · rw [h, g.rot_of_lt 1 (by norm_num) (by omega)]; exact Or.inr (Or.inl rfl)
      · right; right
        have e2 : ((((0 : ℕ) : ℤ) + k) % (g.n : ℤ)) = (g.n : ℤ) + k := by
          rw [← Int.add_emod_right]
          rw [Int.emod_eq_of_lt (by omega) (by omega)]
          omega
        unfold Grid.rot
        rw [e2]
        omega
    simp only
    rw [if_neg (by omega), if_neg (by omega), if_neg (by omega)]

-- the test circuit: three regions in 26 usable rows. All rows pass, so row 0 does.
example {F : Type} [Field F] (m : Base.Mds F 3) (rc : ℕ → Fin 3 → F)
    (hc : ∀ r, 4 ≤ r → r < 61 → ∀ k, k ≠ 0 → rc r k = 0) (w : Words F 3) :
    ∃ g : Grid F, g.n = 32 ∧ g.usable = 26 ∧
      (∀ p ∈ (Septidon.configure m rc ⟨0, 0, 0, [], [], []⟩).2.gates, p.Mock g 26) ∧
      ∀ p ∈ (Septidon.configure m rc ⟨0, 0, 0, [], [], []⟩).2.gates, p.Mock g 1 := by
  rw [Septidon.configure_eq]
  simp only [List.nil_append]
  have hap : ([(w, 0), (w, 8), (w, 16)] : List (Words F 3 × ℕ)).Pairwise
      fun q q' => q.2 + 8 ≤ q'.2 ∨ q'.2 + 8 ≤ q.2 := by simp
  obtain ⟨ops, hops⟩ : ∃ ops, ops = Septidon.placedOps 0 0 m rc [(w, 0), (w, 8), (w, 16)] := ⟨_, rfl⟩
  have hfit : Fits ops 26 := by
    rw [hops]
    intro o ho
    obtain ⟨q, hq, h | ⟨k, h⟩⟩ := (Septidon.mem_placedOps 0 0 m rc hc _ _).mp ho
    · rcases h.shape with ⟨_, _, _, rfl, h⟩ | ⟨_, _, _, rfl, h⟩ <;> fin_cases hq <;> simp [Op.bottom] at h ⊢ <;> omega
    · rw [h]; simp [Op.bottom]
  refine ⟨⟨32, 26, finalAdvice ops, finalFixed ops, fun _ _ => false⟩, rfl, rfl, ?_⟩
  obtain ⟨g, hg⟩ : ∃ g : Grid F, g = ⟨32, 26, finalAdvice ops, finalFixed ops, fun _ _ => false⟩ := ⟨_, rfl⟩
  have h1 := (Septidon.placed_complete 0 0 m rc hc _ hap g (by rw [hg]; norm_num)
    (by rw [hg, ← hops]; exact hfit) (by rw [hg, ← hops]; exact fun _ _ _ _ _ => rfl)
    (by rw [hg, ← hops]; exact fun _ _ _ _ _ => rfl)).1
  have hm := Septidon.marks_of 0 0 m rc hc _ hap g (by rw [hg, ← hops]; exact fun o ho => (hfit o ho).trans (by norm_num))
    (by rw [hg, ← hops]; exact fun _ _ => rfl)
  have h2 := Septidon.gates_unpoisoned 0 0 m rc _ hm (by rw [hg]; norm_num) (by rw [hg]; simp)
  rw [← hg]
  have h3 : ∀ p ∈ Septidon.gates m rc (Septidon.config 0 0), p.Mock g 26 := fun p hp =>
    ((h2 p hp).mock_iff (by rw [hg]) (by rw [hg]; norm_num)).mpr (h1 p hp)
  exact ⟨h3, fun p hp e he r hr => h3 p hp e he r (by omega)⟩

end Props
