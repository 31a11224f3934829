import Verif.Circuit.Blinding
import Verif.Props.Mock
import Verif.Props.TablePlan
import Verif.Props.HashCircuit

/-!
# Reserved rows and the size of the circuits: C76
-/

set_option linter.unusedVariables false
set_option linter.unusedSectionVars false
set_option linter.unusedSimpArgs false

namespace Props
open Halo2 Circuit Circuit.Table Base.Bn256

/-! ## Specification -/

/-- The rotations at which the hash table circuit queries the six columns of the caller. -/
def tableRots : Fin 6 → Finset ℤ := ![{-1, 0}, {0}, {0}, {-1, 0}, {0}, {0}]

/-- The caller's constraint system uses only advice columns that it has allocated. -/
def OwnColumns {F : Type} (cs : CS F) : Prop := ∀ c, cs.numAdvice ≤ c → cs.rots c = ∅

/-- Distinct rotations at which column `c` of the caller is queried in the end. -/
def hostQueries (cs : CS Fr) (ht : Fin 6 → ℕ) (c : ℕ) : Finset ℤ :=
  cs.rots c ∪ (Finset.univ.filter fun i => ht i = c).biUnion tableRots

/-- A circuit that consists of the hash table only: `TestCircuit` of `/repo/poseidon-circuit/src/hash.rs`, lines
997-1042, with `STEP = TEST_STEP` and `calcs = 4`, and of `/repo/poseidon-circuit/tests/hash_proving.rs`, lines
25-51, with `STEP = DEFAULT_STEP`. -/
def testRun (ch : Chip Fr 3) (short legacy : Bool) (mode : LoadMode) (STEP : ℕ) (t : HashTable Fr) (calcs : ℕ) :
    Run Fr :=
  { ch := ch
    native := permuteFr short
    legacy := legacy
    STEP := STEP
    step := STEP
    cs := ⟨6, 1, 0, [], [], []⟩
    qEnable := 0
    hashTable := fun i => i
    table := t
    calcs := calcs
    mode := mode
    before := ⟨fun _ => 0, none, []⟩ }

/-- `MockProver::run(k, &circuit, vec![]).unwrap().verify()` is `Ok(())`: the circuit has the minimal number of rows,
the synthesis succeeds and stays within the usable rows, and the mock prover finds no fault with the grid it
has written, on the usable rows or on all rows. -/
def Passes (x : Run Fr) (k : ℕ) : Prop :=
  x.configured.2.minimumRows ≤ 2 ^ k ∧
  ∃ L', x.load = .ok L' ∧ Fits (x.newOps L') (x.configured.2.usableRows k) ∧
    ∀ g : Grid Fr, g.n = 2 ^ k → g.usable = x.configured.2.usableRows k → x.Honest L' [] g →
      x.MockAccepts L' g g.usable ∧ x.MockAccepts L' g g.n

/-! ## Proofs -/

/-- The queries of the table part of the circuit. -/
private def TableQuery (a : ℕ) (ht : Fin 6 → ℕ) (c : ℕ) (k : ℤ) : Prop :=
  (∃ i, ht i = c ∧ k ∈ tableRots i) ∨
    (c = a ∨ c = a + 1 ∨ c = a + 2 ∨ c = a + 6 ∨ c = a + 7) ∧ k = 0 ∨
    (c = a + 3 ∨ c = a + 4 ∨ c = a + 5) ∧ (k = 0 ∨ k = -1)

private theorem ht_query (a : ℕ) (ht : Fin 6 → ℕ) (i : Fin 6) (k : ℤ) (h : k ∈ tableRots i) :
    TableQuery a ht (ht i) k := Or.inl ⟨i, rfl, h⟩

private theorem aux_query (a : ℕ) (ht : Fin 6 → ℕ) (i : Fin 6) : TableQuery a ht (a + i) 0 := by
  refine Or.inr ?_
  fin_cases i <;> simp

private theorem aux_prev (a : ℕ) (ht : Fin 6 → ℕ) (i : Fin 6) (h : 3 ≤ i) : TableQuery a ht (a + i) (-1) := by
  refine Or.inr (Or.inr ⟨?_, Or.inr rfl⟩)
  fin_cases i <;> simp at h ⊢

private theorem new_query (a : ℕ) (ht : Fin 6 → ℕ) : TableQuery a ht (a + 6) 0 ∧ TableQuery a ht (a + 7) 0 :=
  ⟨Or.inr (Or.inl ⟨by simp, rfl⟩), Or.inr (Or.inl ⟨by simp, rfl⟩)⟩

/-- The queries of the table part of the circuit: by its gates, its lookup and by enabling equality. -/
private def Asks (legacy : Bool) (a f σ q : ℕ) (ht : Fin 6 → ℕ) (step : ℕ) (c : ℕ) (k : ℤ) : Prop :=
  (∃ p ∈ tableGates (F := Fr) legacy a f σ q ht step, ∃ e ∈ p.polys, (Col.advice c, k) ∈ e.queries) ∨
    (Col.advice c, k) ∈ (controlRangeInput (F := Fr) (tcols a f σ q ht)).queries ∨
    (Col.advice c ∈ tableEqs a ht ∧ k = 0)

private theorem asks_le (legacy : Bool) (a f σ q : ℕ) (ht : Fin 6 → ℕ) (step : ℕ) {c : ℕ} {k : ℤ}
    (h : Asks legacy a f σ q ht step c k) : TableQuery a ht c k := by
  have hh := ht_query a ht
  have ha := aux_query a ht
  have hp := aux_prev a ht
  obtain ⟨h6, h7⟩ := new_query a ht
  have t0 : (0 : ℤ) ∈ tableRots 0 ∧ (-1 : ℤ) ∈ tableRots 0 ∧ (0 : ℤ) ∈ tableRots 1 ∧ (0 : ℤ) ∈ tableRots 2 ∧
    (0 : ℤ) ∈ tableRots 3 ∧ (-1 : ℤ) ∈ tableRots 3 ∧ (0 : ℤ) ∈ tableRots 4 ∧ (0 : ℤ) ∈ tableRots 5 := by
    simp [tableRots]
  obtain ⟨t0, t0', t1, t2, t3, t3', t4, t5⟩ := t0
  have key : ∀ e : Expr Fr, (∀ q ∈ e.queries, ∀ c, q.1 = .advice c → TableQuery a ht c q.2) →
      (Col.advice c, k) ∈ e.queries → TableQuery a ht c k := fun e h h' => h _ h' c rfl
  rcases h with ⟨p, hm, e, he, hq⟩ | hq | ⟨hq, rfl⟩
  · refine key e ?_ hq
    revert p e
    simp only [tableGates, customRowGate, controlConstrainGate, controlStepGate, hashIndexGate, inputConstrainGate,
      tcols, List.forall_mem_cons, List.not_mem_nil, false_imp_iff, implies_true, and_true, Expr.queries_mul,
      Expr.queries_fixed, Expr.queries_sub, Expr.queries_add, Expr.queries_advice, Expr.queries_const,
      Expr.queries_selector, List.forall_mem_append, reduceCtorEq, Col.advice.injEq, forall_eq', true_and, h6, h7,
      hh 0 0 t0, hh 0 _ t0', hh 1 0 t1, hh 2 0 t2, hh 3 0 t3, hh 3 _ t3', hh 4 0 t4, hh 5 0 t5]
    exact ⟨fun _ => hp 5 (by decide), fun _ => ⟨hp 3 (by decide), ha 1⟩, fun _ => ⟨hp 4 (by decide), ha 2⟩,
      fun _ => ha 0, fun _ => ⟨ha 0, hp 5 (by decide)⟩⟩
  · refine key _ ?_ hq
    simp only [controlRangeInput, tcols, Expr.queries_mul, Expr.queries_advice, List.forall_mem_append,
      List.forall_mem_cons, Col.advice.injEq, forall_eq', List.not_mem_nil, false_imp_iff, implies_true, and_true]
    exact ⟨hh 5 0 t5, hh 3 _ t3'⟩
  · simp only [tableEqs, List.mem_cons, Col.advice.injEq, List.not_mem_nil, or_false] at hq
    rcases hq with rfl | rfl | rfl | rfl | rfl | rfl | rfl | rfl
    · exact ha 0
    · exact ha 1
    · exact ha 2
    · exact ha 3
    · exact ha 4
    · exact ha 5
    · exact hh 0 0 t0
    · exact h6

private theorem asks_ge (legacy : Bool) (a f σ q : ℕ) (ht : Fin 6 → ℕ) (step : ℕ) (i : Fin 6) {k : ℤ}
    (h : k ∈ tableRots i) : Asks legacy a f σ q ht step (ht i) k := by
  have hall : (i = 0 ∧ (k = -1 ∨ k = 0)) ∨ (i = 1 ∧ k = 0) ∨ (i = 2 ∧ k = 0) ∨ (i = 3 ∧ (k = -1 ∨ k = 0)) ∨
      (i = 4 ∧ k = 0) ∨ (i = 5 ∧ k = 0) := by
    fin_cases i <;> simpa [tableRots] using h
  rcases hall with ⟨rfl, rfl | rfl⟩ | ⟨rfl, rfl⟩ | ⟨rfl, rfl⟩ | ⟨rfl, rfl | rfl⟩ | ⟨rfl, rfl⟩ | ⟨rfl, rfl⟩ <;>
    simp only [Asks, tableGates, customRowGate, controlConstrainGate, controlStepGate, hashIndexGate,
      inputConstrainGate, controlRangeInput, tableEqs, tcols, List.mem_cons, List.not_mem_nil, or_false,
      exists_eq_or_imp, exists_eq_left, Expr.queries_mul, Expr.queries_fixed, Expr.queries_sub, Expr.queries_add,
      Expr.queries_advice, Expr.queries_const, Expr.queries_selector, List.mem_append, true_or, or_true, and_true,
      true_and]

section
variable {x : Run Fr} {k : ChipKind} {short : Bool}

private theorem rots_eq {π : (Fin 3 → Fr) → Fin 3 → Fr} (lw : x.ch.Lawful π) (c : ℕ) (r : ℤ) :
    r ∈ x.configured.2.rots c ↔ r ∈ x.cs.rots c ∨
      Asks x.legacy x.cs.numAdvice x.cs.numFixed x.cs.numSelectors x.qEnable x.hashTable x.step c r ∨
      (∃ p ∈ lw.gates (x.cs.numAdvice + 8) (x.cs.numFixed + 1) (x.cs.numSelectors + 1), ∃ e ∈ p.polys,
        (Col.advice c, r) ∈ e.queries) ∨
      (Col.advice c ∈ lw.eqs (x.cs.numAdvice + 8) (x.cs.numFixed + 1) (x.cs.numSelectors + 1) ∧ r = 0) := by
  simp only [CS.mem_rots, CS.mem_exprs, Run.configured_eq lw, List.mem_append, List.mem_singleton, Asks]
  constructor
  · rintro (⟨e, (⟨p, (hp | hp) | hp, he⟩ | ⟨l, hl | rfl, rfl⟩), hq⟩ | ⟨(h | h) | h, rfl⟩)
    · exact Or.inl (Or.inl ⟨e, Or.inl ⟨p, hp, he⟩, hq⟩)
    · exact Or.inr (Or.inl (Or.inl ⟨p, hp, e, he, hq⟩))
    · exact Or.inr (Or.inr (Or.inl ⟨p, hp, e, he, hq⟩))
    · exact Or.inl (Or.inl ⟨_, Or.inr ⟨l, hl, rfl⟩, hq⟩)
    · exact Or.inr (Or.inl (Or.inr (Or.inl hq)))
    · exact Or.inl (Or.inr ⟨h, rfl⟩)
    · exact Or.inr (Or.inl (Or.inr (Or.inr ⟨h, rfl⟩)))
    · exact Or.inr (Or.inr (Or.inr ⟨h, rfl⟩))
  · rintro ((⟨e, (⟨p, hp, he⟩ | ⟨l, hl, rfl⟩), hq⟩ | ⟨h, rfl⟩) |
      ((⟨p, hp, e, he, hq⟩ | hq | ⟨h, rfl⟩) | (⟨p, hp, e, he, hq⟩ | ⟨h, rfl⟩)))
    · exact Or.inl ⟨e, Or.inl ⟨p, Or.inl (Or.inl hp), he⟩, hq⟩
    · exact Or.inl ⟨_, Or.inr ⟨l, Or.inl hl, rfl⟩, hq⟩
    · exact Or.inr ⟨Or.inl (Or.inl h), rfl⟩
    · exact Or.inl ⟨e, Or.inl ⟨p, Or.inl (Or.inr hp), he⟩, hq⟩
    · exact Or.inl ⟨_, Or.inr ⟨_, Or.inr rfl, rfl⟩, hq⟩
    · exact Or.inr ⟨Or.inl (Or.inr h), rfl⟩
    · exact Or.inl ⟨e, Or.inl ⟨p, Or.inr hp, he⟩, hq⟩
    · exact Or.inr ⟨Or.inr h, rfl⟩

/-- **C76.** For either chip and build and any host circuit: `configure_sub` adds to the columns of the caller
exactly the rotations of `tableRots` (the previous and the current row of the hash index and of the control, the
current row of the others) and none to other columns of the host; and it queries none of the columns it creates at
more than three rotations. -/
theorem C76_rotations (hbn : x.IsBn k short) (hx : x.Legal) (hown : OwnColumns x.cs) :
    (∀ c < x.cs.numAdvice, x.configured.2.rots c = hostQueries x.cs x.hashTable c) ∧
    (∀ c, x.cs.numAdvice ≤ c → c < x.configured.2.numAdvice → x.configured.2.numAdviceQueries c ≤ 3) := by
  obtain ⟨lw, hlw⟩ := hbn.few
  constructor
  · intro c hc
    ext r
    rw [rots_eq lw, hostQueries, Finset.mem_union]
    refine or_congr Iff.rfl ?_
    simp only [Finset.mem_biUnion, Finset.mem_filter, Finset.mem_univ, true_and]
    constructor
    · rintro (h | ⟨p, hp, e, he, hq⟩ | ⟨h, -⟩)
      · rcases asks_le _ _ _ _ _ _ _ h with h | ⟨h, -⟩ | ⟨h, -⟩
        · exact h
        · omega
        · omega
      · have := Expr.query_within (lw.within _ _ _ p hp e he) hq
        omega
      · rcases lw.eqs_own _ _ _ _ h with ⟨i, e, h1, -⟩ | ⟨i, e, -⟩
        · injection e with e; omega
        · cases e
    · rintro ⟨i, rfl, h⟩
      exact Or.inl (asks_ge _ _ _ _ _ _ _ _ h)
  · intro c h1 h2
    rw [Run.configured_eq lw] at h2
    simp only at h2
    have h0 := hown c h1
    have hht : ∀ i, x.hashTable i ≠ c := fun i e => by have := hx.cols i; omega
    by_cases h8 : c < x.cs.numAdvice + 8
    · refine le_trans (Finset.card_le_card (t := {0, -1}) fun r hr => ?_) (le_trans Finset.card_le_two (by norm_num))
      rw [rots_eq lw, h0] at hr
      simp only [Finset.notMem_empty, false_or] at hr
      rcases hr with h | ⟨p, hp, e, he, hq⟩ | ⟨h, rfl⟩
      · rcases asks_le _ _ _ _ _ _ _ h with ⟨i, h, -⟩ | ⟨-, rfl⟩ | ⟨-, rfl | rfl⟩
        · exact absurd h (hht i)
        · simp
        · simp
        · simp
      · have := Expr.query_within (lw.within _ _ _ p hp e he) hq
        omega
      · simp
    · obtain ⟨s, hs, h0s, hq⟩ := hlw (x.cs.numAdvice + 8) (x.cs.numFixed + 1) (x.cs.numSelectors + 1) c
        (by omega) (by omega)
      refine le_trans (Finset.card_le_card (t := s) fun r hr => ?_) hs
      rw [rots_eq lw, h0] at hr
      simp only [Finset.notMem_empty, false_or] at hr
      rcases hr with h | ⟨p, hp, e, he, hq'⟩ | ⟨h, rfl⟩
      · rcases asks_le _ _ _ _ _ _ _ h with ⟨i, h, -⟩ | ⟨h, -⟩ | ⟨h, -⟩
        · exact absurd h (hht i)
        · omega
        · omega
      · exact hq p hp e he r hq'
      · exact h0s

/-- The configured circuit only queries its own columns. -/
theorem configured_own (hbn : x.IsBn k short) (hx : x.Legal) (hown : OwnColumns x.cs) : OwnColumns x.configured.2 := by
  obtain ⟨lw, -⟩ := hbn.few
  intro c hc
  rw [Run.configured_eq lw] at hc
  simp only at hc
  have hht : ∀ i, x.hashTable i ≠ c := fun i e => by have := hx.cols i; omega
  refine Finset.eq_empty_of_forall_notMem fun r hr => ?_
  rw [rots_eq lw, hown c (by omega)] at hr
  simp only [Finset.notMem_empty, false_or] at hr
  rcases hr with h | ⟨p, hp, e, he, hq⟩ | ⟨h, -⟩
  · rcases asks_le _ _ _ _ _ _ _ h with ⟨i, h, -⟩ | ⟨h, -⟩ | ⟨h, -⟩
    · exact hht i h
    · omega
    · omega
  · have := Expr.query_within (lw.within _ _ _ p hp e he) hq
    omega
  · rcases lw.eqs_own _ _ _ _ h with ⟨i, e, -, h2⟩ | ⟨i, e, -⟩
    · injection e with e; omega
    · cases e

/-- **C76.** The number of blinding factors of a host circuit after `configure_sub`: 5, or two more than the
rotations of the most-queried column of the host. In particular the hash table never asks for more than the
minimum by itself. -/
theorem C76_blinding (hbn : x.IsBn k short) (hx : x.Legal) (hown : OwnColumns x.cs) :
    x.configured.2.blindingFactors =
      max 5 ((Finset.range x.cs.numAdvice).sup (fun c => (hostQueries x.cs x.hashTable c).card) + 2) := by
  obtain ⟨h1, h2⟩ := C76_rotations hbn hx hown
  obtain ⟨lw, -⟩ := hbn.few
  have hn : x.cs.numAdvice ≤ x.configured.2.numAdvice := by rw [Run.configured_eq lw]; simp only; omega
  have e : ∀ c < x.cs.numAdvice, x.configured.2.numAdviceQueries c = (hostQueries x.cs x.hashTable c).card :=
    fun c hc => by rw [CS.numAdviceQueries, h1 c hc]
  unfold CS.blindingFactors
  generalize hA : (Finset.range x.configured.2.numAdvice).sup x.configured.2.numAdviceQueries = A
  generalize hB : (Finset.range x.cs.numAdvice).sup (fun c => (hostQueries x.cs x.hashTable c).card) = B
  have hBA : B ≤ A := by
    rw [← hA, ← hB]
    refine Finset.sup_le fun c hc => ?_
    rw [Finset.mem_range] at hc
    rw [← e c hc]
    exact Finset.le_sup (f := x.configured.2.numAdviceQueries) (Finset.mem_range.mpr (by omega))
  have hAB : A ≤ max 3 B := by
    rw [← hA]
    refine Finset.sup_le fun c hc => ?_
    rw [Finset.mem_range] at hc
    rcases lt_or_ge c x.cs.numAdvice with h | h
    · rw [e c h, ← hB]
      exact le_trans (Finset.le_sup (f := fun c => (hostQueries x.cs x.hashTable c).card)
        (Finset.mem_range.mpr h)) (le_max_right _ _)
    · exact le_trans (h2 c h hc) (le_max_left _ _)
  omega

end

/-- **C76.** A circuit that has no other constraints on the columns of the caller reserves six rows. -/
theorem C76_alone {x : Run Fr} {k : ChipKind} {short : Bool} (hbn : x.IsBn k short) (hx : x.Legal)
    (h0 : ∀ c, x.cs.rots c = ∅) (kk : ℕ) :
    x.configured.2.blindingFactors = 5 ∧ x.configured.2.usableRows kk = 2 ^ kk - 6 := by
  have : x.configured.2.blindingFactors = 5 := by
    rw [C76_blinding hbn hx fun c _ => h0 c]
    refine max_eq_left ?_
    have : (Finset.range x.cs.numAdvice).sup (fun c => (hostQueries x.cs x.hashTable c).card) ≤ 2 := by
      refine Finset.sup_le fun c _ => ?_
      refine le_trans (Finset.card_le_card (t := {-1, 0}) ?_) Finset.card_le_two
      rw [hostQueries, h0, Finset.empty_union, Finset.biUnion_subset]
      intro i _
      fin_cases i <;> simp [tableRots]
    omega
  exact ⟨this, by rw [CS.usableRows, this]⟩

private theorem test_legal (ch : Chip Fr 3) (short legacy : Bool) (mode : LoadMode) {STEP : ℕ} {t : HashTable Fr}
    {calcs : ℕ} (hS : STEP < 2 ^ 64) (hc : calcs < 2 ^ 64) (ht : ∀ c ∈ t.controls, c < 2 ^ 64) :
    (testRun ch short legacy mode STEP t calcs).Legal :=
  ⟨fun i => i.isLt, fun i j h => Fin.ext h, by simp [testRun], hS, hS, hc, ht⟩

/-- **C76.** The verdict of the mock prover on the test circuits of the hash table, for every table, number of
calculations, step, chip, build and mode and every size `2^kk`: they pass exactly if the table fits the calculations
and its checks match, its rows form complete blocks, and `2^kk` exceeds by six what the range table, the table and
the permutations need. -/
theorem C76_tests {k : ChipKind} {ch : Chip Fr 3} (hch : bnChip k = .ok ch) (short legacy : Bool) (mode : LoadMode)
    {STEP : ℕ} {t : HashTable Fr} {calcs : ℕ} (hS : STEP < 2 ^ 64) (hc : calcs < 2 ^ 64)
    (ht : ∀ c ∈ t.controls, c < 2 ^ 64) (kk : ℕ) :
    Passes (testRun ch short legacy mode STEP t calcs) kk ↔
      (mode = .serial → t.inputs.length ≤ calcs ∧ t.controls.length ≤ calcs) ∧ ChecksMatch legacy STEP t calcs ∧
      Complete STEP STEP t calcs ∧
      STEP + 8 ≤ 2 ^ kk ∧ calcs + 7 ≤ 2 ^ kk ∧ k.rows * calcs + 6 ≤ 2 ^ kk := by
  have hlegal := test_legal ch short legacy mode hS hc ht
  obtain ⟨x, hx⟩ : ∃ x, x = testRun ch short legacy mode STEP t calcs := ⟨_, rfl⟩
  have hbn : x.IsBn k short := by rw [hx]; exact ⟨hch, rfl⟩
  rw [← hx] at hlegal ⊢
  have eS : x.STEP = STEP := by rw [hx]; rfl
  have es : x.step = STEP := by rw [hx]; rfl
  have et : x.table = t := by rw [hx]; rfl
  have ec : x.calcs = calcs := by rw [hx]; rfl
  have el : x.legacy = legacy := by rw [hx]; rfl
  have eb : x.before.ops = [] := by rw [hx]; rfl
  have h0 : ∀ c, x.cs.rots c = ∅ := by rw [hx]; intro c; rfl
  have hf : x.Fresh := by rw [hx]; exact ⟨fun _ _ => rfl, fun _ _ => rfl, fun _ _ => rfl⟩
  obtain ⟨hbl, hu⟩ := C76_alone hbn hlegal h0 kk
  have hload := (C41_checks hbn hlegal).1
  have em : x.mode = mode := by rw [hx]; rfl
  unfold FitsCalcs at hload
  rw [eS, et, ec, el, em] at hload
  have hrows : ∀ L', x.load = .ok L' → (Fits (x.newOps L') (x.configured.2.usableRows kk) ↔
      STEP + 8 ≤ 2 ^ kk ∧ calcs + 7 ≤ 2 ^ kk ∧ k.rows * calcs + 6 ≤ 2 ^ kk) := by
    intro L' hL
    rw [C64_rows hbn hlegal hL hf, hu, eS, ec]
    generalize 2 ^ kk = n
    generalize hm : k.rows * calcs = m
    constructor
    · rintro ⟨h1, h2, h3⟩; omega
    · rintro ⟨h1, h2, h3⟩; omega
  have hhon : ∀ L', x.load = .ok L' → ∀ g, x.Honest L' [] g →
      (x.MockAccepts L' g g.usable ↔ Complete STEP STEP t calcs) ∧
      (x.MockAccepts L' g g.n ↔ Complete STEP STEP t calcs) := by
    intro L' hL g hg
    have h1 := C69_honest hbn hlegal (Or.inl hL) hg le_rfl hg.usable_le
    have h2 := C69_honest hbn hlegal (Or.inl hL) hg hg.usable_le le_rfl
    rw [eS, es, et, ec] at h1 h2
    exact ⟨h1, h2⟩
  constructor
  · rintro ⟨-, L', hL, hfit, hall⟩
    obtain ⟨hcap, hck⟩ := hload.mp ⟨L', hL⟩
    refine ⟨hcap, hck, ?_, (hrows L' hL).mp hfit⟩
    have hg : x.Honest L' [] ⟨2 ^ kk, x.configured.2.usableRows kk, finalAdvice L'.ops, finalFixed L'.ops,
        finalSelector L'.ops⟩ :=
      ⟨⟨by rw [hu]; exact Nat.sub_le _ _, hfit, by simp [eb], by simp [eb], by simp, by simp⟩, by simp [eb], by simp⟩
    exact (hhon L' hL _ hg).1.mp (hall _ rfl rfl hg).1
  · rintro ⟨hcap, hck, hcom, hr⟩
    obtain ⟨L', hL⟩ := hload.mpr ⟨hcap, hck⟩
    refine ⟨?_, L', hL, (hrows L' hL).mpr hr, fun g _ _ hg => ?_⟩
    · rw [CS.minimumRows, hbl]
      exact le_trans (by omega) hr.1
    · exact ⟨(hhon L' hL g hg).1.mpr hcom, (hhon L' hL g hg).2.mpr hcom⟩

/-! ## The tests of the permutation chips -/

section
variable {F : Type} [Field F] {t : ℕ}
open TestCircuit

theorem pow5_blinding (S : Pow5.Params F t) {cs₀ cs : CS F} {c : Pow5.Config F t} {cols : Pow5.Cols t}
    (h : Pow5.configureChecked S cols cs₀ = .ok (c, cs)) (hg : cs₀.gates = []) (hl : cs₀.lookups = []) :
    cs.blindingFactors = 5 := by
  obtain ⟨-, -, -, rfl⟩ := configure_ok h
  refine CS.blindingFactors_le fun col _ => ?_
  refine le_trans (Finset.card_le_card (t := {-1, 0, 1}) fun r hr => ?_) (by simp)
  rw [CS.mem_rots] at hr
  rcases hr with ⟨e, he, hq⟩ | ⟨-, rfl⟩
  · rw [CS.mem_exprs] at he
    simp only [hg, hl, List.nil_append, List.not_mem_nil, false_and, exists_false, or_false] at he
    obtain ⟨p, hp, he⟩ := he
    exact Pow5.gates_near S cols _ p hp e he col r hq
  · simp

/-- **C76.** `PermuteCircuit` and `HashCircuit`, whatever their parameters, width and message: if they are configured
and laid out without panic, they reserve six rows. -/
theorem C76_pow5 (S : Pow5.Params F t) :
    (∀ {n : ℕ} (m : Fin n → F) y cs L, hashCircuit S m y = .ok (cs, L) → ∀ k, cs.usableRows k = 2 ^ k - 6) ∧
    (∀ x y cs L, permuteCircuit S x y = .ok (cs, L) → ∀ k, cs.usableRows k = 2 ^ k - 6) := by
  constructor
  · intro n m y cs L h k
    simp only [hashCircuit, hashConfigure, columns_eq, CS.enableEquality] at h
    cases hc : Pow5.configureChecked S (testCols t)
        (CS.mk (t + 2) (2 * (t + 1)) 0 [] [] ([] ++ [Col.fixed ((testCols t).rcB 0)])) with
    | error e => rw [hc] at h; cases h
    | ok p =>
      obtain ⟨c, cs'⟩ := p
      rw [hc] at h
      have h' : (do
          let L ← hashSynthesize S c m y (freshLayouter (some ((testCols t).rcB 0)))
          pure (cs', L) : Except Panic (CS F × Layouter F)) = .ok (cs, L) := h
      cases hL : hashSynthesize S c m y (freshLayouter (some ((testCols t).rcB 0))) with
      | error e => rw [hL] at h'; cases h'
      | ok L' =>
        rw [hL] at h'
        cases h'
        rw [CS.usableRows, pow5_blinding S hc rfl rfl]
  · intro x y cs L h k
    simp only [permuteCircuit, permuteConfigure, columns_eq] at h
    cases hc : Pow5.configureChecked S (testCols t) (CS.mk (t + 2) (2 * (t + 1)) 0 [] [] []) with
    | error e => rw [hc] at h; cases h
    | ok p =>
      obtain ⟨c, cs'⟩ := p
      rw [hc] at h
      have h' : (do
          let L ← permuteSynthesize S c x y (freshLayouter none)
          pure (cs', L) : Except Panic (CS F × Layouter F)) = .ok (cs, L) := h
      cases hL : permuteSynthesize S c x y (freshLayouter none) with
      | error e => rw [hL] at h'; cases h'
      | ok L' =>
        rw [hL] at h'
        cases h'
        rw [CS.usableRows, pow5_blinding S hc rfl rfl]

/-- **C76.** The sizes in the tests of the Pow5 chip: the hash circuit of P128Pow5T3 over Pallas for `n ≤ 3` words
fits into `2^k` rows iff `k` is at least 6, or 7 for three words; the permute circuit iff `k` is at least 6. -/
theorem C76_pow5_sizes {n : ℕ} (hn : 0 < n) (hn3 : n ≤ 3) (m : Fin n → Base.Pasta.Fp) (y : Base.Pasta.Fp)
    (x z : Fin 3 → Base.Pasta.Fp) :
    (∃ cs L, hashCircuit (gadgetParams 8 56 Base.Pasta.mds Base.Pasta.mdsInv Base.Pasta.roundConstants) m y =
        .ok (cs, L) ∧ ∀ k, Fits L.ops (cs.usableRows k) ↔ (if n = 3 then 7 else 6) ≤ k) ∧
    (∃ cs L, permuteCircuit (gadgetParams 8 56 Base.Pasta.mds Base.Pasta.mdsInv Base.Pasta.roundConstants) x z =
        .ok (cs, L) ∧ ∀ k, Fits L.ops (cs.usableRows k) ↔ 6 ≤ k) := by
  have pw : ∀ a b j k, 0 < a → 2 ^ j < a + 6 → a + 6 ≤ 2 ^ (j + 1) → b = j + 1 → (a ≤ 2 ^ k - 6 ↔ b ≤ k) := by
    rintro a b j k h0 h1 h2 rfl
    constructor
    · intro h
      by_contra hk
      have : 2 ^ k ≤ 2 ^ j := Nat.pow_le_pow_right (by norm_num) (by omega)
      omega
    · intro h
      have : 2 ^ (j + 1) ≤ 2 ^ k := Nat.pow_le_pow_right (by norm_num) h
      omega
  obtain ⟨cs, L, e, h1, -⟩ := C75_pasta false hn hn3 m y
  obtain ⟨cs', L', e', h1', -⟩ := C75_pasta_permute false x z
  refine ⟨⟨cs, L, e, fun k => ?_⟩, ⟨cs', L', e', fun k => ?_⟩⟩
  · rw [h1, (C76_pow5 _).1 m y cs L e k]
    split_ifs
    · exact pw 83 7 6 k (by norm_num) (by norm_num) (by norm_num) rfl
    · exact pw 43 6 5 k (by norm_num) (by norm_num) (by norm_num) rfl
  · rw [h1', (C76_pow5 _).2 x z cs' L' e' k]
    exact pw 39 6 5 k (by norm_num) (by norm_num) (by norm_num) rfl

/-- **C76.** The test of the Septidon chip (`septidon/tests.rs`, line 11) assumes that six rows are inactive: this
holds for the chip alone, for every size. -/
theorem C76_septidon (m : Base.Mds F 3) (rc : ℕ → Fin 3 → F) (k : ℕ) :
    (Septidon.configure m rc ⟨0, 0, 0, [], [], []⟩).2.usableRows k = 2 ^ k - 6 := by
  rw [CS.usableRows, CS.blindingFactors_le]
  intro c hc
  rw [Septidon.configure_eq] at hc ⊢
  simp only [List.nil_append] at hc ⊢
  by_cases h12 : c = 12
  · refine le_trans (Finset.card_le_card (t := {-2, -1, 0}) fun r hr => ?_) (by simp)
    rw [CS.mem_rots] at hr
    rcases hr with ⟨e, he, hq⟩ | ⟨-, rfl⟩
    · rw [CS.mem_exprs] at he
      simp only [List.not_mem_nil, false_and, exists_false, or_false] at he
      obtain ⟨p, hp, he⟩ := he
      generalize hg : (Col.advice c, r) = q at hq
      have := Septidon.gates_all 0 0 m rc p hp e he q hq
      cases this with
      | fixed i k => cases hg
      | state i k' hi hk' => simp only [Prod.mk.injEq, Col.advice.injEq] at hg; omega
      | sbox i hi hi' => simp only [Prod.mk.injEq, Col.advice.injEq] at hg; omega
      | transition k' hk' => simp only [Prod.mk.injEq, Col.advice.injEq] at hg; rw [hg.2]; exact hk'
    · simp
  · refine le_trans (Finset.card_le_card (t := {-3, 0, 1}) fun r hr => ?_) (by simp)
    rw [CS.mem_rots] at hr
    rcases hr with ⟨e, he, hq⟩ | ⟨-, rfl⟩
    · rw [CS.mem_exprs] at he
      simp only [List.not_mem_nil, false_and, exists_false, or_false] at he
      obtain ⟨p, hp, he⟩ := he
      generalize hg : (Col.advice c, r) = q at hq
      have := Septidon.gates_all 0 0 m rc p hp e he q hq
      cases this with
      | fixed i k => cases hg
      | state i k' hi hk' => simp only [Prod.mk.injEq, Col.advice.injEq] at hg; rw [hg.2]; exact hk'
      | sbox i hi hi' => simp only [Prod.mk.injEq, Col.advice.injEq] at hg; rw [hg.2]; simp
      | transition k' hk' => simp only [Prod.mk.injEq, Col.advice.injEq] at hg; omega
    · simp

end

/-! ## The tests of the crate -/

private theorem complete_of (STEP : ℕ) (t : HashTable Fr) (calcs : ℕ)
    (h : ∀ j < calcs, rowCtl t j ≤ STEP ∨ (j + 1 < calcs ∧ rowCtl t (j + 1) ≠ 0 ∧
      rowCtl t (j + 1) + STEP = rowCtl t j ∧ rowDom t (j + 1) = 0))
    (hl : ∀ j, j + 1 = calcs → rowWords t j = (0, 0) ∧ rowCtl t j = 0) : Complete STEP STEP t calcs :=
  ⟨fun j hj hgt => by
    rcases h j (by omega) with h | ⟨-, h⟩
    · omega
    · exact h, hl⟩

-- `hash_circuit` of tests/hash_proving.rs: two inputs, three calculations with the Pow5 chip. It passes for
-- `k = 7`, and that is the least size.
example (b short legacy : Bool) (mode : LoadMode) {ch : Chip Fr 3} (hch : bnChip (.pow5 b) = .ok ch) (kk : ℕ) :
    Passes (testRun ch short legacy mode 62 ⟨[(1, 2), (0, 1)], [], [], []⟩ 3) kk ↔ 7 ≤ kk := by
  rw [C76_tests hch short legacy mode (by norm_num) (by norm_num) (by simp)]
  have hc : Complete 62 62 ⟨[(1, 2), (0, 1)], [], [], []⟩ 3 := by
    refine complete_of _ _ _ (fun j _ => Or.inl ?_) fun j hj => ?_
    · simp [rowCtl]
    · obtain rfl : j = 2 := by omega
      simp [rowCtl, rowWords]
  have hck : ChecksMatch legacy 62 ⟨[(1, 2), (0, 1)], [], [], []⟩ 3 := by
    intro a m _ _ ck h; simp [rowCk] at h
  simp only [hc, hck, true_and, List.length_cons, List.length_nil, ChipKind.rows]
  constructor
  · rintro ⟨-, -, -, h⟩
    by_contra hk
    have : 2 ^ kk ≤ 2 ^ 6 := Nat.pow_le_pow_right (by norm_num) (by omega)
    omega
  · intro h
    have : 2 ^ 7 ≤ 2 ^ kk := Nat.pow_le_pow_right (by norm_num) h
    omega

-- the second table of `poseidon_var_len_hash_circuit` (hash.rs:1131-1138): a block of two rows and one row more, with
-- step 32 and four calculations, in `2^8` rows; the first row alone is rejected
example (k : ChipKind) (short legacy : Bool) (mode : LoadMode) {ch : Chip Fr 3} (hch : bnChip k = .ok ch) :
    Passes (testRun ch short legacy mode 32 ⟨[(1, 2), (50331648, 0), (1, 2)], [64, 32], [], []⟩ 4) 8 ∧
    ¬ Passes (testRun ch short legacy mode 32 ⟨[(1, 2)], [64], [], []⟩ 4) 8 := by
  constructor
  · rw [C76_tests hch short legacy mode (by norm_num) (by norm_num) (by simp)]
    refine ⟨fun _ => by simp, ?_, ?_, by norm_num, by norm_num, ?_⟩
    · intro a m _ _ ck h; simp [rowCk] at h
    · refine complete_of _ _ _ (fun j hj => ?_) fun j hj => ?_
      · have : j = 0 ∨ j = 1 ∨ j = 2 ∨ j = 3 := by omega
        rcases this with rfl | rfl | rfl | rfl <;> simp [rowCtl, rowDom]
      · obtain rfl : j = 3 := by omega
        simp [rowCtl, rowWords]
    · cases k <;> simp [ChipKind.rows]
  · rw [C76_tests hch short legacy mode (by norm_num) (by norm_num) (by simp)]
    rintro ⟨-, -, h, -⟩
    have := h.next 0 (by norm_num) (by simp [rowCtl])
    simp [rowCtl] at this

-- a host that queries the hash index at three further rotations needs one row more
example (ch : Chip Fr 3) (k : ChipKind) (short legacy : Bool) (hch : bnChip k = .ok ch) :
    (configureSub ch legacy 0 (fun i => i) 62
      ⟨6, 1, 0, [⟨"host", [.advice 0 1 + .advice 0 2]⟩], [], []⟩).2.blindingFactors = 6 := by
  obtain ⟨x, hx⟩ : ∃ x : Run Fr, x = { testRun ch short legacy .serial 62 ⟨[], [], [], []⟩ 0 with
    cs := ⟨6, 1, 0, [⟨"host", [.advice 0 1 + .advice 0 2]⟩], [], []⟩ } := ⟨_, rfl⟩
  have hbn : x.IsBn k short := by rw [hx]; exact ⟨hch, rfl⟩
  have hl : x.Legal := by
    rw [hx]
    exact ⟨fun i => i.isLt, fun i j h => Fin.ext h, by simp [testRun], by simp [testRun], by simp [testRun],
      by simp [testRun], by simp [testRun]⟩
  have h0 : ∀ c, x.cs.rots c = if c = 0 then {1, 2} else ∅ := by
    intro c
    rw [hx]
    ext r
    rw [CS.mem_rots]
    simp [CS.mem_exprs]
    split_ifs with h
    · subst h; simp
    · simp [h]
  have := C76_blinding hbn hl (by
    intro c hc
    have : x.cs.numAdvice = 6 := by rw [hx]
    rw [h0, if_neg (by omega)])
  have e : (configureSub ch legacy 0 (fun i => i) 62
      ⟨6, 1, 0, [⟨"host", [.advice 0 1 + .advice 0 2]⟩], [], []⟩).2.blindingFactors =
    x.configured.2.blindingFactors := by rw [hx]; rfl
  rw [e, this]
  have e6 : x.cs.numAdvice = 6 := by rw [hx]
  have eh : ∀ c, hostQueries x.cs x.hashTable c = (if c = 0 then {1, 2} else ∅) ∪
      (Finset.univ.filter fun i : Fin 6 => (i : ℕ) = c).biUnion tableRots := by
    intro c
    rw [hostQueries, h0]
    rw [hx]
    rfl
  simp only [eh, e6]
  decide +kernel

end Props
