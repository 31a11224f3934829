import Verif.Halo2.Blinding
import Verif.Circuit.MockTable
import Verif.Circuit.HashCircuitRows

/-!
# Rotations at which the circuits query their advice columns
-/

set_option linter.unusedVariables false
set_option linter.unusedSectionVars false
set_option linter.unusedSimpArgs false

open Halo2

namespace Circuit

variable {F : Type} [Field F]

/-- The rotations at which a chip queries each of its advice columns, in its polynomials or by enabling equality,
lie in a set of three. -/
def Chip.Lawful.FewQueries {T : ℕ} {ch : Chip F T} {π : (Fin T → F) → Fin T → F} (lw : ch.Lawful π) : Prop :=
  ∀ a f σ c, a ≤ c → c < a + lw.nA → ∃ s : Finset ℤ, s.card ≤ 3 ∧ 0 ∈ s ∧
    ∀ p ∈ lw.gates a f σ, ∀ e ∈ p.polys, ∀ k, (Col.advice c, k) ∈ e.queries → k ∈ s

/-- The gates of a chip query no column more than 3 rows above or 7 rows below, and the chip has not more columns and
selectors than the larger of the two chips. -/
def Chip.Lawful.NearQueries {T : ℕ} {ch : Chip F T} {π : (Fin T → F) → Fin T → F} (lw : ch.Lawful π) : Prop :=
  (lw.nA ≤ 13 ∧ lw.nF ≤ 11 ∧ lw.nS ≤ 4) ∧
    ∀ a f σ, ∀ p ∈ lw.gates a f σ, ∀ e ∈ p.polys, ∀ q ∈ e.queries, -3 ≤ q.2 ∧ q.2 ≤ 7

namespace Septidon
open Expr

/-- Advice queries of the chip, by column. -/
inductive Queried (a : ℕ) : Col × ℤ → Prop
  | fixed (i : ℕ) (k : ℤ) : -3 ≤ k → k ≤ 7 → Queried a (.fixed i, k)
  | state (i : ℕ) (k : ℤ) : i < 6 → k ∈ ({-3, 0, 1} : Finset ℤ) → Queried a (.advice (a + i), k)
  | sbox (i : ℕ) : 6 ≤ i → i < 12 → Queried a (.advice (a + i), 0)
  | transition (k : ℤ) : k ∈ ({-2, -1, 0} : Finset ℤ) → Queried a (.advice (a + 12), k)

theorem Queried.near {a : ℕ} {q : Col × ℤ} (h : Queried a q) : -3 ≤ q.2 ∧ q.2 ≤ 7 := by
  cases h with
  | fixed i k h h' => exact ⟨h, h'⟩
  | state i k hi hk =>
    simp only [Finset.mem_insert, Finset.mem_singleton] at hk
    simp only
    omega
  | sbox i hi hi' => exact ⟨by norm_num, by norm_num⟩
  | transition k hk =>
    simp only [Finset.mem_insert, Finset.mem_singleton] at hk
    simp only
    omega

section
variable {Q : Col × ℤ → Prop}

/-- All queries of the expression are of the given kind. -/
def All (Q : Col × ℤ → Prop) (e : Expr F) : Prop := ∀ q ∈ e.queries, Q q

theorem All.add {x y : Expr F} (hx : All Q x) (hy : All Q y) : All Q (x + y) := fun q hq =>
  (List.mem_append.mp hq).elim (hx q) (hy q)
theorem All.sub {x y : Expr F} (hx : All Q x) (hy : All Q y) : All Q (x - y) := fun q hq =>
  (List.mem_append.mp hq).elim (hx q) (hy q)
theorem All.mul {x y : Expr F} (hx : All Q x) (hy : All Q y) : All Q (x * y) := fun q hq =>
  (List.mem_append.mp hq).elim (hx q) (hy q)
theorem All.scaled {x : Expr F} (hx : All Q x) (c : F) : All Q (Expr.scaled x c) := hx
theorem All.const (c : F) : All Q (Expr.const c) := fun q hq => by simp at hq
theorem All.pow5 {x : Expr F} (hx : All Q x) : All Q (pow5Expr x) :=
  ((hx.mul hx).mul (hx.mul hx)).mul hx
theorem All.matmul (m : Base.Mds F 3) {v : Fin 3 → Expr F} (h : ∀ i, All Q (v i)) (i : Fin 3) :
    All Q (matmulExpr m v i) := (((h 0).scaled _).add ((h 1).scaled _)).add ((h 2).scaled _)
theorem All.select {s t e : Expr F} (hs : All Q s) (ht : All Q t) (he : All Q e) : All Q (selectExpr s t e) :=
  (hs.mul ht).add (((All.const 1).sub hs).mul he)
theorem All.withSelector {s : Expr F} {l : List (Expr F)} (hs : All Q s) (h : ∀ e ∈ l, All Q e) :
    ∀ e ∈ withSelector s l, All Q e := by
  intro e he
  obtain ⟨e', he', rfl⟩ := List.mem_map.mp he
  exact hs.mul (h e' he')
end

section
variable (a f : ℕ) (m : Base.Mds F 3) (rc : ℕ → Fin 3 → F)

theorem fixed_all (i : ℕ) (k : ℤ) (h : -3 ≤ k := by norm_num) (h' : k ≤ 7 := by norm_num) :
    All (Queried a) (Expr.fixed i k : Expr F) := fun q hq => by
  rw [queries_fixed, List.mem_singleton] at hq
  subst hq
  exact .fixed i k h h'

theorem query_all {c : RelCell} {k : ℤ} (h : Queried a (.advice c.column, c.offset + k)) :
    All (Queried a) (c.query k : Expr F) := fun q hq => by
  rw [RelCell.query, queries_advice, List.mem_singleton] at hq
  subst hq
  exact h

theorem output_all {s : SBox} (h : Queried a (.advice s.input.column, s.input.offset + 0)) :
    All (Queried a) (s.outputExpr : Expr F) :=
  ((query_all a h).add (fixed_all a _ _ (by have := h.near.1; simpa using this) (by have := h.near.2; simpa using this))).pow5

theorem partialRound_all {s : SBox} {v : Fin 3 → Expr F}
    (h : Queried a (.advice s.input.column, s.input.offset + 0)) (hv : ∀ i, All (Queried a) (v i)) (i : Fin 3) :
    All (Queried a) (partialRoundExpr m s v i) := by
  refine All.matmul m (fun i => ?_) i
  fin_cases i
  · exact output_all a h
  · exact hv 1
  · exact hv 2

theorem septupleLoop_all (l : List SBox) : ∀ (s : SBox) (v : Fin 3 → Expr F),
    Queried a (.advice s.input.column, s.input.offset + 0) →
    (∀ t ∈ l, Queried a (.advice t.input.column, t.input.offset + 0)) → (∀ i, All (Queried a) (v i)) →
    (∀ e ∈ (septupleLoop m s v l).1, All (Queried a) e) ∧ ∀ i, All (Queried a) ((septupleLoop m s v l).2 i) := by
  induction l with
  | nil => exact fun s v h _ hv => ⟨by simp [septupleLoop], partialRound_all a m h hv⟩
  | cons t l ih =>
    intro s v h hl hv
    have hp := partialRound_all a m h hv
    obtain ⟨i1, i2⟩ := ih t _ (hl t (by simp)) (fun t ht => hl t (by simp [ht])) hp
    refine ⟨?_, i2⟩
    simp only [septupleLoop, List.forall_mem_cons]
    exact ⟨(hp 0).sub (query_all a (hl t (by simp))), i1⟩

theorem septExprs_all : (∀ e ∈ (septExprs m (config a f)).1, All (Queried a) e) ∧
    ∀ i, All (Queried a) ((septExprs m (config a f)).2 i) := by
  refine septupleLoop_all a m _ _ _ ?_ ?_ fun i => query_all a ?_
  · exact .state 3 _ (by norm_num) (by simp [config])
  · intro t ht
    simp only [config, List.mem_cons, List.not_mem_nil, or_false] at ht
    rcases ht with rfl | rfl | rfl | rfl | rfl | rfl
    · exact .sbox 6 (by norm_num) (by norm_num)
    · exact .sbox 7 (by norm_num) (by norm_num)
    · exact .sbox 8 (by norm_num) (by norm_num)
    · exact .sbox 9 (by norm_num) (by norm_num)
    · exact .sbox 10 (by norm_num) (by norm_num)
    · exact .sbox 11 (by norm_num) (by norm_num)
  · fin_cases i
    · exact .state 3 0 (by norm_num) (by simp)
    · exact .state 4 0 (by norm_num) (by simp)
    · exact .state 5 0 (by norm_num) (by simp)

theorem sept_query (i : Fin 3) {k : ℤ} (hk : k ∈ ({-3, 0, 1} : Finset ℤ)) :
    All (Queried a) (((config a f).septuple.input i).query k : Expr F) := by
  refine query_all a ?_
  rw [sept_offset, zero_add]
  fin_cases i
  · exact .state 3 _ (by norm_num) hk
  · exact .state 4 _ (by norm_num) hk
  · exact .state 5 _ (by norm_num) hk

theorem full_query (i : Fin 3) {k : ℤ} (hk : k ∈ ({-3, 0, 1} : Finset ℤ)) :
    Queried a (.advice ((config a f).full i).input.column, ((config a f).full i).input.offset + k) := by
  rw [full_offset, zero_add]
  fin_cases i
  · exact .state 0 _ (by norm_num) hk
  · exact .state 1 _ (by norm_num) hk
  · exact .state 2 _ (by norm_num) hk

theorem transition_query (i : Fin 3) :
    All (Queried a) ((transitionInput (config a f).transition i).query 0 : Expr F) := by
  refine query_all a ?_
  fin_cases i <;> exact .transition _ (by simp [transitionInput])

/-- Every query of the chip is in the list. -/
theorem gates_all : ∀ p ∈ gates m rc (config a f), ∀ e ∈ p.polys, All (Queried a) e := by
  have hq : All (Queried a) (qExpr (config a f) : Expr F) :=
    (((((((fixed_all a _ _).add (fixed_all a _ _)).add (fixed_all a _ _)).add (fixed_all a _ _)).add
      (fixed_all a _ _)).add (fixed_all a _ _)).add (fixed_all a _ _)).add (fixed_all a _ _)
  have h0 : ∀ e ∈ (gateQuery : Gate F).polys, All (Queried a) e := by
    intro e he
    rw [List.mem_singleton.mp he]
    exact All.const 0
  have hs := septExprs_all a f m
  simp only [gates, List.forall_mem_cons, List.not_mem_nil, false_imp_iff, implies_true, and_true]
  refine ⟨h0, h0, h0, All.withSelector hq hs.1, All.withSelector (fixed_all a _ _) ?_,
    All.withSelector hq ?_, All.withSelector hq ?_⟩
  · intro e he
    obtain ⟨i, -, rfl⟩ := List.mem_map.mp he
    refine All.sub (All.matmul m (fun k => ?_) i) (sept_query a f i (by simp))
    fin_cases k
    · exact ((transition_query a f 0).add (All.const _)).pow5
    · exact transition_query a f 1
    · exact transition_query a f 2
  · intro e he
    obtain ⟨i, -, rfl⟩ := List.mem_map.mp he
    exact (All.select ((fixed_all a _ _).add (fixed_all a _ _)) (transition_query a f i)
      (query_all a (full_query a f i (by simp)))).sub
      (All.matmul m (fun k => output_all a (full_query a f k (by simp))) i)
  · intro e he
    obtain ⟨i, -, rfl⟩ := List.mem_map.mp he
    refine (All.select (fixed_all a _ _) (query_all a ?_) (sept_query a f i (by simp))).sub (hs.2 i)
    have := full_query a f i (k := -3) (by simp)
    simpa [RelCell.rotated] using this

theorem lawful_few (hc : Compact rc) : (lawful m rc hc).FewQueries := by
  intro a f σ c h1 h2
  have key : ∀ p ∈ gates m rc (config a f), ∀ e ∈ p.polys, ∀ k, (Col.advice c, k) ∈ e.queries →
      Queried a (Col.advice c, k) := fun p hp e he k hk => gates_all a f m rc p hp e he _ hk
  by_cases h12 : c = a + 12
  · refine ⟨{-2, -1, 0}, by simp, by simp, fun p hp e he k hk => ?_⟩
    generalize hg : (Col.advice c, k) = q at hk
    have := gates_all a f m rc p hp e he q hk
    cases this with
    | fixed i k _ _ => cases hg
    | state i k' hi hk' =>
      simp only [Prod.mk.injEq, Col.advice.injEq] at hg
      omega
    | sbox i hi hi' =>
      simp only [Prod.mk.injEq, Col.advice.injEq] at hg
      omega
    | transition k' hk' =>
      simp only [Prod.mk.injEq, Col.advice.injEq] at hg
      rw [hg.2]; exact hk'
  · refine ⟨{-3, 0, 1}, by simp, by simp, fun p hp e he k hk => ?_⟩
    generalize hg : (Col.advice c, k) = q at hk
    have := gates_all a f m rc p hp e he q hk
    cases this with
    | fixed i k _ _ => cases hg
    | state i k' hi hk' =>
      simp only [Prod.mk.injEq, Col.advice.injEq] at hg
      rw [hg.2]; exact hk'
    | sbox i hi hi' =>
      simp only [Prod.mk.injEq, Col.advice.injEq] at hg
      rw [hg.2]; simp
    | transition k' hk' =>
      simp only [Prod.mk.injEq, Col.advice.injEq] at hg
      omega

theorem lawful_near (hc : Compact rc) : (lawful m rc hc).NearQueries := by
  refine ⟨⟨le_rfl, by simp [lawful], by simp [lawful]⟩, fun a f σ p hp e he q hq => ?_⟩
  exact (gates_all a f m rc p hp e he q hq).near
end
end Septidon

namespace Pow5
open Expr
variable {t : ℕ}

/-- The gates of the Pow5 chip query advice columns at the previous, the current and the next row only. -/
theorem gates_near (S : Params F t) (cols : Cols t) (σ : ℕ) : ∀ p ∈ gates (config S cols σ), ∀ e ∈ p.polys,
    ∀ c k, (Col.advice c, k) ∈ e.queries → k ∈ ({-1, 0, 1} : Finset ℤ) := by
  have hr : ∀ c k, RoundQuery cols (Col.advice c, k) → k ∈ ({-1, 0, 1} : Finset ℤ) := by
    intro c k h
    generalize hg : (Col.advice c, k) = q at h
    cases h <;> simp only [Prod.mk.injEq, reduceCtorEq, false_and] at hg <;> rw [hg.2] <;> simp
  intro p hp e he c k hk
  simp only [gates, List.mem_cons, List.not_mem_nil, or_false] at hp
  rcases hp with rfl | rfl | rfl | rfl
  · exact hr c k (fullGate_queries S cols σ e he _ hk)
  · rcases partialGate_queries S cols σ e he _ hk with h | h | ⟨i, h⟩
    · exact hr c k h
    · simp only [Prod.mk.injEq] at h; rw [h.2]; simp
    · simp only [Prod.mk.injEq] at h; rw [h.2]; simp
  · exact hr c k (singleGate_queries S cols σ e he _ hk)
  · rcases TestCircuit.padGate_queries S cols σ e he _ hk with ⟨i, h⟩ | ⟨i, h⟩ | ⟨i, h⟩ <;>
      (simp only [Prod.mk.injEq] at h; rw [h.2]; simp)

theorem lawful_few (S : Params F 2) (hinv : Matrix.of S.mReg * Matrix.of S.mInv = 1) :
    (lawful S hinv).FewQueries := fun a f σ c _ _ =>
  ⟨{-1, 0, 1}, by simp, by simp, fun p hp e he k hk => gates_near S _ σ p hp e he c k hk⟩

theorem lawful_near (S : Params F 2) (hinv : Matrix.of S.mReg * Matrix.of S.mInv = 1) :
    (lawful S hinv).NearQueries := by
  refine ⟨⟨by simp [lawful], by simp [lawful], by simp [lawful]⟩, fun a f σ p hp e he q hq => ?_⟩
  have hr : ∀ {cols : Cols 2} {q}, RoundQuery cols q → -3 ≤ q.2 ∧ q.2 ≤ 7 := by
    intro cols q h
    cases h <;> exact ⟨by norm_num, by norm_num⟩
  change p ∈ gates (config S _ σ) at hp
  simp only [gates, List.mem_cons, List.not_mem_nil, or_false] at hp
  rcases hp with rfl | rfl | rfl | rfl
  · exact hr (fullGate_queries S _ σ e he _ hq)
  · rcases partialGate_queries S _ σ e he _ hq with h | h | ⟨i, h⟩
    · exact hr h
    · rw [h]; exact ⟨by norm_num, by norm_num⟩
    · rw [h]; exact ⟨by norm_num, by norm_num⟩
  · exact hr (singleGate_queries S _ σ e he _ hq)
  · rcases TestCircuit.padGate_queries S _ σ e he _ hq with ⟨i, h⟩ | ⟨i, h⟩ | ⟨i, h⟩ <;>
      (rw [h]; exact ⟨by norm_num, by norm_num⟩)

end Pow5

open Base.Bn256

/-- `bnChip_lawful` together with the number of queries. -/
theorem bnChip_few (k : ChipKind) :
    ∃ ch, bnChip k = .ok ch ∧ ∃ lw : ch.Lawful specPerm, lw.FewQueries ∧ lw.NearQueries := by
  obtain ⟨rc, h1, h2, h3, h4⟩ := Septidon.bn_table
  have hmi : Base.mdsInv mds = .ok (fun i j => ((Matrix.of mds)⁻¹) i j) := by
    rw [Base.mdsInv_eq, if_neg det_ne_zero]
  have hinv : Matrix.of mds * Matrix.of (fun i j => ((Matrix.of mds)⁻¹) i j) = 1 :=
    Matrix.mul_nonsing_inv _ (by rw [isUnit_iff_ne_zero]; exact det_ne_zero)
  have p2 : Pow5.perm (Props.pow5Bn rc fun i j => ((Matrix.of mds)⁻¹) i j) = specPerm := by
    rw [← h4]
    unfold Pow5.perm Septidon.perm
    have : (Props.pow5Bn rc fun i j => ((Matrix.of mds)⁻¹) i j).rc = Septidon.table rc := rfl
    rw [this]
    have e2 : (Props.pow5Bn rc fun i j => ((Matrix.of mds)⁻¹) i j).mReg = mds := rfl
    have e3 : (Props.pow5Bn rc fun i j => ((Matrix.of mds)⁻¹) i j).fullRounds / 2 = 4 := by
      show (8 : ℕ) / 2 = 4
      norm_num
    have e4 : (Props.pow5Bn rc fun i j => ((Matrix.of mds)⁻¹) i j).partialRounds = 57 := rfl
    rw [e2, e3, e4]
  have sep : ∀ π, Septidon.perm mds (Septidon.table rc) = π →
      ∃ lw : (Septidon.chip mds (Septidon.table rc)).Lawful π, lw.FewQueries ∧ lw.NearQueries := by
    rintro _ rfl
    exact ⟨Septidon.lawful mds (Septidon.table rc) h3, Septidon.lawful_few mds (Septidon.table rc) h3,
      Septidon.lawful_near mds (Septidon.table rc) h3⟩
  have pow : ∀ (tbl : List (Base.State Fr 3)) π,
      Pow5.perm (Props.pow5Bn tbl fun i j => ((Matrix.of mds)⁻¹) i j) = π →
      ∃ lw : (Pow5.chip (Props.pow5Bn tbl fun i j => ((Matrix.of mds)⁻¹) i j)).Lawful π, lw.FewQueries ∧ lw.NearQueries := by
    rintro tbl _ rfl
    exact ⟨Pow5.lawful (Props.pow5Bn tbl fun i j => ((Matrix.of mds)⁻¹) i j) hinv,
      Pow5.lawful_few (Props.pow5Bn tbl fun i j => ((Matrix.of mds)⁻¹) i j) hinv,
      Pow5.lawful_near (Props.pow5Bn tbl fun i j => ((Matrix.of mds)⁻¹) i j) hinv⟩
  cases k with
  | septidon =>
    refine ⟨Septidon.chip mds (Septidon.table rc), ?_, sep _ h4⟩
    simp only [bnChip, h1]
    rfl
  | pow5 c =>
    cases c with
    | false =>
      refine ⟨Pow5.chip (Props.pow5Bn roundConstants fun i j => ((Matrix.of mds)⁻¹) i j), ?_, pow _ _ rfl⟩
      simp only [bnChip, hmi]
    | true =>
      refine ⟨Pow5.chip (Props.pow5Bn rc fun i j => ((Matrix.of mds)⁻¹) i j), ?_, pow _ _ p2⟩
      simp only [bnChip, h1, hmi]

theorem Run.IsBn.few {x : Run Fr} {k : ChipKind} {short : Bool} (h : x.IsBn k short) :
    ∃ lw : x.ch.Lawful specPerm, lw.FewQueries := by
  obtain ⟨ch, h1, lw, h2, -⟩ := bnChip_few k
  have := h.1.symm.trans h1
  injection this with this
  obtain ⟨ch', native, legacy, STEP, step, cs, q, ht, t, calcs, mode, L⟩ := x
  simp only at this
  subst this
  exact ⟨lw, h2⟩

theorem Run.IsBn.near {x : Run Fr} {k : ChipKind} {short : Bool} (h : x.IsBn k short) :
    ∃ lw : x.ch.Lawful specPerm, lw.NearQueries := by
  obtain ⟨ch, h1, lw, -, h2⟩ := bnChip_few k
  have := h.1.symm.trans h1
  injection this with this
  obtain ⟨ch', native, legacy, STEP, step, cs, q, ht, t, calcs, mode, L⟩ := x
  simp only at this
  subst this
  exact ⟨lw, h2⟩

end Circuit
