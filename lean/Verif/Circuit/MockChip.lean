import Verif.Halo2.Mock
import Verif.Circuit.SeptidonSound
import Verif.Circuit.Pow5Sound

/-!
# The permutation chips under the mock prover
-/

set_option linter.unusedVariables false
set_option linter.unusedSectionVars false

open Halo2

namespace Circuit

variable {F : Type} [Field F]

/-- The gates of the chip are never poisoned, and its regions pass the cell check. -/
structure Chip.Lawful.Mock {T : ℕ} {ch : Chip F T} {π : (Fin T → F) → Fin T → F} (lw : ch.Lawful π) :
    Prop where
  unpoisoned : ∀ a f σ ws p (g : Grid F), RowsApart lw.height ws.length p →
    g.usable ≤ g.n → Fits (lw.ops a f σ ws p) g.usable →
    (∀ c, f ≤ c → c < f + lw.nF → ∀ r < g.n, g.fixed c r = finalFixed (lw.ops a f σ ws p) c r) →
    (∀ c, σ ≤ c → c < σ + lw.nS → ∀ r < g.n, g.selector c r = finalSelector (lw.ops a f σ ws p) c r) →
    ∀ q ∈ lw.gates a f σ, q.Unpoisoned g
  assigned : ∀ a f σ w p, ∀ q ∈ lw.gates a f σ, q.CellsAssigned (lw.ops a f σ [w] p)

namespace Septidon
open Expr

theorem pow5Expr_clean {g : Grid F} {r : ℕ} {v : Expr F} (h : v.Clean g r) : (pow5Expr v).Clean g r :=
  ((h.mul h).mul (h.mul h)).mul h

theorem matmulExpr_clean (m : Base.Mds F 3) {g : Grid F} {r : ℕ} {v : Fin 3 → Expr F}
    (h : ∀ i, (v i).Clean g r) (i : Fin 3) : (matmulExpr m v i).Clean g r :=
  (((h 0).scaled _).add ((h 1).scaled _)).add ((h 2).scaled _)

theorem query_clean {g : Grid F} {r : ℕ} {c : RelCell} {k : ℤ} (r' : ℕ)
    (h : (r : ℤ) + (c.offset + k) = r') (hu : g.usable ≤ g.n) (hr : r' < g.usable) :
    (c.query k : Expr F).Clean g r := by
  refine clean_advice g r ?_
  rw [g.rot_of_lt r' h (by omega)]
  exact hr

theorem outputExpr_clean {g : Grid F} {r : ℕ} {s : SBox} (h0 : s.input.offset = 0) (hu : g.usable ≤ g.n)
    (hr : r < g.usable) : (s.outputExpr : Expr F).Clean g r :=
  pow5Expr_clean ((query_clean r (by omega) hu hr).add (clean_fixed _ _ _ _))

theorem partialRoundExpr_clean (m : Base.Mds F 3) {g : Grid F} {r : ℕ} {s : SBox} {st : Fin 3 → Expr F}
    (h0 : s.input.offset = 0) (hu : g.usable ≤ g.n) (hr : r < g.usable) (hst : ∀ i, (st i).Clean g r)
    (i : Fin 3) : (partialRoundExpr m s st i).Clean g r := by
  refine matmulExpr_clean m (fun i => ?_) i
  fin_cases i
  · exact outputExpr_clean h0 hu hr
  · exact hst 1
  · exact hst 2

theorem septupleLoop_clean (m : Base.Mds F 3) {g : Grid F} {r : ℕ} (hu : g.usable ≤ g.n)
    (hr : r < g.usable) (rest : List SBox) : ∀ (ck : SBox) (st : Fin 3 → Expr F),
      ck.input.offset = 0 → (∀ s ∈ rest, s.input.offset = 0) → (∀ i, (st i).Clean g r) →
      (∀ e ∈ (septupleLoop m ck st rest).1, e.Clean g r) ∧
        ∀ i, ((septupleLoop m ck st rest).2 i).Clean g r := by
  induction rest with
  | nil =>
    intro ck st h0 _ hst
    exact ⟨by simp [septupleLoop], partialRoundExpr_clean m h0 hu hr hst⟩
  | cons s rest ih =>
    intro ck st h0 h1 hst
    have hp := partialRoundExpr_clean m h0 hu hr hst
    have hs : s.input.offset = 0 := h1 s (by simp)
    obtain ⟨i1, i2⟩ := ih s _ hs (fun s hs => h1 s (by simp [hs])) hp
    refine ⟨?_, i2⟩
    simp only [septupleLoop, List.forall_mem_cons]
    exact ⟨(hp 0).sub (query_clean r (by omega) hu hr), i1⟩

section
variable (a f : ℕ) (m : Base.Mds F 3) (rc : ℕ → Fin 3 → F) {g : Grid F}

theorem septExprs_clean {r : ℕ} (hu : g.usable ≤ g.n) (hr : r < g.usable) :
    (∀ e ∈ (septExprs m (config a f)).1, e.Clean g r) ∧
      ∀ i, ((septExprs m (config a f)).2 i).Clean g r :=
  septupleLoop_clean m hu hr _ _ _ rfl (following_offset a f) fun i =>
    query_clean r (by rw [sept_offset]; omega) hu hr

/-- The branch of a `select` that is not taken may be poisoned. -/
theorem selectExpr_clean {r : ℕ} {s t e : Expr F} (hs : s.Clean g r)
    (h : s.eval g r = 1 ∧ t.Clean g r ∨ s.eval g r = 0 ∧ e.Clean g r) : (selectExpr s t e).Clean g r := by
  have h1 : ((Expr.const 1 : Expr F) - s).Clean g r := (clean_const g r 1).sub hs
  rcases h with ⟨h, ht⟩ | ⟨h, he⟩
  · exact (hs.mul ht).add (Clean.mul_zero _ h1 (by simp [h]))
  · exact (Clean.mul_zero _ hs h).add (h1.mul he)

theorem deriveSelector_clean (c r : ℕ) : (deriveSelector c : Expr F).Clean g r :=
  ((((((((clean_fixed g r c 0).add (clean_fixed g r c _)).add (clean_fixed g r c _)).add
    (clean_fixed g r c _)).add (clean_fixed g r c _)).add (clean_fixed g r c _)).add
    (clean_fixed g r c _)).add (clean_fixed g r c _))

variable (starts : List ℕ) (hm : Marks g f starts) (hu : g.usable ≤ g.n)
  (hfit : ∀ s ∈ starts, s + 8 ≤ g.usable)
include hm hu hfit

/-- A gate multiplied by the chip selector is not poisoned if it is not poisoned within the blocks. -/
theorem unpoisoned_q (name : String) (l : List (Expr F))
    (h : ∀ s ∈ starts, ∀ j < 8, ∀ e ∈ l, e.Clean g (s + j)) :
    (Gate.mk name (withSelector (deriveSelector f) l)).Unpoisoned g := by
  intro e he
  obtain ⟨e', he', rfl⟩ := List.mem_map.mp he
  refine split_rows f g starts hm
    (fun r => Clean g r _ ∧ (g.usable ≤ r → Expr.eval g r _ = 0)) ?_ ?_
  · intro s hs j hj
    have := hfit s hs
    exact ⟨(deriveSelector_clean f _).mul (h s hs j hj e' he'), fun h => by omega⟩
  · intro r hr hout
    have h0 := hm.q_out hr hout
    exact ⟨Clean.mul_zero _ (deriveSelector_clean f _) h0, fun _ => by rw [eval_mul, h0, zero_mul]⟩

theorem gates_unpoisoned : ∀ q ∈ gates m rc (config a f), q.Unpoisoned g := by
  have hrow : ∀ s ∈ starts, ∀ j < 8, s + j < g.usable := fun s hs j hj => by
    have := hfit s hs; omega
  have hquery : (gateQuery : Gate F).Unpoisoned g := by
    intro e he r _
    simp only [gateQuery, List.mem_singleton] at he
    subst he
    exact ⟨clean_const g r 0, fun _ => rfl⟩
  simp only [gates, List.forall_mem_cons, List.not_mem_nil, false_imp_iff, implies_true, and_true]
  refine ⟨hquery, hquery, hquery, ?_, ?_, ?_, ?_⟩
  · exact unpoisoned_q f starts hm hu hfit _ _ fun s hs j hj =>
      (septExprs_clean a f m hu (hrow s hs j hj)).1
  · -- the transition gate has a selector of its own
    intro e he
    obtain ⟨e', he', rfl⟩ := List.mem_map.mp he
    obtain ⟨i, -, rfl⟩ := List.mem_map.mp he'
    have hq : ∀ r, (Expr.fixed (config a f).isLast 4 : Expr F).Clean g r := fun r => clean_fixed g r _ _
    refine split_rows f g starts hm
      (fun r => Clean g r _ ∧ (g.usable ≤ r → Expr.eval g r _ = 0)) ?_ ?_
    · intro s hs j hj
      have hf := hfit s hs
      refine ⟨?_, fun h => by omega⟩
      by_cases h3 : j = 3
      · subst h3
        refine (hq _).mul (Clean.sub (matmulExpr_clean m (fun k => ?_) i) ?_)
        · have hc : ∀ k : Fin 3, ((transitionInput (config a f).transition k).query 0 : Expr F).Clean g (s + 3) := by
            intro k
            refine query_clean (s + 1 + k) ?_ hu (by omega)
            fin_cases k <;> simp [transitionInput] <;> ring
          fin_cases k
          · exact pow5Expr_clean ((hc 0).add (clean_const g _ _))
          · exact hc 1
          · exact hc 2
        · exact query_clean s (by rw [sept_offset]; push_cast; ring) hu (by omega)
      · refine Clean.mul_zero _ (hq _) ?_
        change g.fixed f (g.rot (s + j) 4) = 0
        rw [sig_middle f g starts hm hs hj, if_neg h3]
    · intro r hr hout
      have h0 : (Expr.fixed (config a f).isLast 4 : Expr F).eval g r = 0 := by
        refine hm.at_zero (i := 4) hr (by norm_num) fun s hs e => hout s hs ?_
        omega
      exact ⟨Clean.mul_zero _ (hq _) h0, fun _ => by rw [eval_mul, h0, zero_mul]⟩
  · refine unpoisoned_q f starts hm hu hfit _ _ fun s hs j hj e he => ?_
    obtain ⟨i, -, rfl⟩ := List.mem_map.mp he
    have hf := hfit s hs
    refine Clean.sub (selectExpr_clean ((clean_fixed g _ _ _).add (clean_fixed g _ _ _)) ?_)
      (matmulExpr_clean m (fun k => outputExpr_clean (full_offset a f k) hu (hrow s hs j hj)) i)
    have hsig : (Expr.fixed (config a f).isLast 4 + Expr.fixed (config a f).isLast 0 : Expr F).eval g (s + j) =
        (if j = 3 then 1 else 0) + if j = 7 then 1 else 0 := by
      change g.fixed f (g.rot (s + j) 4) + g.fixed f (g.rot (s + j) 0) = _
      rw [sig_middle f g starts hm hs hj, sig_last f g starts hm hs hj]
    rw [hsig]
    by_cases hb : j = 3 ∨ j = 7
    · left
      refine ⟨by rcases hb with rfl | rfl <;> simp, query_clean (s + j - 2 + i) ?_ hu (by omega)⟩
      fin_cases i <;> simp [transitionInput] <;> omega
    · right
      refine ⟨by rw [if_neg (by omega), if_neg (by omega), add_zero], ?_⟩
      exact query_clean (s + j + 1) (by rw [full_offset]; push_cast; ring) hu (by omega)
  · refine unpoisoned_q f starts hm hu hfit _ _ fun s hs j hj e he => ?_
    obtain ⟨i, -, rfl⟩ := List.mem_map.mp he
    have hf := hfit s hs
    refine Clean.sub (selectExpr_clean (clean_fixed g _ _ _) ?_)
      ((septExprs_clean a f m hu (hrow s hs j hj)).2 i)
    have hsig : (Expr.fixed (config a f).isLast 0 : Expr F).eval g (s + j) = if j = 7 then 1 else 0 :=
      sig_last f g starts hm hs hj
    rw [hsig]
    by_cases hb : j = 7
    · left
      refine ⟨if_pos hb, query_clean (s + 4) ?_ hu (by omega)⟩
      simp only [RelCell.rotated, full_offset]
      push_cast
      omega
    · right
      refine ⟨if_neg hb, query_clean (s + j + 1) (by rw [sept_offset]; push_cast; ring) hu (by omega)⟩

end

/-- The Septidon chip under the mock prover. -/
theorem lawful_mock (m : Base.Mds F 3) (rc : ℕ → Fin 3 → F) (hc : Compact rc) :
    (lawful m rc hc).Mock where
  unpoisoned a f σ ws p g hap hu hfit hfix hsel := by
    have hfit' : Fits (placedOps a f m rc (placeAt ws p)) g.n := fun o ho => le_trans (hfit o ho) hu
    have hm := marks_of a f m rc hc _ (placeAt_apart 8 ws p hap) g hfit'
      (fun r hr => hfix f le_rfl (by change f < f + 11; omega) r hr)
    refine gates_unpoisoned a f m rc _ hm hu fun s hs => ?_
    obtain ⟨q, hq, rfl⟩ := List.mem_map.mp hs
    exact fits_blocks a f m rc hc _ g.usable hfit q hq
  assigned a f σ w p q hq s r hs := by
    rcases (lawful m rc hc).shape a f σ [w] p _ hs with ⟨_, _, _, e, _⟩ | ⟨_, _, _, e, _⟩ |
      ⟨_, _, e, h1, h2, _⟩ | ⟨_, _, _, _, e, _⟩
    · cases e
    · cases e
    · change _ < σ + 0 at h2; omega
    · cases e

end Septidon

namespace Pow5
open Expr
variable {t : ℕ}

theorem mem_foldl_queries (q : Col × ℤ) (l : List (Expr F)) : ∀ e : Expr F,
    q ∈ (l.foldl (· + ·) e).queries ↔ q ∈ e.queries ∨ ∃ x ∈ l, q ∈ x.queries := by
  induction l with
  | nil => simp
  | cons x l ih => intro e; simp [ih, or_assoc]

theorem mem_reduceAdd_queries (q : Col × ℤ) (l : List (Expr F)) :
    q ∈ (reduceAdd l).queries ↔ ∃ x ∈ l, q ∈ x.queries := by
  cases l with
  | nil => simp [reduceAdd]
  | cons x l => simp [reduceAdd, mem_foldl_queries]

theorem mem_pow5_queries (q : Col × ℤ) (e : Expr F) : q ∈ (pow5Expr e).queries ↔ q ∈ e.queries := by
  simp [pow5Expr]

/-- The cells queried by the round gates. -/
inductive RoundQuery (cols : Cols t) : Col × ℤ → Prop
  | cur (i : Fin (t + 1)) : RoundQuery cols (.advice (cols.state i), 0)
  | next (i : Fin (t + 1)) : RoundQuery cols (.advice (cols.state i), 1)
  | rcA (i : Fin (t + 1)) : RoundQuery cols (.fixed (cols.rcA i), 0)

section
variable (S : Params F t) (cols : Cols t) (σ : ℕ)

theorem fullGate_queries : ∀ e ∈ (fullGate (config S cols σ)).polys, ∀ q ∈ e.queries, RoundQuery cols q := by
  intro e he q hq
  obtain ⟨i, -, rfl⟩ := List.mem_map.mp he
  simp only [queries_mul, queries_selector, queries_sub, List.nil_append, List.mem_append,
    mem_reduceAdd_queries, List.mem_map, List.mem_finRange, true_and, exists_exists_eq_and, queries_scaled,
    mem_pow5_queries, queries_add, queries_advice, queries_fixed, List.mem_singleton] at hq
  rcases hq with ⟨k, rfl | rfl⟩ | rfl
  · exact .cur k
  · exact .rcA k
  · exact .next i

theorem singleGate_queries : ∀ e ∈ (singleGate (config S cols σ)).polys, ∀ q ∈ e.queries,
    RoundQuery cols q := by
  intro e he q hq
  obtain ⟨i, -, rfl⟩ := List.mem_map.mp he
  simp only [queries_mul, queries_selector, queries_sub, List.nil_append, List.mem_append,
    mem_reduceAdd_queries, List.mem_map, List.mem_finRange, true_and, exists_exists_eq_and, queries_scaled,
    mem_pow5_queries, queries_add, queries_advice, queries_fixed, List.mem_singleton] at hq
  rcases hq with ((rfl | rfl) | ⟨k, rfl | rfl⟩) | rfl
  · exact .cur 0
  · exact .rcA 0
  · exact .cur k.succ
  · exact .rcA k.succ
  · exact .next i

theorem midExpr_queries (i : Fin (t + 1)) (q : Col × ℤ) (hq : q ∈ (midExpr (config S cols σ) i).queries) :
    RoundQuery cols q ∨ q = (.advice cols.partialSbox, 0) := by
  have key : ∀ (l : List (Fin t)) (e : Expr F), (∀ q ∈ e.queries, RoundQuery cols q ∨
      q = (.advice cols.partialSbox, 0)) → ∀ q ∈ (l.foldl (fun acc (k : Fin t) =>
      acc + Expr.scaled (Expr.advice (cols.state k.succ) 0 + Expr.fixed (cols.rcA k.succ) 0)
      (S.mReg i k.succ)) e).queries, RoundQuery cols q ∨ q = (.advice cols.partialSbox, 0) := by
    intro l
    induction l with
    | nil => intro e he; exact he
    | cons k l ih =>
      intro e he
      refine ih _ fun q hq => ?_
      simp only [queries_add, queries_scaled, queries_advice, queries_fixed, List.mem_append,
        List.mem_singleton] at hq
      rcases hq with hq | rfl | rfl
      · exact he q hq
      · exact Or.inl (.cur k.succ)
      · exact Or.inl (.rcA k.succ)
  refine key _ _ (fun q hq => ?_) q hq
  simp only [queries_scaled, queries_advice, List.mem_singleton] at hq
  exact Or.inr hq

theorem nextExpr_queries (i : Fin (t + 1)) (q : Col × ℤ) (hq : q ∈ (nextExpr (config S cols σ) i).queries) :
    RoundQuery cols q := by
  simp only [nextExpr, mem_reduceAdd_queries, List.mem_map, List.mem_finRange, true_and,
    exists_exists_eq_and, queries_scaled, queries_advice, List.mem_singleton] at hq
  obtain ⟨k, rfl⟩ := hq
  exact .next k

theorem partialGate_queries : ∀ e ∈ (partialGate (config S cols σ)).polys, ∀ q ∈ e.queries,
    RoundQuery cols q ∨ q = (.advice cols.partialSbox, 0) ∨ ∃ i, q = (.fixed (cols.rcB i), 0) := by
  intro e he q hq
  obtain ⟨e', he', rfl⟩ := List.mem_map.mp he
  rw [queries_mul, queries_selector, List.nil_append] at hq
  have hmid := midExpr_queries S cols σ
  have hnext := nextExpr_queries S cols σ
  rcases List.mem_append.mp he' with h | h
  · simp only [List.mem_cons, List.not_mem_nil, or_false] at h
    rcases h with rfl | rfl
    · simp only [queries_sub, mem_pow5_queries, queries_add, queries_advice, queries_fixed, List.mem_append,
        List.mem_singleton] at hq
      rcases hq with (rfl | rfl) | rfl
      · exact Or.inl (.cur 0)
      · exact Or.inl (.rcA 0)
      · exact Or.inr (Or.inl rfl)
    · simp only [queries_sub, mem_pow5_queries, queries_add, queries_fixed, List.mem_append,
        List.mem_singleton] at hq
      rcases hq with (h | rfl) | h
      · exact (hmid _ _ h).imp_right Or.inl
      · exact Or.inr (Or.inr ⟨0, rfl⟩)
      · exact Or.inl (hnext _ _ h)
  · obtain ⟨k, -, rfl⟩ := List.mem_map.mp h
    simp only [queries_sub, queries_add, queries_fixed, List.mem_append, List.mem_singleton] at hq
    rcases hq with (h | rfl) | h
    · exact (hmid _ _ h).imp_right Or.inl
    · exact Or.inr (Or.inr ⟨k.succ, rfl⟩)
    · exact Or.inl (hnext _ _ h)

/-- Row `s + o` of the region of a permutation: where a round gate queries, the region assigns. -/
theorem round_assigned (w : Words F (t + 1)) (s o : ℕ) (ho : o < steps S) {q : Col × ℤ}
    (hq : RoundQuery cols q) : ∃ r' : ℕ, ((s + o : ℕ) : ℤ) + q.2 = r' ∧
      ∃ op ∈ (permuteBody S (config S cols σ) w s).ops, op.Assigns q.1 r' := by
  have hmem := (permuteBody_spec S cols σ s w).2
  cases hq with
  | cur i => exact ⟨s + o, by simp, _, (hmem _).mpr (Or.inl (.state o ho.le i)), rfl, rfl⟩
  | next i => exact ⟨s + (o + 1), by push_cast; ring, _, (hmem _).mpr (Or.inl (.state (o + 1) ho i)), rfl, rfl⟩
  | rcA i => exact ⟨s + o, by simp, _, (hmem _).mpr (Or.inl (.rcA o ho i)), rfl, rfl⟩

/-- Every selector enabled by the region of a permutation belongs to one row. -/
theorem permuteBody_selector (w : Words F (t + 1)) (s k r : ℕ)
    (h : Op.selector k r ∈ (permuteBody S (config S cols σ) w s).ops) :
    ∃ o < steps S, k = selAt S σ o ∧ r = s + o := by
  rcases ((permuteBody_spec S cols σ s w).2 _).mp h with h | ⟨i, h⟩
  · generalize ho : Op.selector k r = op at h
    cases h with
    | sel o ho' => injection ho with e1 e2; exact ⟨o, ho', e1, e2⟩
    | _ => cases ho
  · cases h

theorem mem_foldl_sels (k : ℕ) (l : List (Expr F)) : ∀ e : Expr F,
    k ∈ (l.foldl (· + ·) e).sels ↔ k ∈ e.sels ∨ ∃ x ∈ l, k ∈ x.sels := by
  induction l with
  | nil => simp
  | cons x l ih => intro e; simp [ih, or_assoc]

theorem mem_reduceAdd_sels (k : ℕ) (l : List (Expr F)) : k ∈ (reduceAdd l).sels ↔ ∃ x ∈ l, k ∈ x.sels := by
  cases l with
  | nil => simp [reduceAdd]
  | cons x l => simp [reduceAdd, mem_foldl_sels]

theorem midExpr_sels (i : Fin (t + 1)) : (midExpr (config S cols σ) i).sels = [] := by
  have key : ∀ (l : List (Fin t)) (e : Expr F), e.sels = [] → (l.foldl (fun acc (k : Fin t) =>
      acc + Expr.scaled (Expr.advice (cols.state k.succ) 0 + Expr.fixed (cols.rcA k.succ) 0)
      (S.mReg i k.succ)) e).sels = [] := by
    intro l
    induction l with
    | nil => intro e he; exact he
    | cons k l ih => intro e he; exact ih _ (by simp [he])
  exact key _ _ rfl

/-- Each gate is multiplied by one selector and queries no other. -/
theorem gate_sel : ∀ j : Fin 4, ∀ e ∈ ((gates (config S cols σ)).get j).polys,
    (∃ e', e = .selector (σ + j) * e') ∧ ∀ k ∈ e.sels, k = σ + j := by
  have hnext : ∀ i k, k ∉ (nextExpr (config S cols σ) i).sels := by
    intro i k
    simp [nextExpr, mem_reduceAdd_sels]
  intro j e he
  fin_cases j
  · obtain ⟨i, -, rfl⟩ := List.mem_map.mp he
    refine ⟨⟨_, rfl⟩, fun k hk => ?_⟩
    simpa [mem_reduceAdd_sels, pow5Expr, config] using hk
  · obtain ⟨e', he', rfl⟩ := List.mem_map.mp he
    refine ⟨⟨_, rfl⟩, fun k hk => ?_⟩
    rw [sels_mul, sels_selector, List.singleton_append, List.mem_cons] at hk
    refine hk.resolve_right fun hk => ?_
    rcases List.mem_append.mp he' with h | h
    · simp only [List.mem_cons, List.not_mem_nil, or_false] at h
      rcases h with rfl | rfl
      · simp [pow5Expr] at hk
      · simp [pow5Expr, midExpr_sels, hnext] at hk
    · obtain ⟨k, -, rfl⟩ := List.mem_map.mp h
      simp [midExpr_sels, hnext] at hk
  · obtain ⟨i, -, rfl⟩ := List.mem_map.mp he
    refine ⟨⟨_, rfl⟩, fun k hk => ?_⟩
    simpa [mem_reduceAdd_sels, pow5Expr, config] using hk
  · obtain ⟨e', he', rfl⟩ := List.mem_map.mp he
    refine ⟨⟨_, rfl⟩, fun k hk => ?_⟩
    rw [sels_mul, sels_selector, List.singleton_append, List.mem_cons] at hk
    refine hk.resolve_right fun hk => ?_
    rcases List.mem_append.mp he' with h | h
    · obtain ⟨k, -, rfl⟩ := List.mem_map.mp h
      simp at hk
    · rw [List.mem_singleton.mp h] at hk
      simp at hk

theorem exists_index {p : Gate F} (hp : p ∈ gates (config S cols σ)) :
    ∃ j : Fin 4, p = (gates (config S cols σ)).get j := by
  obtain ⟨j, rfl⟩ := List.mem_iff_get.mp hp
  exact ⟨j, rfl⟩

/-- The region of a permutation assigns every cell queried by the gates it enables. -/
theorem permute_assigned (w : Words F (t + 1)) (s : ℕ) : ∀ p ∈ gates (config S cols σ),
    p.CellsAssigned (permuteBody S (config S cols σ) w s).ops := by
  intro p hp k r hk ⟨e₀, he₀, hs⟩ e he q hq
  obtain ⟨o, ho, rfl, rfl⟩ := permuteBody_selector S cols σ w s k r hk
  obtain ⟨j, rfl⟩ := exists_index S cols σ hp
  have hj := (gate_sel S cols σ j e₀ he₀).2 _ hs
  have hmem := (permuteBody_spec S cols σ s w).2
  fin_cases j
  · exact round_assigned S cols σ w s o ho (fullGate_queries S cols σ e he q hq)
  · have hd := (selAt_double S σ).mp hj
    rcases partialGate_queries S cols σ e he q hq with h | rfl | ⟨i, rfl⟩
    · exact round_assigned S cols σ w s o ho h
    · exact ⟨s + o, by simp, _, (hmem _).mpr (Or.inl (.sbox o ho hd)), rfl, rfl⟩
    · exact ⟨s + o, by simp, _, (hmem _).mpr (Or.inl (.rcB o ho hd i)), rfl, rfl⟩
  · exact round_assigned S cols σ w s o ho (singleGate_queries S cols σ e he q hq)
  · have := (selAt_lt S σ o).2
    change _ = σ + 3 at hj
    omega

theorem Assigns_bottom {c : Col} {r : ℕ} {op : Op F} (h : op.Assigns c r) : r + 1 = op.bottom := by
  cases op <;> first | exact h.elim | (simp only [Op.Assigns] at h; simp [Op.bottom, h.2])

/-- The gates are not poisoned: their selectors are enabled only where the queried cells are assigned. -/
theorem gates_unpoisoned {g : Grid F} (ps : List (Words F (t + 1) × ℕ)) (hu : g.usable ≤ g.n)
    (hfit : Fits (placedOps S cols σ ps) g.usable)
    (hsel : ∀ k < 4, ∀ r < g.n, g.selector (σ + k) r = finalSelector (placedOps S cols σ ps) (σ + k) r) :
    ∀ p ∈ gates (config S cols σ), p.Unpoisoned g := by
  intro p hp
  obtain ⟨j, rfl⟩ := exists_index S cols σ hp
  by_cases hne : ((gates (config S cols σ)).get j).polys = []
  · intro e he; rw [hne] at he; cases he
  obtain ⟨e₀, he₀⟩ := List.exists_mem_of_ne_nil _ hne
  refine Gate.unpoisoned_of_assigned (s := σ + j) hu (fun e he => (gate_sel S cols σ j e he).1) fun r hr hs => ?_
  rw [hsel j j.2 r hr, finalSelector_iff] at hs
  obtain ⟨w, hw, hm⟩ := List.mem_flatMap.mp hs
  have hf : ∀ op ∈ (permuteBody S (config S cols σ) w.1 w.2).ops, op.bottom ≤ g.usable := fun op h =>
    hfit op (List.mem_flatMap.mpr ⟨w, hw, h⟩)
  refine ⟨by simpa [Op.bottom] using hf _ hm, fun e he q hq => ?_⟩
  obtain ⟨e', he'⟩ := (gate_sel S cols σ j e₀ he₀).1
  obtain ⟨r', h1, op, h2, h3⟩ := permute_assigned S cols σ w.1 w.2 _ hp _ r hm
    ⟨e₀, he₀, by rw [he']; simp⟩ e he q hq
  have := hf op h2
  have := Assigns_bottom h3
  exact ⟨r', h1, by omega⟩

end

/-- The Pow5 chip under the mock prover. -/
theorem lawful_mock (S : Params F 2) (hinv : Matrix.of S.mReg * Matrix.of S.mInv = 1) :
    (lawful S hinv).Mock where
  unpoisoned a f σ ws p g hap hu hfit hfix hsel :=
    gates_unpoisoned S (chipCols a f) σ (placeAt ws p) hu hfit
      fun k hk r hr => hsel _ (by omega) (by change _ < σ + 4; omega) r hr
  assigned a f σ w p q hq := by
    have : (lawful S hinv).ops a f σ [w] p = (permuteBody S (config S (chipCols a f) σ) w (p 0)).ops := by
      change placedOps S (chipCols a f) σ (placeAt [w] p) = _
      simp [placedOps, placeAt]
    rw [this]
    exact permute_assigned S (chipCols a f) σ w (p 0) q hq

end Pow5
end Circuit
