import Verif.Props.ArgumentKzg
import Verif.Props.ArgumentLookup
import Mathlib.Data.Int.Interval

/-!
# Proofs with commitments for circuits with a hash table
-/

set_option linter.unusedVariables false
set_option linter.unusedSimpArgs false
set_option linter.unusedSectionVars false

namespace Halo2.Key

variable {F : Type} [Field F]

/-- Every query is at most 3 rows above or 7 rows below. -/
def Near (K : Key F) : Prop := ∀ e ∈ K.exprs, ∀ q ∈ e.queries, -3 ≤ q.2 ∧ q.2 ≤ 7

theorem rot_of_mem {K : Key F} (hn : K.Near) {l : Label} {k : ℤ} (h : (l, k) ∈ K.queries) :
    (∃ c, l = .col c ∧ -3 ≤ k ∧ k ≤ 7) ∨ (∃ i, l = .zPerm i ∧ (k = 0 ∨ k = 1 ∨ k = K.lastRot)) ∨
      (∃ i, l = .zLookup i ∧ (k = 0 ∨ k = 1)) ∨ (∃ i, l = .input i ∧ (k = 0 ∨ k = -1)) ∨
      ((∀ c, l ≠ .col c) ∧ (∀ i, l ≠ .zPerm i) ∧ (∀ i, l ≠ .zLookup i) ∧ (∀ i, l ≠ .input i) ∧ k = 0) := by
  cases l with
  | col c =>
    left
    rw [mem_queries_col] at h
    refine ⟨c, rfl, ?_⟩
    rcases h with ⟨e, he, hq⟩ | ⟨-, rfl⟩
    · exact hn e he _ hq
    · exact ⟨by norm_num, by norm_num⟩
  | zPerm i =>
    refine Or.inr (Or.inl ⟨i, rfl, ?_⟩)
    simp only [queries, List.mem_append, List.mem_map, List.mem_flatMap, Prod.mk.injEq, reduceCtorEq, false_and, and_false,
      exists_false, false_or, or_false, List.mem_cons, List.not_mem_nil] at h
    obtain ⟨j, -, (h | h) | h⟩ := h
    · exact Or.inl h.2
    · exact Or.inr (Or.inl h.2)
    · split_ifs at h
      · rw [List.mem_singleton, Prod.mk.injEq] at h
        exact Or.inr (Or.inr h.2)
      · simp at h
  | zLookup i =>
    refine Or.inr (Or.inr (Or.inl ⟨i, rfl, ?_⟩))
    simp only [queries, List.mem_append, List.mem_map, List.mem_flatMap, Prod.mk.injEq, reduceCtorEq, false_and, and_false,
      exists_false, false_or, or_false, List.mem_cons, List.not_mem_nil] at h
    rcases h with ⟨j, -, h⟩ | ⟨j, -, h⟩
    · split_ifs at h <;> simp at h
    · rcases h with h | h
      · exact Or.inl h.2
      · exact Or.inr h.2
  | input i =>
    refine Or.inr (Or.inr (Or.inr (Or.inl ⟨i, rfl, ?_⟩)))
    simp only [queries, List.mem_append, List.mem_map, List.mem_flatMap, Prod.mk.injEq, reduceCtorEq, false_and, and_false,
      exists_false, false_or, or_false, List.mem_cons, List.not_mem_nil] at h
    rcases h with ⟨j, -, h⟩ | ⟨j, -, h⟩
    · split_ifs at h <;> simp at h
    · rcases h with h | h
      · exact Or.inl h.2
      · exact Or.inr h.2
  | _ =>
    refine Or.inr (Or.inr (Or.inr (Or.inr ⟨by simp, by simp, by simp, by simp, ?_⟩)))
    simp only [queries, List.mem_append, List.mem_map, List.mem_flatMap, Prod.mk.injEq, reduceCtorEq, false_and, and_false,
      exists_false, false_or, or_false, List.mem_cons, List.not_mem_nil] at h
    rcases h with ⟨j, -, h⟩ | h
    · split_ifs at h <;> simp at h
    · first
        | exact h.2
        | exact h.2.symm
        | (obtain ⟨j, -, h⟩ := h; exact h.2)
        | (obtain ⟨j, -, h⟩ := h; exact h.2.symm)

/-- Near queries are apart on more than ten rows. -/
theorem Near.apart {K : Key F} (hn : K.Near) (h10 : 10 < K.n) (hu : 2 ≤ K.usable) (hu' : K.usable < K.n) : K.Apart := by
  have small : ∀ z : ℤ, (K.n : ℤ) ∣ z → -(K.n : ℤ) < z → z < K.n → z = 0 := by
    intro z hz h1 h2
    exact Int.eq_zero_of_abs_lt_dvd hz (abs_lt.mpr ⟨h1, h2⟩)
  intro l k k' h h' hd
  have hL : K.lastRot = -((K.n : ℤ) - K.usable) := rfl
  have key : -(K.n : ℤ) < k - k' → k - k' < K.n → k = k' := fun h1 h2 => by have := small _ hd h1 h2; omega
  rcases rot_of_mem hn h with ⟨c, rfl, h1⟩ | ⟨i, rfl, h1⟩ | ⟨i, rfl, h1⟩ | ⟨i, rfl, h1⟩ | ⟨n1, n2, n3, n4, rfl⟩
  · rcases rot_of_mem hn h' with ⟨c', -, h2⟩ | ⟨i, e, -⟩ | ⟨i, e, -⟩ | ⟨i, e, -⟩ | ⟨n1, -⟩
    · exact key (by omega) (by omega)
    · cases e
    · cases e
    · cases e
    · exact absurd rfl (n1 c)
  · rcases rot_of_mem hn h' with ⟨c', e, -⟩ | ⟨i, -, h2⟩ | ⟨i, e, -⟩ | ⟨i, e, -⟩ | ⟨-, n1, -⟩
    · cases e
    · exact key (by omega) (by omega)
    · cases e
    · cases e
    · exact absurd rfl (n1 i)
  · rcases rot_of_mem hn h' with ⟨c', e, -⟩ | ⟨i, e, -⟩ | ⟨i, -, h2⟩ | ⟨i, e, -⟩ | ⟨-, -, n1, -⟩
    · cases e
    · cases e
    · exact key (by omega) (by omega)
    · cases e
    · exact absurd rfl (n1 i)
  · rcases rot_of_mem hn h' with ⟨c', e, -⟩ | ⟨i, e, -⟩ | ⟨i, e, -⟩ | ⟨i, -, h2⟩ | ⟨-, -, -, n1, -⟩
    · cases e
    · cases e
    · cases e
    · exact key (by omega) (by omega)
    · exact absurd rfl (n1 i)
  · rcases rot_of_mem hn h' with ⟨c', e, -⟩ | ⟨i, e, -⟩ | ⟨i, e, -⟩ | ⟨i, e, -⟩ | ⟨-, -, -, -, rfl⟩
    · exact absurd e (n1 _)
    · exact absurd e (n2 _)
    · exact absurd e (n3 _)
    · exact absurd e (n4 _)
    · rfl

theorem sel_within {A B S : ℕ → Prop} {e : Expr F} (h : e.Within A B S) {s : ℕ} (hs : s ∈ e.sels) : S s := by
  induction e with
  | const => simp at hs
  | selector i => simp at hs; exact hs ▸ h
  | fixed => simp at hs
  | advice => simp at hs
  | neg e ih => exact ih h hs
  | add a b iha ihb => exact (List.mem_append.mp hs).elim (iha h.1) (ihb h.2)
  | mul a b iha ihb => exact (List.mem_append.mp hs).elim (iha h.1) (ihb h.2)
  | scaled e c ih => exact ih h hs

theorem query_within' {A B S : ℕ → Prop} {e : Expr F} (h : e.Within A B S) {q : Col × ℤ} (hs : q ∈ e.queries) :
    (∃ i, q.1 = .advice i ∧ A i) ∨ ∃ i, q.1 = .fixed i ∧ B i := by
  induction e with
  | const => simp at hs
  | selector i => simp at hs
  | fixed i k => simp at hs; exact Or.inr ⟨i, by rw [hs], h⟩
  | advice i k => simp at hs; exact Or.inl ⟨i, by rw [hs], h⟩
  | neg e ih => exact ih h hs
  | add a b iha ihb => exact (List.mem_append.mp hs).elim (iha h.1) (ihb h.2)
  | mul a b iha ihb => exact (List.mem_append.mp hs).elim (iha h.1) (ihb h.2)
  | scaled e c ih => exact ih h hs

theorem nodup_length {α : Type} [DecidableEq α] {l : List α} {s : Finset α} (h : ∀ a ∈ l, a ∈ s) : l.dedup.length ≤ s.card := by
  rw [← List.toFinset_card_of_nodup l.nodup_dedup]
  refine Finset.card_le_card fun a ha => h a ?_
  simpa using ha

/-- The number of openings, from the number of columns. -/
theorem Near.queries_le {K : Key F} (hn : K.Near) {A B S : ℕ}
    (hw : ∀ e ∈ K.exprs, e.Within (· < A) (· < B) (· < S))
    (hc : ∀ c ∈ K.cols, (∃ i < A, c = .advice i) ∨ ∃ i < B, c = .fixed i) :
    K.queries.length ≤ 11 * (A + B) + 3 * K.chunks + 5 * K.lookups.length + S + K.cols.length + 1 := by
  have h1 : ((K.exprs.flatMap Expr.queries ++ K.cols.map fun c => ((c, 0) : Col × ℤ))).dedup.length ≤ 11 * (A + B) := by
    refine (nodup_length (s := ((Finset.range A).image Col.advice ∪ (Finset.range B).image Col.fixed) ×ˢ
      Finset.Icc (-3 : ℤ) 7) fun q hq => ?_).trans ?_
    · rw [Finset.mem_product, Finset.mem_union, Finset.mem_image, Finset.mem_image, Finset.mem_Icc]
      rcases List.mem_append.mp hq with h | h
      · obtain ⟨e, he, h⟩ := List.mem_flatMap.mp h
        refine ⟨?_, hn e he q h⟩
        rcases query_within' (hw e he) h with ⟨i, h1, h2⟩ | ⟨i, h1, h2⟩
        · exact Or.inl ⟨i, Finset.mem_range.mpr h2, h1.symm⟩
        · exact Or.inr ⟨i, Finset.mem_range.mpr h2, h1.symm⟩
      · obtain ⟨c, hm, rfl⟩ := List.mem_map.mp h
        refine ⟨?_, by norm_num, by norm_num⟩
        rcases hc c hm with ⟨i, h2, h1⟩ | ⟨i, h2, h1⟩
        · exact Or.inl ⟨i, Finset.mem_range.mpr h2, h1.symm⟩
        · exact Or.inr ⟨i, Finset.mem_range.mpr h2, h1.symm⟩
    · rw [Finset.card_product, Int.card_Icc]
      have : ((Finset.range A).image Col.advice ∪ (Finset.range B).image Col.fixed).card ≤ A + B :=
        (Finset.card_union_le _ _).trans (Nat.add_le_add (Finset.card_image_le.trans_eq (Finset.card_range _))
          (Finset.card_image_le.trans_eq (Finset.card_range _)))
      calc _ ≤ (A + B) * 11 := Nat.mul_le_mul_right _ this
        _ = _ := by ring
  have h2 : (K.exprs.flatMap Expr.sels).dedup.length ≤ S := by
    refine (nodup_length (s := Finset.range S) fun s hs => ?_).trans_eq (Finset.card_range _)
    obtain ⟨e, he, h⟩ := List.mem_flatMap.mp hs
    exact Finset.mem_range.mpr (sel_within (hw e he) h)
  have h3 : ∀ {α : Type} (n m : ℕ) (f : ℕ → List α), (∀ i, (f i).length ≤ m) →
      ((List.range n).flatMap f).length ≤ m * n := by
    intro α n m f hf
    induction n with
    | zero => simp
    | succ n ih =>
      rw [List.range_succ, List.flatMap_append, List.length_append, Nat.mul_succ]
      simpa using Nat.add_le_add ih (hf n)
  have h4 := h3 K.chunks 3 (fun i => [(Label.zPerm i, (0 : ℤ)), (.zPerm i, 1)] ++
    if i + 1 < K.chunks then [(Label.zPerm i, K.lastRot)] else []) (fun i => by split_ifs <;> simp)
  have h5 := h3 K.lookups.length 5 (fun i =>
      [(Label.zLookup i, (0 : ℤ)), (.input i, 0), (.table i, 0), (.input i, -1), (.zLookup i, 1)]) (fun i => by simp)
  simp only [queries, List.length_append, List.length_map, List.length_range, List.length_singleton]
  omega

end Halo2.Key

namespace Props
open Halo2 Circuit Circuit.Table Base.Bn256 Polynomial

/-- An expression that queries only columns before `A`, `B` and selectors before `S`, at most 3 rows above or 7 below. -/
def Modest (A B S : ℕ) (e : Expr Fr) : Prop :=
  e.Within (· < A) (· < B) (· < S) ∧ ∀ q ∈ e.queries, -3 ≤ q.2 ∧ q.2 ≤ 7

/-- The host queries only its own columns and selectors, and not far from the row. -/
def ModestHost (cs : CS Fr) (ws : List (Wide Fr)) : Prop :=
  (∀ p ∈ cs.gates, ∀ e ∈ p.polys, Modest cs.numAdvice cs.numFixed cs.numSelectors e) ∧
  (∀ l ∈ cs.lookups, ∀ p ∈ l.wide.pairs, Modest cs.numAdvice cs.numFixed cs.numSelectors p.1 ∧
    Modest cs.numAdvice cs.numFixed cs.numSelectors p.2) ∧
  (∀ w ∈ ws, ∀ p ∈ w.pairs, Modest cs.numAdvice cs.numFixed cs.numSelectors p.1 ∧
    Modest cs.numAdvice cs.numFixed cs.numSelectors p.2) ∧
  ∀ c ∈ cs.equality, (∃ i < cs.numAdvice, c = .advice i) ∨ ∃ i < cs.numFixed, c = .fixed i

theorem within_mono {A B S A' B' S' : ℕ → Prop} (hA : ∀ i, A i → A' i) (hB : ∀ i, B i → B' i) (hS : ∀ i, S i → S' i)
    {e : Expr Fr} (h : e.Within A B S) : e.Within A' B' S' := by
  induction e with
  | const => trivial
  | selector i => exact hS _ h
  | fixed => exact hB _ h
  | advice => exact hA _ h
  | neg e ih => exact ih h
  | add a b iha ihb => exact ⟨iha h.1, ihb h.2⟩
  | mul a b iha ihb => exact ⟨iha h.1, ihb h.2⟩
  | scaled e c ih => exact ih h

theorem Modest.mono {A B S A' B' S' : ℕ} (hA : A ≤ A') (hB : B ≤ B') (hS : S ≤ S') {e : Expr Fr} (h : Modest A B S e) :
    Modest A' B' S' e :=
  ⟨within_mono (fun i hi => lt_of_lt_of_le hi hA) (fun i hi => lt_of_lt_of_le hi hB) (fun i hi => lt_of_lt_of_le hi hS) h.1,
    h.2⟩

/-- The queries of the circuit after `configure_sub`. -/
theorem table_modest {x : Run Fr} {k : ChipKind} {short : Bool} (hbn : x.IsBn k short) (hx : x.Legal)
    {ws : List (Wide Fr)} (hm : ModestHost x.cs ws) {ops : List (Op Fr)} {n : ℕ} {ω δ : Fr} {K : Key Fr}
    (hK : keygenWith x.configured.2 ws ops n ω δ = .ok K) :
    (∀ e ∈ K.exprs, Modest (x.cs.numAdvice + 21) (x.cs.numFixed + 12) (x.cs.numSelectors + 5) e) ∧
      ∀ c ∈ K.cols, (∃ i < x.cs.numAdvice + 21, c = .advice i) ∨ ∃ i < x.cs.numFixed + 12, c = .fixed i := by
  obtain ⟨lw, ⟨hA, hB, hS⟩, hnear⟩ := hbn.near
  obtain ⟨m1, m2, m3, m4⟩ := hm
  have up : ∀ {e : Expr Fr}, Modest x.cs.numAdvice x.cs.numFixed x.cs.numSelectors e →
      Modest (x.cs.numAdvice + 21) (x.cs.numFixed + 12) (x.cs.numSelectors + 5) e :=
    fun h => h.mono (by omega) (by omega) (by omega)
  have hcol : ∀ i, x.hashTable i < x.cs.numAdvice + 21 := fun i => by have := hx.cols i; omega
  have hq : x.qEnable < x.cs.numFixed + 12 := by have := hx.enable; omega
  obtain ⟨-, -, A, -, rfl⟩ := keygen_ok hK
  constructor
  · intro e he
    simp only [Key.exprs, Key.lookups, Run.configured_eq lw, List.mem_append, List.mem_flatMap, List.map_append] at he
    rcases he with ⟨p, (hp | hp) | hp, he⟩ | ⟨w, (hw | hw) | hw, p, hp, he⟩
    · exact up (m1 p hp e he)
    · revert e
      revert p
      simp only [tableGates, customRowGate, controlConstrainGate, controlStepGate, hashIndexGate, inputConstrainGate,
        tcols, List.forall_mem_cons, List.not_mem_nil, false_imp_iff, implies_true, and_true, Modest, Expr.queries_mul,
        Expr.queries_fixed, Expr.queries_sub, Expr.queries_add, Expr.queries_advice, Expr.queries_const,
        Expr.queries_selector, List.forall_mem_append, Expr.within_mul, Expr.within_fixed, Expr.within_sub,
        Expr.within_add, Expr.within_advice, Expr.within_const, Expr.within_selector, hcol, hq, true_and]
      norm_num
    · refine ⟨within_mono (fun i hi => ?_) (fun i hi => ?_) (fun i hi => ?_) (lw.within _ _ _ p hp e he),
        hnear _ _ _ p hp e he⟩ <;> omega
    · obtain ⟨l, hl, rfl⟩ := List.mem_map.mp hw
      have := m2 l hl p hp
      simp only [List.mem_cons, List.not_mem_nil, or_false] at he
      rcases he with rfl | rfl
      · exact up this.1
      · exact up this.2
    · obtain ⟨l, hl, rfl⟩ := List.mem_map.mp hw
      rw [List.mem_singleton] at hl
      subst hl
      simp only [Lookup.wide, List.mem_singleton] at hp
      subst hp
      simp only [List.mem_cons, List.not_mem_nil, or_false] at he
      rcases he with rfl | rfl
      · simp only [controlRangeInput, tcols, Modest, Expr.queries_mul, Expr.queries_advice, List.forall_mem_append,
          List.forall_mem_cons, Expr.within_mul, Expr.within_advice, hcol, true_and]
        norm_num
      · simp only [Modest, Expr.queries_fixed, Expr.within_fixed, List.forall_mem_cons]
        norm_num
    · have := m3 w hw p hp
      simp only [List.mem_cons, List.not_mem_nil, or_false] at he
      rcases he with rfl | rfl
      · exact up this.1
      · exact up this.2
  · intro c hc
    have hc' : c ∈ x.configured.2.equality := mem_permCols.mp hc
    simp only [Run.configured_eq lw, List.mem_append] at hc'
    rcases hc' with (h | h) | h
    · rcases m4 c h with ⟨i, hi, rfl⟩ | ⟨i, hi, rfl⟩
      · exact Or.inl ⟨i, by omega, rfl⟩
      · exact Or.inr ⟨i, by omega, rfl⟩
    · simp only [tableEqs, List.mem_cons, List.not_mem_nil, or_false] at h
      left
      rcases h with rfl | rfl | rfl | rfl | rfl | rfl | rfl | rfl
      all_goals first | exact ⟨_, hcol 0, rfl⟩ | exact ⟨_, by omega, rfl⟩
    · rcases lw.eqs_own _ _ _ c h with ⟨i, rfl, h1, h2⟩ | ⟨i, rfl, h1, h2⟩
      · exact Or.inl ⟨i, by omega, rfl⟩
      · exact Or.inr ⟨i, by omega, rfl⟩

variable {G G2 GT : Type} [AddCommGroup G] [Module Fr G] [AddCommGroup G2] [Module Fr G2] [AddCommGroup GT] [Module Fr GT]

/-- **C102** (openings of the crate's circuits). No polynomial of a circuit with a hash table on more than ten rows is opened
twice at the same point, if the host does not query rows farther away than the crate does; the number of openings is
bounded. -/
theorem C102_apart {x : Run Fr} {k : ChipKind} {short : Bool} (hbn : x.IsBn k short) (hx : x.Legal)
    {ws : List (Wide Fr)} (hm : ModestHost x.cs ws) {ops : List (Op Fr)} {n : ℕ} (h10 : 10 < n) {ω δ : Fr} {K : Key Fr}
    (hK : keygenWith x.configured.2 ws ops n ω δ = .ok K) : K.Apart ∧
      K.queries.length ≤ 11 * (x.cs.numAdvice + x.cs.numFixed) + x.cs.numSelectors + 4 * x.cs.equality.length +
        5 * (x.cs.lookups.length + ws.length) + 430 := by
  obtain ⟨h1, h2⟩ := table_modest hbn hx hm hK
  have hnear : K.Near := fun e he => (h1 e he).2
  have hq := hnear.queries_le (fun e he => (h1 e he).1) h2
  obtain ⟨hmin, -, A, -, rfl⟩ := keygen_ok hK
  refine ⟨hnear.apart h10 (by simp only; omega) (by simp only; omega), ?_⟩
  obtain ⟨⟨lw, -⟩, hn⟩ := hbn.lawful
  have hc : (permCols x.configured.2.equality).length ≤ x.cs.equality.length + 14 := by
    refine (permCols_length _).trans (le_of_eq ?_)
    rw [Run.configured_eq lw]
    simp only [List.length_append, (chip_size hbn.1 lw _ _ _).2]
    rfl
  have hl : x.configured.2.lookups.length = x.cs.lookups.length + 1 := by
    rw [Run.configured_eq lw]
    simp
  have hch : ∀ c l : ℕ, (c + l - 1) / l ≤ c := by
    intro c l
    rcases Nat.eq_zero_or_pos l with rfl | hl
    · simp
    · refine Nat.le_of_lt_succ ((Nat.div_lt_iff_lt_mul hl).mpr ?_)
      have : c ≤ c * l := Nat.le_mul_of_pos_right _ hl
      rw [Nat.succ_mul]
      omega
  have h3 := hch (permCols x.configured.2.equality).length (x.configured.2.degreeWith ws - 2)
  simp only [Key.chunks, Key.chunkLen, Key.degree, Key.cols, Key.lookups, List.length_append, List.length_map, hl] at hq
  omega

/-- **C102** (any circuit with a hash table). With commitments and openings, proofs for a circuit with a hash table and
lookups into it show that the table is an accepted one and that what is looked up is in it. -/
theorem C102_table {x : Run Fr} {k : ChipKind} {short : Bool} (hbn : x.IsBn k short) (hx : x.Legal)
    {L' : Layouter Fr} (hL : x.Loads L') {post : List (Op Fr)} {ws : List (Wide Fr)} (hm : ModestHost x.cs ws)
    (quietFixed : ∀ o ∈ x.before.ops ++ post, ∀ c r v, o.FixedWrite c r v → ¬ x.FixedCol c)
    (quietSel : ∀ c r, Op.selector c r ∈ x.before.ops ++ post → ¬ x.Sel c) {n : ℕ} (h10 : 10 < n) {ω δ : Fr} {K : Key Fr}
    (hK : keygenWith x.configured.2 ws (L'.ops ++ post) n ω δ = .ok K) (hω : IsPrimitiveRoot ω n)
    (hδ : DistinctNames x.configured.2 n ω δ) (E : Pairing Fr G G2 GT) :
    K.ProvesKzg E fun g => x.Accepted k short L' post g ∧ ∀ q es, tableLookup x.qEnable x.hashTable q es ∈ ws →
      ∀ row < K.usable, q.eval g row = 1 → Answers x g fun i => (es i).eval g row := by
  obtain ⟨hn, hKω⟩ := keygen_n hK
  refine C102_extract ((C100_lookup hbn hx hL (fun p h => List.mem_of_mem_drop h) (fun p h => List.mem_of_mem_drop h)
    quietFixed quietSel hK hω hδ).mono fun g hg => ⟨hg.1, hg.2.2⟩) (by omega) (by rw [hn, hKω]; exact hω)
    (C102_apart hbn hx hm h10 hK).1 E

theorem lookup_modest {a : ℕ} (ha : 6 ≤ a) {q : Expr Fr} {es : Fin 6 → Expr Fr} (hq : Modest a 2 0 q)
    (hes : ∀ i, Modest a 2 0 (es i)) : ∀ p ∈ (tableLookup 0 (fun i => i) q es).pairs, Modest a 2 0 p.1 ∧ Modest a 2 0 p.2 := by
  intro p hp
  simp only [tableLookup, List.mem_cons, List.mem_ofFn] at hp
  rcases hp with rfl | ⟨i, rfl⟩
  · exact ⟨hq, by simp [Modest]⟩
  · refine ⟨hes i, ?_, ?_⟩
    · simp only [Expr.within_advice]
      omega
    · simp

theorem cell_modest {a c : ℕ} (h : c < a) : Modest a 2 0 (.mul (.fixed 1 0) (.advice c 0)) := by
  refine ⟨⟨by simp [Expr.Within], h⟩, ?_⟩
  simp [Expr.queries]

theorem flag_modest {a : ℕ} : Modest a 2 0 (.fixed 1 0) := by simp [Modest]

theorem zero_modest {a : ℕ} : Modest a 2 0 (.const 0) := by simp [Modest]

theorem host_modest : ModestHost ⟨10, 2, 0, [], [], []⟩ [hostLookup] := by
  refine ⟨by simp, by simp, fun w hw => ?_, by simp⟩
  obtain rfl := List.mem_singleton.mp hw
  refine lookup_modest (by norm_num) flag_modest fun i => ?_
  fin_cases i
  · exact cell_modest (by norm_num)
  · exact cell_modest (by norm_num)
  · exact cell_modest (by norm_num)
  · exact zero_modest
  · exact cell_modest (by norm_num)
  · exact flag_modest

theorem code_modest : ModestHost ⟨11, 2, 0, [bareGate 0 fun i => i], [], []⟩ [codeLookup] := by
  refine ⟨fun p hp e he => ?_, by simp, fun w hw => ?_, by simp⟩
  · obtain rfl := List.mem_singleton.mp hp
    obtain rfl := List.mem_singleton.mp he
    exact ⟨⟨by norm_num [Expr.Within], by norm_num [Expr.Within], by norm_num [Expr.Within]⟩, by simp [Expr.queries]⟩
  · obtain rfl := List.mem_singleton.mp hw
    refine lookup_modest (by norm_num) flag_modest fun i => ?_
    fin_cases i
    · exact cell_modest (by norm_num)
    · exact cell_modest (by norm_num)
    · exact cell_modest (by norm_num)
    · exact cell_modest (by norm_num)
    · exact zero_modest
    · exact cell_modest (by norm_num)

/-- **C102** (requests). For the circuit of C93, with commitments and openings, whatever the pairing: if a prover commits to
requests of which one with words not both zero has a wrong digest, the verifier accepts for at most `60 * 2^kk + 1702` in
`r` of all secrets and challenges; and an honest prover, with right digests, is accepted for all challenges but
`19 * 2^kk + 567` in `r`, whatever the secret. -/
theorem C102_host {k : ChipKind} {ch : Chip Fr 3} (hch : bnChip k = .ok ch) (short short' legacy : Bool) (mode : LoadMode)
    {STEP calcs m kk : ℕ} (hpos : 0 < STEP) (hm : m < calcs) (hkk : kk ≤ 28) (h1 : STEP + 8 ≤ 2 ^ kk)
    (h2 : calcs + 7 ≤ 2 ^ kk) (h3 : k.rows * calcs + 6 ≤ 2 ^ kk) {x : Run Fr}
    (hx : x = hostRun ch short legacy mode STEP .empty calcs) (E : Pairing Fr G G2 GT) :
    ∃ L, x.load = .ok L ∧ ∃ K,
      keygenWith x.configured.2 [hostLookup] (L.ops ++ hostOps (q := 4) m 0) (2 ^ kk) (omega kk) delta = .ok K ∧
      (∀ P : KzgProver Fr, P.Short (2 ^ kk) →
        (∀ i < m, ¬ ((P.advice 7).eval (omega kk ^ i) = 0 ∧ (P.advice 8).eval (omega kk ^ i) = 0) →
          hashWithDomainFr short' ![(P.advice 7).eval (omega kk ^ i), (P.advice 8).eval (omega kk ^ i)]
            ((P.advice 9).eval (omega kk ^ i)) = .ok ((P.advice 6).eval (omega kk ^ i))) ∨
        Nat.card {c : Fr × (Fr × Fr × Fr × Fr × Fr) × Fr × Fr × Fr // P.Accepts K E c.1 c.2} ≤
          (60 * 2 ^ kk + 1702) * Base.Bn256.r ^ 8) ∧
      ∀ v : ℕ → Fin 4 → Fr, (∀ i < m, ¬ (v i 1 = 0 ∧ v i 2 = 0)) →
        (∀ i < m, hashWithDomainFr short' ![v i 1, v i 2] (v i 3) = .ok (v i 0)) →
        ∃ P : KzgProver Fr, P.Short (2 ^ kk) ∧ (∀ i < m, ∀ j : Fin 4, (P.advice (6 + j)).eval (omega kk ^ i) = v i j) ∧
          ∀ τ, Base.Bn256.r ^ 8 ≤ Nat.card {c // P.Accepts K E τ c} + (19 * 2 ^ kk + 567) * Base.Bn256.r ^ 7 := by
  obtain ⟨L, hL, K, hK, ⟨hsl, hlo⟩, hp, hs⟩ := C100_host hch short short' legacy mode hpos hm hkk h1 h2 h3 hx
  have h28 : 2 ^ kk ≤ 2 ^ 28 := Nat.pow_le_pow_right (by norm_num) hkk
  have hlegal : x.Legal := by rw [hx]; exact hostRun_legal (by omega) (by omega) (by simp [HashTable.empty])
  have hbn : x.IsBn k short := by rw [hx]; exact ⟨hch, rfl⟩
  have e0 : x.cs = ⟨10, 2, 0, [], [], []⟩ := by rw [hx]; rfl
  have h10 : 10 < 2 ^ kk := by
    have : 8 ≤ k.rows := by cases k <;> simp [ChipKind.rows]
    have : 8 * 1 ≤ k.rows * calcs := Nat.mul_le_mul this (by omega)
    omega
  obtain ⟨ha, hq⟩ := C102_apart hbn hlegal (by rw [e0]; exact host_modest) h10 hK
  simp only [e0, List.length_nil, List.length_singleton] at hq
  obtain ⟨hn, hKω⟩ := keygen_n hK
  have hω : IsPrimitiveRoot K.ω K.n := by rw [hn, hKω]; exact omega_primitive hkk
  have hn0 : K.n ≠ 0 := by omega
  refine ⟨L, hL, K, hK, fun P hP => ?_, fun v hv hv' => ?_⟩
  · refine (C102_sound (C102_extract hp hn0 hω ha E) (P := P) (hn ▸ hP)).imp (fun hg i hi => ?_) fun hc => ?_
    · have := hg i hi
      change ¬ ((P.advice 7).eval (K.ω ^ i) = 0 ∧ (P.advice 8).eval (K.ω ^ i) = 0) → hashWithDomainFr short'
        ![(P.advice 7).eval (K.ω ^ i), (P.advice 8).eval (K.ω ^ i)] ((P.advice 9).eval (K.ω ^ i)) =
          .ok ((P.advice 6).eval (K.ω ^ i)) at this
      rwa [hKω] at this
    · rw [card_fr] at hc
      exact hc.trans (Nat.mul_le_mul_right _ (by omega))
  · obtain ⟨P, p1, p2, p3⟩ := C102_complete (hs v hv hv') hn0 hω E
    refine ⟨P, hn ▸ p1, fun i hi j => ?_, fun τ => ?_⟩
    · have := p2 i hi j
      change (P.advice (6 + j)).eval (K.ω ^ i) = _ at this
      rwa [hKω] at this
    · have := p3 τ
      rw [card_fr] at this
      exact this.trans (Nat.add_le_add_left (Nat.mul_le_mul_right _ (by omega)) _)

/-! ### Non-vacuity -/

/-- One request, hash(1, 2) in domain 0, on `2^8` rows, with multiplication as the pairing: the right digest convinces, a wrong
one does not, and the chances differ. -/
example {k : ChipKind} {ch : Chip Fr 3} (hch : bnChip k = .ok ch) (short short' legacy : Bool) (mode : LoadMode)
    {x : Run Fr} (hx : x = hostRun ch short legacy mode 62 .empty 2) :
    ∃ D, hashWithDomainFr short' ![1, 2] 0 = .ok D ∧ ∃ K : Key Fr,
      (∃ P : KzgProver Fr, P.Short (2 ^ 8) ∧ (∀ j : Fin 4, (P.advice (6 + j)).eval 1 = ![D, 1, 2, 0] j) ∧
        Base.Bn256.r ^ 8 ≤ Nat.card {c // P.Accepts K (mulPairing Fr) 5 c} + 5431 * Base.Bn256.r ^ 7) ∧
      (∀ P : KzgProver Fr, P.Short (2 ^ 8) → (∀ j : Fin 4, (P.advice (6 + j)).eval 1 = ![D + 1, 1, 2, 0] j) →
        Nat.card {c : Fr × (Fr × Fr × Fr × Fr × Fr) × Fr × Fr × Fr //
          P.Accepts K (mulPairing Fr) c.1 c.2} ≤ 17062 * Base.Bn256.r ^ 8) ∧
      5431 * Base.Bn256.r ^ 7 + 17062 * Base.Bn256.r ^ 8 < Base.Bn256.r ^ 9 := by
  obtain ⟨D, hD⟩ : ∃ D, hashWithDomainFr short' ![1, 2] 0 = .ok D := ⟨_, (C04_C05_bn254 short' false).1 1 2 0⟩
  obtain ⟨L, hL, K, hK, h, h'⟩ := C102_host hch short short' legacy mode (STEP := 62) (calcs := 2) (m := 1) (kk := 8)
    (by norm_num) (by norm_num) (by norm_num) (by norm_num) (by norm_num) (by cases k <;> simp [ChipKind.rows]) hx
    (mulPairing Fr)
  refine ⟨D, hD, K, ?_, fun P hP hv => ?_, ?_⟩
  · obtain ⟨P, p1, p2, p3⟩ := h' (fun _ => ![D, 1, 2, 0]) (by simp) (by simpa using hD)
    refine ⟨P, p1, fun j => by simpa using p2 0 (by norm_num) j, ?_⟩
    have := p3 5
    norm_num at this ⊢
    exact this
  · have hc := (h P hP).resolve_left fun hg => ?_
    · norm_num at hc ⊢
      exact hc
    · have h6 := hv 0
      have h7 := hv 1
      have h8 := hv 2
      have h9 := hv 3
      simp at h6 h7 h8 h9
      have := hg 0 (by norm_num) (by simp [h7])
      simp only [pow_zero, h6, h7, h8, h9] at this
      have := this.symm.trans hD
      injection this with this
      simp at this
  · unfold Base.Bn256.r
    norm_num

/-- The circuit of C95 opens no polynomial twice at one point. -/
example {k : ChipKind} {ch : Chip Fr 3} (hch : bnChip k = .ok ch) (short short' legacy : Bool) (mode : LoadMode)
    {x : Run Fr} (hx : x = codeRun ch short legacy mode 62 .empty 4) : ∃ L, x.load = .ok L ∧ ∃ K,
      keygenWith x.configured.2 [codeLookup] (L.ops ++ hostOps (q := 5) 2 0) (2 ^ 8) (omega 8) delta = .ok K ∧ K.Apart ∧
      K.queries.length ≤ 578 := by
  obtain ⟨L, hL, K, hK, -⟩ := C100_code hch short short' legacy mode (STEP := 62) (calcs := 4) (m := 2) (kk := 8)
    (by norm_num) (by norm_num) (by norm_num) (by norm_num) (by norm_num) (by cases k <;> simp [ChipKind.rows]) hx
  have hlegal : x.Legal := by
    rw [hx]
    exact ⟨fun i => lt_of_lt_of_le i.isLt (by simp [codeRun]), fun i j h => Fin.ext h, by simp [codeRun, testRun],
      by norm_num [codeRun, testRun], by norm_num [codeRun, testRun], by norm_num [codeRun, testRun],
      by simp [codeRun, testRun, HashTable.empty]⟩
  have hbn : x.IsBn k short := by rw [hx]; exact ⟨hch, rfl⟩
  have e0 : x.cs = ⟨11, 2, 0, [bareGate 0 fun i => i], [], []⟩ := by rw [hx]; rfl
  obtain ⟨h1, h2⟩ := C102_apart hbn hlegal (by rw [e0]; exact code_modest) (by norm_num) hK
  simp only [e0, List.length_nil, List.length_singleton] at h2
  exact ⟨L, hL, K, hK, h1, h2⟩

end Props
