import Verif.Circuit.TableView

/-!
# Row-indexed form of what `load` writes
-/

set_option linter.unusedVariables false
set_option linter.unusedSectionVars false
set_option linter.unusedSimpArgs false

open Halo2

namespace Circuit.Table

variable {F : Type} [Field F] [DecidableEq F] (legacy : Bool) (STEP : ℕ)
  (π : (Fin 3 → F) → Fin 3 → F) {P : Type} (cfg : SpongeConfig P)

/-- Item `i` of the zipped iterators. -/
def rowAt (t : HashTable F) (i : ℕ) : RowData F :=
  ⟨t.inputs[i]?, t.controls[i]?, (t.domain[i]?).join, (t.checks[i]?).join⟩

theorem rowData_eq (t : HashTable F) (calcs : ℕ) : rowData t calcs = (List.range calcs).map (rowAt t) :=
  rfl

/-- The loop variables before row `j`. -/
def seq (row : ℕ → RowData F) : ℕ → FillState F
  | 0 => st0
  | j + 1 => stepSt legacy STEP π (j + 1) (seq row j) (row j)

theorem stAfter_append (off : ℕ) (st : FillState F) (r1 r2 : List (RowData F)) :
    stAfter legacy STEP π off st (r1 ++ r2) =
      stAfter legacy STEP π (off + r1.length) (stAfter legacy STEP π off st r1) r2 := by
  induction r1 generalizing off st with
  | nil => simp [stAfter]
  | cons r rest ih =>
    simp only [List.cons_append, stAfter, List.length_cons, ih]
    rw [show off + 1 + rest.length = off + (rest.length + 1) by omega]

theorem stAfter_seq (row : ℕ → RowData F) (n : ℕ) :
    stAfter legacy STEP π 1 st0 ((List.range n).map row) = seq legacy STEP π row n := by
  induction n with
  | zero => rfl
  | succ n ih =>
    rw [List.range_succ, List.map_append, stAfter_append, ih]
    simp only [List.length_map, List.length_range, List.map_cons, List.map_nil, stAfter, seq,
      Nat.add_comm 1 n]

theorem mem_fillOps (s : ℕ) (row : ℕ → RowData F) (n : ℕ) (o : Op F) :
    o ∈ fillOps legacy STEP π cfg s 1 st0 ((List.range n).map row) ↔
      ∃ j < n, o ∈ rowOps legacy STEP π cfg s (j + 1) (seq legacy STEP π row j) (row j) := by
  induction n with
  | zero => simp [fillOps]
  | succ n ih =>
    rw [List.range_succ, List.map_append, fillOps_append, List.mem_append, ih, stAfter_seq]
    simp only [List.length_map, List.length_range, List.map_cons, List.map_nil, fillOps,
      List.append_nil, Nat.add_comm 1 n]
    constructor
    · rintro (⟨j, hj, h⟩ | h)
      · exact ⟨j, by omega, h⟩
      · exact ⟨n, by omega, h⟩
    · rintro ⟨j, hj, h⟩
      rcases Nat.lt_succ_iff_lt_or_eq.mp hj with h' | rfl
      · exact Or.inl ⟨j, h', h⟩
      · exact Or.inr h

theorem tablePairs_eq (s : ℕ) (row : ℕ → RowData F) (n : ℕ) :
    tablePairs legacy STEP π cfg s ((List.range n).map row) =
      (List.range n).map fun j => (rowW legacy π cfg s (j + 1) (seq legacy STEP π row j) (row j)).val := by
  unfold tablePairs
  induction n with
  | zero => rfl
  | succ n ih =>
    rw [List.range_succ, List.map_append, fillPairs_append, ih, stAfter_seq, List.map_append]
    simp only [List.length_map, List.length_range, List.map_cons, List.map_nil, fillPairs,
      Nat.add_comm 1 n]

theorem allChecks_iff (row : ℕ → RowData F) (n : ℕ) :
    AllChecks legacy STEP π ((List.range n).map row) ↔
      ∀ j < n, rowCheck legacy π (seq legacy STEP π row j) (row j) := by
  unfold AllChecks
  induction n with
  | zero => simp [ChecksOK]
  | succ n ih =>
    rw [List.range_succ, List.map_append, checksOK_append, ih, stAfter_seq]
    simp only [List.map_cons, List.map_nil, ChecksOK, and_true]
    constructor
    · rintro ⟨h1, h2⟩ j hj
      rcases Nat.lt_succ_iff_lt_or_eq.mp hj with h' | rfl
      · exact h1 j h'
      · exact h2
    · intro h
      exact ⟨fun j hj => h j (by omega), h n (by omega)⟩

/-! ## What the log says about fixed columns, selectors and copies -/

section Load
variable {ch : Chip F 3} (lw : ch.Lawful π) (a f σ q : ℕ) (ht : Fin 6 → ℕ) (step : ℕ)
  (row : ℕ → RowData F) (N : ℕ)

/-- The words given to the chip and the words tied to its results. -/
def inWords (s : ℕ) : List (Words F 3) :=
  (tablePairs legacy STEP π (conf lw a f σ q ht step) s ((List.range N).map row)).map Prod.fst
def outWords (s : ℕ) : List (Words F 3) :=
  (tablePairs legacy STEP π (conf lw a f σ q ht step) s ((List.range N).map row)).map Prod.snd

theorem mem_loadOps (tail : List (Op F)) (s : ℕ) (s' : ℕ → ℕ) (o : Op F) :
    o ∈ loadOps legacy STEP π lw a f σ q ht step ((List.range N).map row) tail s s' ↔
      o ∈ rangeOps legacy STEP f ∨
      o ∈ tableOps legacy STEP π (conf lw a f σ q ht step) s ((List.range N).map row) ∨ o ∈ tail ∨
      o ∈ lw.ops (a + 8) (f + 1) (σ + 1) (inWords legacy STEP π lw a f σ q ht step row N s) s' ∨
      o ∈ finalOps (outWords legacy STEP π lw a f σ q ht step row N s)
        (lw.outs (a + 8) (f + 1) (σ + 1) (inWords legacy STEP π lw a f σ q ht step row N s) s') := by
  simp only [loadOps, List.mem_append, inWords, outWords, or_assoc]

theorem mem_rangeOps (o : Op F) : o ∈ rangeOps legacy STEP f ↔
    (∃ i ≤ STEP, o = .fixed f i (specFlag legacy i)) ∨ o = .fill f (STEP + 1) (specFlag legacy 0) := by
  have e : (rangeEntries (F := F) legacy STEP).headD 0 = specFlag legacy 0 := by
    unfold rangeEntries
    rw [List.range_succ_eq_map]
    rfl
  have l : (rangeEntries (F := F) legacy STEP).length = STEP + 1 := by simp [rangeEntries]
  unfold rangeOps
  rw [List.mem_append, List.mem_singleton, e, l]
  refine or_congr ?_ Iff.rfl
  rw [List.mem_map]
  constructor
  · rintro ⟨⟨v, i⟩, hm, rfl⟩
    rw [List.mem_zipIdx_iff_getElem?] at hm
    simp only [rangeEntries, List.getElem?_map, Option.map_eq_some_iff] at hm
    obtain ⟨k, hk, rfl⟩ := hm
    rw [List.getElem?_eq_some_iff] at hk
    obtain ⟨hlt, hk⟩ := hk
    simp only [List.length_range, List.getElem_range] at hlt hk
    subst hk
    exact ⟨i, by omega, rfl⟩
  · rintro ⟨i, hi, rfl⟩
    refine ⟨(specFlag legacy i, i), ?_, rfl⟩
    rw [List.mem_zipIdx_iff_getElem?]
    simp only [rangeEntries, List.getElem?_map, Option.map_eq_some_iff]
    exact ⟨i, by rw [List.getElem?_range (by omega)], rfl⟩

/-- No table op is a copy; its fixed writes are the enable flags; its selector writes the custom row. -/
theorem mem_tableOps_fixed (s : ℕ) (c r : ℕ) (v : F) :
    (∃ o ∈ tableOps legacy STEP π cfg s ((List.range N).map row), o.FixedWrite c r v) ↔
      c = cfg.qEnable ∧ v = 1 ∧ s < r ∧ r ≤ s + N := by
  constructor
  · rintro ⟨o, ho, hw⟩
    rcases List.mem_append.mp ho with ho | ho
    · rcases (mem_customOps cfg s o).mp ho with rfl | ⟨c', rfl, -⟩ <;>
        rcases hw with h | ⟨_, _, h⟩ <;> cases h
    · obtain ⟨j, hj, ho⟩ := (mem_fillOps legacy STEP π cfg s row N o).mp ho
      rw [mem_rowOps, rowW_ops] at ho
      rcases ho with h | ⟨-, i, -, hi, rfl⟩
      · simp only [List.mem_cons, List.not_mem_nil, or_false] at h
        rcases h with rfl | rfl | rfl | rfl | rfl | rfl | rfl | rfl | rfl | rfl | rfl | rfl | rfl | rfl <;>
          rcases hw with h | ⟨_, _, h⟩ <;> cases h
        exact ⟨rfl, rfl, by omega, by omega⟩
      · rcases hw with h | ⟨_, _, h⟩ <;> cases h
  · rintro ⟨rfl, rfl, h1, h2⟩
    refine ⟨.fixed cfg.qEnable r 1, ?_, Or.inl rfl⟩
    refine List.mem_append_right _ ((mem_fillOps legacy STEP π cfg s row N _).mpr ⟨r - s - 1, by omega, ?_⟩)
    rw [mem_rowOps, rowW_ops]
    left
    rw [show s + (r - s - 1 + 1) = r by omega]
    simp

theorem mem_tableOps_selector (s c r : ℕ) :
    Op.selector c r ∈ tableOps legacy STEP π cfg s ((List.range N).map row) ↔
      c = cfg.sCustom ∧ r = s := by
  constructor
  · intro ho
    rcases List.mem_append.mp ho with ho | ho
    · rcases (mem_customOps cfg s _).mp ho with h | ⟨c', h, -⟩
      · cases h; exact ⟨rfl, rfl⟩
      · cases h
    · obtain ⟨j, hj, ho⟩ := (mem_fillOps legacy STEP π cfg s row N _).mp ho
      rw [mem_rowOps, rowW_ops] at ho
      rcases ho with h | ⟨-, i, -, hi, h⟩
      · simp only [List.mem_cons, List.not_mem_nil, or_false, reduceCtorEq] at h
      · cases h
  · rintro ⟨rfl, rfl⟩
    exact List.mem_append_left _ ((mem_customOps cfg r _).mpr (Or.inl rfl))

theorem mem_tailOps (s : ℕ) (mode : LoadMode) (o : Op F) :
    o ∈ tailOps σ s N mode → o = .selector σ (s + N) := by
  cases mode with
  | serial => simp [tailOps]
  | parallel th =>
    simp only [tailOps]
    split <;> simp

theorem chip_fixedWrite {s' : ℕ → ℕ} {c r : ℕ} {v : F} {ws : List (Words F 3)} {o : Op F}
    (ho : o ∈ lw.ops (a + 8) (f + 1) (σ + 1) ws s') (hw : o.FixedWrite c r v) :
    f + 1 ≤ c ∧ c < f + 1 + lw.nF := by
  rcases lw.shape _ _ _ _ _ o ho with ⟨c', r', v', rfl, -⟩ | ⟨c', r', v', rfl, h1, h2, -⟩ |
    ⟨c', r', rfl, -⟩ | ⟨c', r', w, k, rfl, -⟩ <;> rcases hw with h | ⟨_, _, h⟩ <;> cases h
  exact ⟨h1, h2⟩

theorem final_fixedWrite {c r : ℕ} {v : F} {x y : List (Words F 3)} {o : Op F}
    (ho : o ∈ finalOps x y) : ¬ o.FixedWrite c r v := by
  obtain ⟨_, _, _, rfl⟩ := (mem_finalOps _ _ _).mp ho
  rintro (h | ⟨_, _, h⟩) <;> cases h

variable (mode : LoadMode)

theorem load_qEnable (hq : q < f) (s : ℕ) (s' : ℕ → ℕ) (r : ℕ) :
    finalFixed (loadOps legacy STEP π lw a f σ q ht step ((List.range N).map row)
      (tailOps σ s N mode) s s') q r = if s < r ∧ r ≤ s + N then 1 else 0 := by
  have key : ∀ o ∈ loadOps legacy STEP π lw a f σ q ht step ((List.range N).map row)
      (tailOps σ s N mode) s s', ∀ v, o.FixedWrite q r v → v = 1 ∧ s < r ∧ r ≤ s + N := by
    intro o ho v hw
    rcases (mem_loadOps legacy STEP π lw a f σ q ht step row N _ s s' o).mp ho with h | h | h | h | h
    · rcases (mem_rangeOps legacy STEP f o).mp h with ⟨i, hi, rfl⟩ | rfl <;>
        rcases hw with h | ⟨_, _, h⟩ <;> cases h <;> omega
    · exact ((mem_tableOps_fixed legacy STEP π _ row N s q r v).mp ⟨o, h, hw⟩).2
    · rw [mem_tailOps σ N s mode o h] at hw
      rcases hw with h | ⟨_, _, h⟩ <;> cases h
    · have := chip_fixedWrite π lw a f σ h hw
      omega
    · exact absurd hw (final_fixedWrite h)
  by_cases h : s < r ∧ r ≤ s + N
  · rw [if_pos h]
    obtain ⟨o, ho, hw⟩ := (mem_tableOps_fixed legacy STEP π (conf lw a f σ q ht step) row N s q r
      (1 : F)).mpr ⟨rfl, rfl, h⟩
    exact finalFixed_eq ⟨o, (mem_loadOps legacy STEP π lw a f σ q ht step row N _ s s' o).mpr
      (Or.inr (Or.inl ho)), hw⟩ fun o' ho' v hw' => (key o' ho' v hw').1
  · rw [if_neg h]
    exact finalFixed_zero fun o ho v hw => h (key o ho v hw).2

theorem load_range (hq : q < f) (s : ℕ) (s' : ℕ → ℕ) (r : ℕ) :
    finalFixed (loadOps legacy STEP π lw a f σ q ht step ((List.range N).map row)
      (tailOps σ s N mode) s s') f r = specFlag legacy (if r ≤ STEP then r else 0) := by
  have key : ∀ o ∈ loadOps legacy STEP π lw a f σ q ht step ((List.range N).map row)
      (tailOps σ s N mode) s s', ∀ v, o.FixedWrite f r v →
      v = specFlag legacy (if r ≤ STEP then r else 0) := by
    intro o ho v hw
    rcases (mem_loadOps legacy STEP π lw a f σ q ht step row N _ s s' o).mp ho with h | h | h | h | h
    · rcases (mem_rangeOps legacy STEP f o).mp h with ⟨i, hi, rfl⟩ | rfl
      · rcases hw with h | ⟨_, _, h⟩ <;> cases h
        rw [if_pos hi]
      · rcases hw with h | ⟨_, hle, h⟩ <;> cases h
        rw [if_neg (by omega)]
    · have := ((mem_tableOps_fixed legacy STEP π _ row N s f r v).mp ⟨o, h, hw⟩).1
      simp only [conf] at this
      omega
    · rw [mem_tailOps σ N s mode o h] at hw
      rcases hw with h | ⟨_, _, h⟩ <;> cases h
    · have := chip_fixedWrite π lw a f σ h hw
      omega
    · exact absurd hw (final_fixedWrite h)
  refine finalFixed_eq ?_ key
  by_cases h : r ≤ STEP
  · refine ⟨.fixed f r (specFlag legacy r), (mem_loadOps legacy STEP π lw a f σ q ht step row N _ s s' _).mpr
      (Or.inl ((mem_rangeOps legacy STEP f _).mpr (Or.inl ⟨r, h, rfl⟩))), Or.inl ?_⟩
    rw [if_pos h]
  · refine ⟨.fill f (STEP + 1) (specFlag legacy 0), (mem_loadOps legacy STEP π lw a f σ q ht step row N _ s s' _).mpr
      (Or.inl ((mem_rangeOps legacy STEP f _).mpr (Or.inr rfl))), Or.inr ⟨STEP + 1, by omega, ?_⟩⟩
    rw [if_neg h]

theorem load_chipFixed (hq : q < f) (s : ℕ) (s' : ℕ → ℕ) (c r : ℕ) (h1 : f + 1 ≤ c) :
    finalFixed (loadOps legacy STEP π lw a f σ q ht step ((List.range N).map row)
      (tailOps σ s N mode) s s') c r =
    finalFixed (lw.ops (a + 8) (f + 1) (σ + 1) (inWords legacy STEP π lw a f σ q ht step row N s) s') c r := by
  unfold loadOps
  refine finalFixed_between (fun o ho r v hw => ?_) (fun o ho r v => final_fixedWrite ho) r
  simp only [List.mem_append] at ho
  rcases ho with h | h | h
  · rcases (mem_rangeOps legacy STEP f o).mp h with ⟨i, hi, rfl⟩ | rfl <;>
      rcases hw with h | ⟨_, _, h⟩ <;> cases h <;> omega
  · have := ((mem_tableOps_fixed legacy STEP π _ row N s c r v).mp ⟨o, h, hw⟩).1
    simp only [conf] at this
    omega
  · rw [mem_tailOps σ N s mode o h] at hw
    rcases hw with h | ⟨_, _, h⟩ <;> cases h

theorem load_selector (s : ℕ) (s' : ℕ → ℕ) (r : ℕ) :
    finalSelector (loadOps legacy STEP π lw a f σ q ht step ((List.range N).map row)
      (tailOps σ s N mode) s s') σ r = true ↔ r = s ∨ r = s + N := by
  rw [finalSelector_iff, mem_loadOps]
  constructor
  · rintro (h | h | h | h | h)
    · rcases (mem_rangeOps legacy STEP f _).mp h with ⟨i, hi, h⟩ | h <;> cases h
    · exact Or.inl ((mem_tableOps_selector legacy STEP π _ row N s σ r).mp h).2
    · have := mem_tailOps σ N s mode _ h
      cases this
      exact Or.inr rfl
    · rcases lw.shape _ _ _ _ _ _ h with ⟨c', r', v', h, -⟩ | ⟨c', r', v', h, -⟩ |
        ⟨c', r', h, h1, -⟩ | ⟨c', r', w, k, h, -⟩ <;> cases h
      omega
    · obtain ⟨_, _, _, h⟩ := (mem_finalOps _ _ _).mp h
      cases h
  · rintro (rfl | rfl)
    · exact Or.inr (Or.inl ((mem_tableOps_selector legacy STEP π _ row N r σ r).mpr ⟨rfl, rfl⟩))
    · cases mode with
      | serial => exact Or.inr (Or.inr (Or.inl (by simp [tailOps])))
      | parallel th =>
        by_cases hN : N = 0
        · subst hN
          exact Or.inr (Or.inl ((mem_tableOps_selector legacy STEP π _ row 0 s σ _).mpr ⟨rfl, rfl⟩))
        · exact Or.inr (Or.inr (Or.inl (by simp [tailOps, hN])))

theorem load_chipSelector (s : ℕ) (s' : ℕ → ℕ) (c r : ℕ) (h1 : σ + 1 ≤ c) :
    finalSelector (loadOps legacy STEP π lw a f σ q ht step ((List.range N).map row)
      (tailOps σ s N mode) s s') c r =
    finalSelector (lw.ops (a + 8) (f + 1) (σ + 1) (inWords legacy STEP π lw a f σ q ht step row N s) s') c r := by
  unfold loadOps
  refine finalSelector_between (fun r ho => ?_) (fun r ho => ?_) r
  · simp only [List.mem_append] at ho
    rcases ho with h | h | h
    · rcases (mem_rangeOps legacy STEP f _).mp h with ⟨i, hi, h⟩ | h <;> cases h
    · have := ((mem_tableOps_selector legacy STEP π _ row N s c r).mp h).1
      simp only [conf] at this
      omega
    · have := mem_tailOps σ N s mode _ h
      cases this
      omega
  · obtain ⟨_, _, _, h⟩ := (mem_finalOps _ _ _).mp ho
    cases h

end Load
end Circuit.Table
