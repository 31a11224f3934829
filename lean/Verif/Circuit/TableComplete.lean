import Verif.Circuit.TableHonest

/-!
# When the honest witness is accepted
-/

set_option linter.unusedVariables false
set_option linter.unusedSectionVars false
set_option linter.unusedSimpArgs false

open Halo2

namespace Circuit.Table

variable {F : Type} [Field F] [DecidableEq F] (legacy : Bool) (STEP : ℕ)
  (π : (Fin 3 → F) → Fin 3 → F)

/-- The table columns of the honest witness (of the first column, all but the last cell). -/
structure HonestView (row : ℕ → RowData F) (v : View F) (s N : ℕ) : Prop where
  idx0 : 0 < N → v.idx s = 0
  w00 : v.w0 s = 0
  w10 : v.w1 s = 0
  ctrl0 : v.ctrl s = 0
  dom0 : v.dom s = 0
  head0 : v.head s = 0
  out0 : ∀ k, v.out s k = 0
  w0 : ∀ j < N, v.w0 (s + (j + 1)) = ((row j).inp.getD (0, 0)).1
  w1 : ∀ j < N, v.w1 (s + (j + 1)) = ((row j).inp.getD (0, 0)).2
  ctrl : ∀ j < N, v.ctrl (s + (j + 1)) = specFlag legacy (ctl row j)
  dom : ∀ j < N, v.dom (s + (j + 1)) = (row j).domain.getD 0
  head : ∀ j < N, v.head (s + (j + 1)) = if (seq legacy STEP π row j).isNew then 1 else 0
  cont : ∀ j < N, v.cont (s + (j + 1)) = if (seq legacy STEP π row j).isNew then 0 else 1
  caux : ∀ j < N, v.caux (s + (j + 1)) =
    if (specFlag legacy (ctl row j) : F) = 0 then 0 else (specFlag legacy (ctl row j))⁻¹
  inp : ∀ j < N, v.inp (s + (j + 1)) = inState legacy (seq legacy STEP π row j) (row j)
  out : ∀ j < N, v.out (s + (j + 1)) = π (inState legacy (seq legacy STEP π row j) (row j))
  idx : ∀ i j, i < N → j < N → ctl row j ≤ STEP → pstart legacy STEP π row j ≤ i → i ≤ j + 1 →
    v.idx (s + i) = π (inState legacy (seq legacy STEP π row j) (row j)) 0

section View
variable {ch : Chip F 3} (lw : ch.Lawful π) (a f σ q : ℕ) (ht : Fin 6 → ℕ) (step : ℕ)
  (row : ℕ → RowData F) (N : ℕ) (mode : LoadMode) (hht : ∀ i, ht i < a) (hinj : Function.Injective ht)
include hht hinj

theorem honestView (s : ℕ) (s' : ℕ → ℕ) (g : Grid F) (hs : s + N < g.usable)
    (hadv : ∀ c, (∃ i, c = ht i) ∨ (a ≤ c ∧ c < a + 8 + lw.nA) → ∀ r < g.usable,
      (c = ht 0 → r ≠ s + N) → g.advice c r =
      finalAdvice (loadOps legacy STEP π lw a f σ q ht step ((List.range N).map row)
        (tailOps σ s N mode) s s') c r) :
    HonestView legacy STEP π row (view a ht g) s N ∧
      ∀ r < g.usable, r < s ∨ s + N < r → (view a ht g).head r = 0 := by
  have hz : ∀ c, TableCol (conf lw a f σ q ht step) (.advice c) → (c = ht 0 → 0 < N) →
      g.advice c s = 0 := by
    intro c hc hN
    rw [hadv c ?_ s (by omega) (fun h => by have := hN h; omega)]
    · exact final_zero legacy STEP π lw a f σ q ht step row N mode hht hinj s s' c hc
    · rcases hc with ⟨i, rfl⟩ | ⟨i, rfl⟩ | rfl | rfl
      · exact Or.inl ⟨i, rfl⟩
      · right; simp only [conf]; omega
      · right; simp only [conf]; omega
      · right; simp only [conf]; omega
  have hzt : ∀ i, i ≠ 0 → g.advice (ht i) s = 0 :=
    fun i hi => hz _ (Or.inl ⟨i, rfl⟩) fun h => absurd (hinj h) hi
  have h0a : ∀ i, a + i ≠ ht 0 := fun i => by have := hht 0; omega
  have hza : ∀ i : Fin 6, g.advice (a + i) s = 0 :=
    fun i => hz _ (Or.inr (Or.inl ⟨i, rfl⟩)) fun h => absurd h (h0a i)
  have hr : ∀ c v, ((∃ i, c = ht i) ∨ (a ≤ c ∧ c < a + 8)) → ∀ j < N,
      Op.advice c (s + (j + 1)) v ∈
      (rowW legacy π (conf lw a f σ q ht step) s (j + 1) (seq legacy STEP π row j) (row j)).ops →
      g.advice c (s + (j + 1)) = v := by
    intro c v hc j hj hm
    rw [hadv c (hc.imp_right fun h => by omega) _ (by omega) fun h => absurd h
      (rowW_unique legacy π lw a f σ q ht step hht hinj s (j + 1) _ _ _ _ _ v v hm hm).2.1]
    refine final_row legacy STEP π lw a f σ q ht step row N mode hht hinj s s' c j v ?_ hj hm
    rcases hc with ⟨i, rfl⟩ | h
    · have := hht i; omega
    · omega
  have hrt : ∀ i v, ∀ j < N, Op.advice (ht i) (s + (j + 1)) v ∈
      (rowW legacy π (conf lw a f σ q ht step) s (j + 1) (seq legacy STEP π row j) (row j)).ops →
      g.advice (ht i) (s + (j + 1)) = v := fun i v => hr _ v (Or.inl ⟨i, rfl⟩)
  have hra : ∀ i v, i < 8 → ∀ j < N, Op.advice (a + i) (s + (j + 1)) v ∈
      (rowW legacy π (conf lw a f σ q ht step) s (j + 1) (seq legacy STEP π row j) (row j)).ops →
      g.advice (a + i) (s + (j + 1)) = v := fun i v hi => hr _ v (Or.inr ⟨by omega, by omega⟩)
  refine ⟨⟨fun h => hz _ (Or.inl ⟨0, rfl⟩) fun _ => h, hzt 1 (by decide), hzt 2 (by decide),
    hzt 3 (by decide), hzt 4 (by decide), hzt 5 (by decide), ?_, ?_, ?_, ?_, ?_, ?_, ?_, ?_, ?_, ?_, ?_⟩, ?_⟩
  · intro k
    fin_cases k
    · exact hza 5
    · exact hza 3
    · exact hza 4
  · intro j hj
    exact hrt 1 _ j hj (by rw [rowW_ops]; simp [conf])
  · intro j hj
    exact hrt 2 _ j hj (by rw [rowW_ops]; simp [conf])
  · intro j hj
    exact hrt 3 _ j hj (by rw [rowW_ops]; simp [conf, ctl])
  · intro j hj
    exact hrt 4 _ j hj (by rw [rowW_ops]; simp [conf])
  · intro j hj
    exact hrt 5 _ j hj (by rw [rowW_ops]; simp [conf])
  · intro j hj
    exact hra 6 _ (by omega) j hj (by rw [rowW_ops]; simp [conf])
  · intro j hj
    exact hra 7 _ (by omega) j hj (by
      rw [rowW_ops]; simp only [conf, ctl, List.mem_cons]
      iterate 12 right
      left; congr)
  · intro j hj
    funext k
    fin_cases k
    · exact hra 0 _ (by omega) j hj (by rw [rowW_ops]; simp [conf])
    · exact hra 1 _ (by omega) j hj (by rw [rowW_ops]; simp [conf])
    · exact hra 2 _ (by omega) j hj (by rw [rowW_ops]; simp [conf])
  · intro j hj
    funext k
    fin_cases k
    · exact hra 5 _ (by omega) j hj (by rw [rowW_ops]; simp [conf])
    · exact hra 3 _ (by omega) j hj (by rw [rowW_ops]; simp [conf])
    · exact hra 4 _ (by omega) j hj (by rw [rowW_ops]; simp [conf])
  · intro i j hi hj hcl h1 h2
    refine (hadv _ (Or.inl ⟨0, rfl⟩) _ (by omega) (by omega)).trans ?_
    exact final_idx legacy STEP π lw a f σ q ht step row N mode hht hinj s s' i j hj hcl h1 h2
  · intro r hr hout
    refine (hadv _ (Or.inl ⟨5, rfl⟩) _ hr fun h => absurd (hinj h) (by decide)).trans ?_
    exact final_outside legacy STEP π lw a f σ q ht step row N mode hht hinj s s' _ r
      (by have := hht 5; omega) hout

end View

/-! ## Well-formed tables -/

/-- Rows that can be proved: a row whose control exceeds `STEP` is followed by a row whose control is
smaller by `step` and not zero, and whose domain is zero; the last row is empty. -/
structure WellFormed (step : ℕ) (row : ℕ → RowData F) (N : ℕ) : Prop where
  next : ∀ j, j + 1 < N → STEP < ctl row j →
    ctl row (j + 1) ≠ 0 ∧ ctl row (j + 1) + step = ctl row j ∧ (row (j + 1)).domain.getD 0 = 0
  last : ∀ j, j + 1 = N → (row j).inp.getD (0, 0) = (0, 0) ∧ ctl row j = 0

variable {legacy STEP π}

theorem isNew_zero (row : ℕ → RowData F) : (seq legacy STEP π row 0).isNew = true := rfl

theorem isNew_succ (row : ℕ → RowData F) (j : ℕ) :
    (seq legacy STEP π row (j + 1)).isNew = decide (ctl row j ≤ STEP) := rfl

theorem seq_state (row : ℕ → RowData F) (j : ℕ) :
    (seq legacy STEP π row (j + 1)).state = π (inState legacy (seq legacy STEP π row j) (row j)) := rfl

theorem specFlag_inj (hbig : ∀ m : ℕ, m < 2 ^ 200 → (m : F) = 0 → m = 0) {x : ℕ} (h : x < 2 ^ 66)
    (h0 : ((x * Base.domainSpec legacy : ℕ) : F) = 0) : x = 0 := by
  have hd : Base.domainSpec legacy ≤ 2 ^ 64 := by unfold Base.domainSpec; split <;> omega
  have hp : 0 < Base.domainSpec legacy := by unfold Base.domainSpec; split <;> omega
  have := hbig _ (lt_of_le_of_lt (Nat.mul_le_mul (by omega : x ≤ 2 ^ 66) hd) (by norm_num)) h0
  rcases Nat.mul_eq_zero.mp this with h | h
  · exact h
  · omega

/-- Equality of small naturals in a field of large characteristic. -/
theorem cast_inj (hbig : ∀ m : ℕ, m < 2 ^ 200 → (m : F) = 0 → m = 0) {x y : ℕ} (hx : x < 2 ^ 200)
    (hy : y < 2 ^ 200) (h : (x : F) = y) : x = y := by
  rcases Nat.le_total x y with hle | hle
  · have := hbig (y - x) (by omega) (by rw [Nat.cast_sub hle, h, sub_self])
    omega
  · have := hbig (x - y) (by omega) (by rw [Nat.cast_sub hle, h, sub_self])
    omega

section Iff
variable {row : ℕ → RowData F} {v : View F} {s N : ℕ} (hv : HonestView legacy STEP π row v s N)
include hv

/-- Well-formed tables satisfy the row equations. -/
theorem HonestView.eqs {step : ℕ} (hctl : ∀ j < N, ctl row j < 2 ^ 64) (hstep : step < 2 ^ 64)
    (hSTEP : STEP < 2 ^ 64)
    (hbig : ∀ m : ℕ, m < 2 ^ 200 → (m : F) = 0 → m = 0)
    (hw : WellFormed STEP step row N) :
    ZeroRow v s ∧ ZeroRow v (s + N) ∧ ∀ j < N, RowEqs v (specFlag legacy step) (s + j) (s + j + 1) := by
  refine ⟨⟨hv.w00, hv.w10, hv.ctrl0⟩, ?_, fun j hj => ?_⟩
  · cases N with
    | zero => exact ⟨hv.w00, hv.w10, hv.ctrl0⟩
    | succ n =>
      obtain ⟨h1, h2⟩ := hw.last n rfl
      refine ⟨?_, ?_, ?_⟩
      · rw [hv.w0 n (by omega), h1]
      · rw [hv.w1 n (by omega), h1]
      · rw [hv.ctrl n (by omega), h2, specFlag_small (by norm_num)]; simp
  · rw [show s + j + 1 = s + (j + 1) by omega]
    have hcx : v.ctrl (s + (j + 1)) * (1 - v.ctrl (s + (j + 1)) * v.caux (s + (j + 1))) = 0 := by
      rw [hv.ctrl j hj, hv.caux j hj]
      by_cases h0 : (specFlag legacy (ctl row j) : F) = 0
      · rw [h0]; simp
      · rw [if_neg h0, mul_inv_cancel₀ h0]; simp
    by_cases hnew : (seq legacy STEP π row j).isNew = true
    · have hc : v.cont (s + (j + 1)) = 0 := by rw [hv.cont j hj, if_pos hnew]
      have hh : v.head (s + (j + 1)) = 1 := by rw [hv.head j hj, if_pos hnew]
      have hd : v.idx (s + j) = v.out (s + j) 0 := by
        cases j with
        | zero => exact (hv.idx0 (by omega)).trans (hv.out0 0).symm
        | succ j =>
          rw [isNew_succ, decide_eq_true_eq] at hnew
          rw [hv.idx (j + 1) j hj (by omega) hnew (pstart_le _ _ _ _ _) le_rfl, hv.out j (by omega)]
      refine ⟨?_, hcx, ?_, ?_, ?_, ?_, ?_, ?_, ?_, ?_, ?_⟩
      · rw [hc]; ring
      · rw [hc]; ring
      · rw [hc, hh]; ring
      · rw [hc]; ring
      · rw [hc]; ring
      · rw [hd]; ring
      · rw [hc, hv.w0 j hj, hv.inp j hj]; simp [inState, hnew]
      · rw [hc, hv.w1 j hj, hv.inp j hj]; simp [inState, hnew]
      · rw [hv.inp j hj, hv.ctrl j hj, hv.dom j hj]; simp [inState, hnew, ctl]
      · rw [hc]; ring
    · have hnf : (seq legacy STEP π row j).isNew = false := by simpa using hnew
      have hc : v.cont (s + (j + 1)) = 1 := by rw [hv.cont j hj, if_neg hnew]
      have hh : v.head (s + (j + 1)) = 0 := by rw [hv.head j hj, if_neg hnew]
      cases j with
      | zero => exact absurd (isNew_zero row) hnew
      | succ j =>
        have hgt : STEP < ctl row j := by
          rw [isNew_succ, decide_eq_true_eq] at hnew; omega
        obtain ⟨n1, n2, n3⟩ := hw.next j hj hgt
        have hf0 : (specFlag legacy (ctl row (j + 1)) : F) ≠ 0 := by
          rw [specFlag_small (hctl _ hj)]
          exact fun h => n1 (specFlag_inj hbig (by have := hctl _ hj; omega) h)
        -- the row that closes this block
        obtain ⟨b, hb1, hb2, hb3, hb4⟩ : ∃ b, j ≤ b ∧ b < N - 1 ∧ ctl row (b + 1) ≤ STEP ∧
            ∀ i, j < i → i ≤ b → ¬ ctl row i ≤ STEP :=
          exists_next (fun i => ctl row i ≤ STEP) j (N - 1) (by omega)
            (by rw [(hw.last (N - 1) (by omega)).2]; omega)
        have hps : pstart legacy STEP π row (b + 1) = pstart legacy STEP π row j := by
          have := pstart_run legacy STEP π row j (b + 1 - j) (fun i h1 h2 => by
            rcases Nat.eq_or_lt_of_le h1 with rfl | h1
            · exact hgt
            · have := hb4 i h1 (by omega); omega)
          rwa [show j + (b + 1 - j) = b + 1 by omega] at this
        have hpl := pstart_le legacy STEP π row j
        have hidx : v.idx (s + (j + 1 + 1)) = v.idx (s + (j + 1)) := by
          have hlt : j + 1 + 1 < N := by
            by_contra hge
            exact n1 (hw.last (j + 1) (by omega)).2
          rw [hv.idx (j + 1 + 1) (b + 1) hlt (by omega) hb3 (by omega) (by omega),
            hv.idx (j + 1) (b + 1) (by omega) (by omega) hb3 (by omega) (by omega)]
        refine ⟨?_, hcx, ?_, ?_, ?_, ?_, ?_, ?_, ?_, ?_, ?_⟩
        · rw [hc]; ring
        · rw [hv.ctrl _ hj, hv.caux _ hj, if_neg hf0, mul_inv_cancel₀ hf0]; ring
        · rw [hc, hh]; ring
        · rw [hv.ctrl _ hj, hv.ctrl j (by omega), specFlag_small (hctl _ hj),
            specFlag_small (hctl j (by omega)), specFlag_small hstep, ← n2]
          push_cast; ring
        · rw [hidx]; ring
        · rw [hc]; ring
        · rw [hc, hv.out j (by omega), hv.w0 _ hj, hv.inp _ hj]
          simp [inState, hnf, seq_state]
        · rw [hc, hv.out j (by omega), hv.w1 _ hj, hv.inp _ hj]
          simp [inState, hnf, seq_state]
        · rw [hc]; ring
        · rw [hv.out j (by omega), hv.inp _ hj, hv.dom _ hj, n3]
          simp [inState, hnf, seq_state]

/-- Conversely, the row equations force a well-formed table. -/
theorem HonestView.wellFormed {step : ℕ} (hctl : ∀ j < N, ctl row j < 2 ^ 64) (hstep : step < 2 ^ 64)
    (hbig : ∀ m : ℕ, m < 2 ^ 200 → (m : F) = 0 → m = 0)
    (h1 : ZeroRow v (s + N))
    (h2 : ∀ j < N, RowEqs v (specFlag legacy step) (s + j) (s + j + 1)) :
    WellFormed STEP step row N := by
  have hd : Base.domainSpec legacy ≤ 2 ^ 64 := by unfold Base.domainSpec; split <;> omega
  have hp : 0 < Base.domainSpec legacy := by unfold Base.domainSpec; split <;> omega
  refine ⟨fun j hj hgt => ?_, fun j hj => ?_⟩
  · have e := h2 (j + 1) hj
    rw [show s + (j + 1) + 1 = s + (j + 1 + 1) by omega] at e
    have hnf : (seq legacy STEP π row (j + 1)).isNew = false := by
      rw [isNew_succ, decide_eq_false_iff_not]; omega
    have hc : v.cont (s + (j + 1 + 1)) = 1 := by rw [hv.cont _ hj, hnf]; rfl
    refine ⟨fun h0 => ?_, ?_, ?_⟩
    · have := e.contCtrl
      rw [hc, hv.ctrl _ hj, h0, specFlag_small (by norm_num)] at this
      simp at this
    · have := e.step
      rw [hc, hv.ctrl _ hj, hv.ctrl j (by omega), specFlag_small (hctl _ hj),
        specFlag_small (hctl j (by omega)), specFlag_small hstep] at this
      have h' : (((ctl row (j + 1) + step) * Base.domainSpec legacy : ℕ) : F) =
          ((ctl row j * Base.domainSpec legacy : ℕ) : F) := by
        push_cast at this ⊢
        linear_combination this
      have b1 := hctl _ hj
      have b2 := hctl j (by omega)
      have := cast_inj hbig
        (lt_of_le_of_lt (Nat.mul_le_mul (by omega : ctl row (j + 1) + step ≤ 2 ^ 65) hd) (by norm_num))
        (lt_of_le_of_lt (Nat.mul_le_mul (by omega : ctl row j ≤ 2 ^ 65) hd) (by norm_num)) h'
      exact Nat.eq_of_mul_eq_mul_right hp this
    · have := e.in0c
      rw [hc, hv.out j (by omega), hv.inp _ hj, hv.dom _ hj] at this
      simpa [inState, hnf, seq_state] using this
  · subst hj
    refine ⟨?_, ?_⟩
    · have e1 := h1.w0
      have e2 := h1.w1
      rw [hv.w0 j (by omega)] at e1
      rw [hv.w1 j (by omega)] at e2
      exact Prod.ext e1 e2
    · have := h1.ctrl
      rw [hv.ctrl j (by omega), specFlag_small (hctl j (by omega))] at this
      exact specFlag_inj hbig (by have := hctl j (by omega); omega) this

end Iff
end Circuit.Table
