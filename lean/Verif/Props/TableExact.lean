import Verif.Props.TableLoad
import Verif.Circuit.TableExact
import Mathlib.Data.List.GetD

/-!
# The relation of the whole table: C60

`ValidTable` lists the contents of the enabled rows that the circuit accepts. It is stated with the sponge
of `Spec` and mentions neither gates nor loading.
-/

set_option linter.unusedVariables false

namespace Props
open Halo2 Circuit Circuit.Table Base.Bn256

/-- The continuation rows of a block with digest `D` whose last control is `i·SPEC`. Columns: digest, two
words, control, domain, head flag. -/
def contTable (SPEC step i : ℕ) (D : Fr) : List (Fr × Fr × Fr) → List (Fin 6 → Fr)
  | [] => []
  | (d, a, b) :: more =>
    ![D, a, b, (((i + more.length * step) * SPEC : ℕ) : Fr), d, 0] :: contTable SPEC step i D more

/-- All rows of a block: the head row `(d, a, b)` and the continuation rows `more`. -/
def blockTable (SPEC step i : ℕ) (D : Fr) (d a b : Fr) (more : List (Fr × Fr × Fr)) : List (Fin 6 → Fr) :=
  ![D, a, b, (((i + more.length * step) * SPEC : ℕ) : Fr), d, 1] :: contTable SPEC step i D more

/-- Tables: blocks, each with the sponge digest of its rows on all of them and a control that counts down by
`step·SPEC` to a last value `i·SPEC` with `i ≤ STEP` (positive if the block has more than one row), then one
row with zero words and control. -/
inductive ValidTable (STEP step SPEC : ℕ) : List (Fin 6 → Fr) → Prop
  | last (d dom : Fr) : ValidTable STEP step SPEC [![d, 0, 0, 0, dom, 1]]
  | block (i : ℕ) (d a b : Fr) (more : List (Fr × Fr × Fr)) (rest : List (Fin 6 → Fr)) (hi : i ≤ STEP)
      (hpos : more ≠ [] → 0 < i) (h : ValidTable STEP step SPEC rest) :
      ValidTable STEP step SPEC (blockTable SPEC step i
        (Spec.rowsDigest (Spec.onTriples permBn) (((i + more.length * step) * SPEC : ℕ) : Fr)
          ((d, a, b) :: more)) d a b more ++ rest)

theorem length_contTable (SPEC step i : ℕ) (D : Fr) (more : List (Fr × Fr × Fr)) :
    (contTable SPEC step i D more).length = more.length := by
  induction more with
  | nil => rfl
  | cons w more ih => rw [contTable, List.length_cons, List.length_cons, ih]

theorem ValidTable.ne_nil {STEP step SPEC : ℕ} {T : List (Fin 6 → Fr)} (h : ValidTable STEP step SPEC T) :
    T ≠ [] := by
  cases h <;> simp [blockTable]

section Complete

/-- What the equations of a row refer to on the previous row: digest, control, state. -/
structure Prev where
  idx : Fr
  ctrl : Fr
  out : Fin 3 → Fr

/-- State that enters the permutation of row `t`. -/
def stateIn (o : Fin 3 → Fr) (t : Fin 6 → Fr) : Fin 3 → Fr :=
  if t 5 = 1 then ![t 3 + t 4, t 1, t 2] else ![o 0 + t 4, o 1 + t 1, o 2 + t 2]

/-- A block may end on the row. -/
def Prev.Ends (legacy : Bool) (STEP : ℕ) (p : Prev) : Prop :=
  p.idx = p.out 0 ∧ ∃ i ≤ STEP, p.ctrl = specFlag legacy i

/-- The relation between a row and the previous one. -/
def RowStep (legacy : Bool) (STEP step : ℕ) (p : Prev) (t : Fin 6 → Fr) : Prop :=
  (t 5 = 1 ∧ p.Ends legacy STEP) ∨
    (t 5 = 0 ∧ t 3 ≠ 0 ∧ t 3 + specFlag legacy step = p.ctrl ∧ t 0 = p.idx)

def Good (legacy : Bool) (STEP step : ℕ) : Prev → List (Fin 6 → Fr) → Prop
  | _, [] => True
  | p, t :: T => RowStep legacy STEP step p t ∧ Good legacy STEP step ⟨t 0, t 3, permBn (stateIn p.out t)⟩ T

private theorem spec_bounds (legacy : Bool) :
    0 < Base.domainSpec legacy ∧ Base.domainSpec legacy ≤ 2 ^ 64 := by
  cases legacy <;> norm_num [Base.domainSpec]

private theorem good_cont {legacy : Bool} {STEP step i : ℕ} {D : Fr} {rest : List (Fin 6 → Fr)} (hi : i ≤ STEP)
    (hS : STEP < 2 ^ 64) (hst : step < 2 ^ 64)
    (hrest : ∀ p : Prev, p.Ends legacy STEP → Good legacy STEP step p rest) (more : List (Fr × Fr × Fr)) :
    ∀ p : Prev, more.length < 2 ^ 64 → (more ≠ [] → 0 < i) → p.idx = D →
      p.ctrl = (((i + more.length * step) * Base.domainSpec legacy : ℕ) : Fr) →
      D = (Spec.absorbRows (Spec.onTriples permBn) (p.out 0, p.out 1, p.out 2) more).1 →
      Good legacy STEP step p (contTable (Base.domainSpec legacy) step i D more ++ rest) := by
  obtain ⟨hd0, hd1⟩ := spec_bounds legacy
  induction more with
  | nil =>
    intro p _ _ h1 h2 h3
    refine hrest p ⟨h1.trans h3, i, hi, ?_⟩
    rw [h2, specFlag_small (by omega)]
    simp
  | cons w more ih =>
    obtain ⟨d, a, b⟩ := w
    intro p hlen h0 h1 h2 h3
    rw [List.length_cons] at hlen h2
    have hi0 := h0 (by simp)
    simp only [contTable, List.cons_append, Good]
    refine ⟨Or.inr ⟨rfl, ?_, ?_, h1.symm⟩, ?_⟩
    · change (((i + more.length * step) * Base.domainSpec legacy : ℕ) : Fr) ≠ 0
      intro hz
      have e2 : more.length * step ≤ 2 ^ 64 * 2 ^ 64 := Nat.mul_le_mul (by omega) (by omega)
      have e3 : (i + more.length * step) * Base.domainSpec legacy ≤ (2 ^ 64 + 2 ^ 64 * 2 ^ 64) * 2 ^ 64 :=
        Nat.mul_le_mul (by omega) hd1
      have := fr_big _ (lt_of_le_of_lt e3 (by norm_num)) hz
      rcases Nat.mul_eq_zero.mp this with h | h <;> omega
    · change (((i + more.length * step) * Base.domainSpec legacy : ℕ) : Fr) + _ = _
      rw [h2, specFlag_small hst]
      push_cast
      ring
    · refine ih _ (by omega) (fun _ => hi0) rfl rfl ?_
      simp only [Spec.absorbRows, Spec.onTriples] at h3
      have : stateIn p.out ![D, a, b, (((i + more.length * step) * Base.domainSpec legacy : ℕ) : Fr), d, 0] =
          ![p.out 0 + d, p.out 1 + a, p.out 2 + b] := by
        unfold stateIn
        rw [if_neg (by simp)]
        rfl
      rw [this]
      exact h3

private theorem good_of_valid {legacy : Bool} {STEP step : ℕ} (hS : STEP < 2 ^ 64) (hst : step < 2 ^ 64)
    {T : List (Fin 6 → Fr)} (h : ValidTable STEP step (Base.domainSpec legacy) T) (hlen : T.length < 2 ^ 64) :
    ∀ p : Prev, p.Ends legacy STEP → Good legacy STEP step p T := by
  induction h with
  | last d dom => exact fun p hp => ⟨Or.inl ⟨rfl, hp⟩, trivial⟩
  | block i d a b more rest hi hpos hv ih =>
    intro p hp
    simp only [blockTable, List.cons_append, List.length_cons, List.length_append, length_contTable] at hlen
    have hrest := ih (by omega)
    simp only [blockTable, List.cons_append, Good]
    refine ⟨Or.inl ⟨rfl, hp⟩, good_cont hi hS hst hrest more _ (by omega) hpos rfl rfl ?_⟩
    obtain ⟨c, hc⟩ : ∃ c : Fr, c = (((i + more.length * step) * Base.domainSpec legacy : ℕ) : Fr) := ⟨_, rfl⟩
    rw [← hc]
    generalize hD : Spec.rowsDigest (Spec.onTriples permBn) c ((d, a, b) :: more) = D
    have : stateIn p.out ![D, a, b, c, d, 1] = ![c + d, a, b] := by
      unfold stateIn
      rw [if_pos (by rfl)]
      rfl
    rw [this, ← hD]
    simp only [Spec.rowsDigest, Spec.absorbRows, Spec.onTriples, zero_add]

/-- The previous-row data and the states along the table. -/
private theorem good_trace {legacy : Bool} {STEP step : ℕ} (T : List (Fin 6 → Fr)) :
    ∀ p : Prev, Good legacy STEP step p T → ∃ P : ℕ → Prev, P 0 = p ∧
      ∀ j (h : j < T.length), RowStep legacy STEP step (P j) T[j] ∧
        P (j + 1) = ⟨T[j] 0, T[j] 3, permBn (stateIn (P j).out T[j])⟩ := by
  induction T with
  | nil => exact fun p _ => ⟨fun _ => p, rfl, fun j h => absurd h (by simp)⟩
  | cons t T ih =>
    rintro p ⟨h1, h2⟩
    obtain ⟨P, hP, hstep⟩ := ih _ h2
    refine ⟨fun j => Nat.casesOn j p P, rfl, fun j hj => ?_⟩
    cases j with
    | zero => exact ⟨h1, hP⟩
    | succ j => exact hstep j (by simpa using hj)


/-- A view with the rows of the table on the rows after `s`. -/
private noncomputable def viewOf (T : List (Fin 6 → Fr)) (P : ℕ → Prev) (s : ℕ) : View Fr where
  idx r := (P (r - s)).idx
  w0 r := if r ≤ s then 0 else T.getD (r - s - 1) 0 1
  w1 r := if r ≤ s then 0 else T.getD (r - s - 1) 0 2
  ctrl r := (P (r - s)).ctrl
  dom r := T.getD (r - s - 1) 0 4
  head r := T.getD (r - s - 1) 0 5
  cont r := 1 - T.getD (r - s - 1) 0 5
  caux r := (P (r - s)).ctrl⁻¹
  inp r := stateIn (P (r - s - 1)).out (T.getD (r - s - 1) 0)
  out r := (P (r - s)).out

private theorem valid_last {STEP step SPEC : ℕ} {T : List (Fin 6 → Fr)} (h : ValidTable STEP step SPEC T) :
    ∀ (j : ℕ) (hj : j < T.length), j + 1 = T.length → T[j] 1 = 0 ∧ T[j] 2 = 0 ∧ T[j] 3 = 0 := by
  induction h with
  | last d dom =>
    intro j hj h
    obtain rfl : j = 0 := by simpa using h
    exact ⟨rfl, rfl, rfl⟩
  | block i d a b more rest hi hpos hv ih =>
    intro j hj h
    revert hj h
    generalize blockTable SPEC step i
        (Spec.rowsDigest (Spec.onTriples permBn) (((i + more.length * step) * SPEC : ℕ) : Fr)
          ((d, a, b) :: more)) d a b more = B
    intro hj h
    have := List.length_pos_iff.mpr hv.ne_nil
    rw [List.length_append] at h
    rw [List.getElem_append_right (by omega)]
    exact ih _ _ (by omega)

private theorem rows_of_valid {legacy : Bool} {STEP step : ℕ} (hS : STEP < 2 ^ 64) (hst : step < 2 ^ 64)
    {T : List (Fin 6 → Fr)} (h : ValidTable STEP step (Base.domainSpec legacy) T) (hlen : T.length < 2 ^ 64)
    (s : ℕ) : ∃ v : View Fr, Rows legacy STEP permBn v (specFlag legacy step) s T.length ∧
      ∀ j (hj : j < T.length), v.idx (s + j + 1) = T[j] 0 ∧ v.w0 (s + j + 1) = T[j] 1 ∧
        v.w1 (s + j + 1) = T[j] 2 ∧ v.ctrl (s + j + 1) = T[j] 3 ∧ v.dom (s + j + 1) = T[j] 4 ∧
        v.head (s + j + 1) = T[j] 5 := by
  have hsz : (specFlag legacy 0 : Fr) = 0 := by rw [specFlag_small (by norm_num)]; simp
  obtain ⟨P, hP0, hP⟩ := good_trace T ⟨0, 0, 0⟩
    (good_of_valid hS hst h hlen ⟨0, 0, 0⟩ ⟨rfl, 0, Nat.zero_le _, hsz.symm⟩)
  have hpos := List.length_pos_iff.mpr h.ne_nil
  have e1 : ∀ j, s + j + 1 - s = j + 1 := fun j => by omega
  have e2 : ∀ j, s + j + 1 - s - 1 = j := fun j => by omega
  have e3 : ∀ j, s + j - s = j := fun j => by omega
  have e4 : ∀ j, ¬ s + j + 1 ≤ s := fun j => by omega
  have hcols : ∀ j (hj : j < T.length), (viewOf T P s).idx (s + j + 1) = T[j] 0 ∧
      (viewOf T P s).w0 (s + j + 1) = T[j] 1 ∧ (viewOf T P s).w1 (s + j + 1) = T[j] 2 ∧
      (viewOf T P s).ctrl (s + j + 1) = T[j] 3 ∧ (viewOf T P s).dom (s + j + 1) = T[j] 4 ∧
      (viewOf T P s).head (s + j + 1) = T[j] 5 := by
    intro j hj
    simp only [viewOf, e1, if_neg (e4 j), (hP j hj).2, Nat.add_sub_cancel,
      List.getD_eq_getElem _ _ hj, and_self]
  refine ⟨viewOf T P s, ⟨?_, ?_, fun j hj => ?_, fun j hj => ?_, fun j hj => ?_⟩, hcols⟩
  · refine ⟨by simp [viewOf], by simp [viewOf], by simp [viewOf, hP0]⟩
  · obtain ⟨j, hj⟩ : ∃ j, T.length = j + 1 := ⟨T.length - 1, by omega⟩
    obtain ⟨-, h1, h2, h3, -⟩ := hcols j (by omega)
    obtain ⟨l1, l2, l3⟩ := valid_last h j (by omega) hj.symm
    rw [hj, ← Nat.add_assoc]
    exact ⟨h1.trans l1, h2.trans l2, h3.trans l3⟩
  · obtain ⟨h0, h1, h2, h3, h4, h5⟩ := hcols j hj
    have hcont : (viewOf T P s).cont (s + j + 1) = 1 - T[j] 5 := by
      simp only [viewOf, e2, List.getD_eq_getElem _ _ hj]
    have hcaux : (viewOf T P s).caux (s + j + 1) = (T[j] 3)⁻¹ := by
      rw [← h3]; rfl
    have hinp : (viewOf T P s).inp (s + j + 1) = stateIn (P j).out T[j] := by
      simp only [viewOf, e2, List.getD_eq_getElem _ _ hj]
    have hidx' : (viewOf T P s).idx (s + j) = (P j).idx := by simp only [viewOf, e3]
    have hctrl' : (viewOf T P s).ctrl (s + j) = (P j).ctrl := by simp only [viewOf, e3]
    have hout' : (viewOf T P s).out (s + j) = (P j).out := by simp only [viewOf, e3]
    have haux : T[j] 3 * (1 - T[j] 3 * (T[j] 3)⁻¹) = 0 := by
      by_cases hz : T[j] 3 = 0
      · rw [hz, zero_mul]
      · rw [mul_inv_cancel₀ hz, sub_self, mul_zero]
    rcases (hP j hj).1 with ⟨hh, hend, -⟩ | ⟨hh, hne, hstep, hsame⟩
    · have hc : (viewOf T P s).cont (s + j + 1) = 0 := by rw [hcont, hh, sub_self]
      have hi : (viewOf T P s).inp (s + j + 1) = ![T[j] 3 + T[j] 4, T[j] 1, T[j] 2] := by
        rw [hinp, stateIn, if_pos hh]
      refine ⟨?_, ?_, ?_, ?_, ?_, ?_, ?_, ?_, ?_, ?_, ?_⟩
      · rw [hc, zero_mul]
      · rw [h3, hcaux]; exact haux
      · rw [hc, zero_mul]
      · rw [hc, h5, hh]; ring
      · rw [hc, zero_mul]
      · rw [hc, zero_mul]
      · rw [hidx', hout', hend, sub_self, mul_zero]
      · rw [hc, h1, hi, mul_zero, zero_add]; exact sub_self _
      · rw [hc, h2, hi, mul_zero, zero_add]; exact sub_self _
      · rw [h3, h4, hi]
        refine mul_eq_zero_of_right _ ?_
        exact sub_self _
      · rw [hc, zero_mul]
    · have hc : (viewOf T P s).cont (s + j + 1) = 1 := by rw [hcont, hh, sub_zero]
      have hi : (viewOf T P s).inp (s + j + 1) =
          ![(P j).out 0 + T[j] 4, (P j).out 1 + T[j] 1, (P j).out 2 + T[j] 2] := by
        rw [hinp, stateIn, if_neg (by rw [hh]; exact zero_ne_one)]
      refine ⟨?_, ?_, ?_, ?_, ?_, ?_, ?_, ?_, ?_, ?_, ?_⟩
      · rw [hc, sub_self, mul_zero]
      · rw [h3, hcaux]; exact haux
      · rw [h3, hcaux, mul_inv_cancel₀ hne, sub_self, mul_zero]
      · rw [hc, h5, hh]; ring
      · rw [h3, hctrl', hstep, sub_self, mul_zero]
      · rw [h0, hidx', hsame, sub_self, mul_zero]
      · rw [hc, sub_self, zero_mul]
      · rw [hc, h1, hi, hout', mul_one]; exact sub_self _
      · rw [hc, h2, hi, hout', mul_one]; exact sub_self _
      · rw [hc, sub_self, zero_mul]
      · rw [hc, h4, hi, hout', one_mul]
        change (P j).out 0 + T[j] 4 - (P j).out 0 - T[j] 4 = 0
        ring
  · simp only [viewOf, e1, (hP j hj).2, Nat.add_sub_cancel, List.getD_eq_getElem _ _ hj]
  · obtain ⟨-, -, -, -, -, h5⟩ := hcols j hj
    have hctrl' : (viewOf T P s).ctrl (s + j) = (P j).ctrl := by simp only [viewOf, e3]
    rw [h5, hctrl']
    rcases (hP j hj).1 with ⟨hh, -, i, hi, e⟩ | ⟨hh, -⟩
    · exact ⟨i, hi, by rw [hh, one_mul, e]⟩
    · exact ⟨0, Nat.zero_le _, by rw [hh, zero_mul, hsz]⟩

end Complete

/-- The six columns of the rows `a, ..., a + n - 1`. -/
def rowsFrom (x : Run Fr) (g : Grid Fr) (a n : ℕ) : List (Fin 6 → Fr) :=
  (List.range' a n).map fun r i => x.col g i r

private theorem cont_sound {x : Run Fr} {g : Grid Fr} {SPEC step i : ℕ} {D : Fr} (n b : ℕ)
    (h0 : ∀ j < n, x.col g 0 (b + j) = D) (h5 : ∀ j < n, x.col g 5 (b + j) = 0)
    (h3 : ∀ j < n, x.col g 3 (b + j) = (((i + (n - 1 - j) * step) * SPEC : ℕ) : Fr)) :
    rowsFrom x g b n = contTable SPEC step i D
      ((List.range' b n).map fun r => (x.col g 4 r, x.col g 1 r, x.col g 2 r)) := by
  induction n generalizing b with
  | zero => rfl
  | succ n ih =>
    have ih := ih (b + 1) (fun j hj => by rw [← h0 (j + 1) (by omega)]; congr 1; omega)
      (fun j hj => by rw [← h5 (j + 1) (by omega)]; congr 1; omega)
      (fun j hj => by
        rw [show b + 1 + j = b + (j + 1) by omega, h3 (j + 1) (by omega), show n + 1 - 1 - (j + 1) = n - 1 - j by omega])
    unfold rowsFrom at ih ⊢
    rw [List.range'_succ, List.map_cons, List.map_cons, contTable, ih]
    refine congrArg₂ _ ?_ rfl
    have a0 := h0 0 (by omega)
    have a5 := h5 0 (by omega)
    have a3 := h3 0 (by omega)
    rw [Nat.add_zero] at a0 a5 a3
    rw [List.length_map, List.length_range']
    funext c
    fin_cases c
    · exact a0
    · rfl
    · rfl
    · exact a3
    · rfl
    · exact a5

/-- The rows of an accepted table from a head on. -/
private theorem sound_from {x : Run Fr} {k : ChipKind} {short : Bool} {L' : Layouter Fr}
    {post : List (Op Fr)} {g : Grid Fr} (h : x.Accepted k short L' post g) {s : ℕ} (hen : x.EnabledAfter g s)
    (h0 : 0 < x.calcs) : ∀ n a, s < a → a + n = s + x.calcs → x.col g 5 a = 1 →
      ValidTable x.STEP x.step (Base.domainSpec x.legacy) (rowsFrom x g a (n + 1)) := by
  obtain ⟨s₁, hen₁, -, -, hcov, hctl, -⟩ := C28_controls h
  obtain ⟨s₂, hen₂, hdig⟩ := C26_block_digest h
  obtain ⟨s₃, hen₃, -, hlast, -⟩ := C30_custom_rows h
  obtain rfl : s₁ = s := hen₁.unique h.laid.usable_le hen h0
  obtain rfl : s₂ = s₁ := hen₂.unique h.laid.usable_le hen h0
  obtain rfl : s₃ = s₂ := hen₃.unique h.laid.usable_le hen h0
  intro n
  induction n using Nat.strong_induction_on with
  | _ n ih =>
    intro a ha hn hh
    rcases Nat.eq_zero_or_pos n with rfl | hpos
    · obtain ⟨l1, l2, l3⟩ := hlast a (Or.inr (by omega))
      have := ValidTable.last (STEP := x.STEP) (step := x.step) (SPEC := Base.domainSpec x.legacy)
        (x.col g 0 a) (x.col g 4 a)
      convert this using 1
      refine congrArg (fun t => [t]) ?_
      funext c
      fin_cases c
      · rfl
      · exact l1
      · exact l2
      · exact l3
      · rfl
      · exact hh
    · obtain ⟨a', m, hb, h1, h2⟩ := hcov a ha (by omega)
      have haa : a' = a := by
        by_contra hne
        have := hb.cont (a - a') (by omega) (by omega)
        rw [show a' + (a - a') = a by omega, hh] at this
        exact one_ne_zero this
      subst haa
      have hbl := hb.last
      obtain ⟨i, hi, hi0, hci⟩ := hctl a' m hb
      have hd := (hdig a' m hb).1
      have hrest := ih (n - (m + 1)) (by omega) (a' + m + 1) (by omega) (by omega) hb.next
      have hsplit : rowsFrom x g a' (n + 1) =
          rowsFrom x g a' (m + 1) ++ rowsFrom x g (a' + m + 1) (n - (m + 1) + 1) := by
        unfold rowsFrom
        rw [← List.map_append, Nat.add_assoc a' m 1, List.range'_append_1]
        congr 2
        omega
      obtain ⟨more, hmore⟩ : ∃ more : List (Fr × Fr × Fr),
        more = (List.range' (a' + 1) m).map fun r => (x.col g 4 r, x.col g 1 r, x.col g 2 r) := ⟨_, rfl⟩
      have hlen : more.length = m := by rw [hmore]; simp
      have hblock : blockOf x g a' m = (x.col g 4 a', x.col g 1 a', x.col g 2 a') :: more := by
        unfold blockOf
        rw [hmore, List.range_eq_range', List.range'_succ, List.map_cons]
        refine congrArg₂ _ rfl ?_
        refine List.ext_getElem (by simp) fun j h1 h2 => ?_
        simp only [List.getElem_map, List.getElem_range']
        rw [show a' + (0 + 1 + 1 * j) = a' + 1 + 1 * j by omega]
      have c0 := (hci 0 (Nat.zero_le _)).1
      rw [Nat.add_zero, Nat.sub_zero] at c0
      have hd0 := hd 0 (Nat.zero_le _)
      rw [Nat.add_zero, c0, hblock] at hd0
      have hv := ValidTable.block (STEP := x.STEP) (step := x.step) (SPEC := Base.domainSpec x.legacy) i
        (x.col g 4 a') (x.col g 1 a') (x.col g 2 a') more _ hi
        (fun hne => hi0 (by rw [← hlen]; exact List.length_pos_iff.mpr hne)) hrest
      rw [hlen, ← hd0] at hv
      rw [hsplit]
      convert hv using 2
      unfold blockTable
      rw [← hlen] at hci ⊢
      have hcont := cont_sound (x := x) (g := g) (SPEC := Base.domainSpec x.legacy) (step := x.step) (i := i)
        (D := x.col g 0 a') m (a' + 1)
        (fun j hj => by
          rw [show a' + 1 + j = a' + (j + 1) by omega, hd (j + 1) (by omega), c0, hblock, hd0])
        (fun j hj => by
          rw [show a' + 1 + j = a' + (j + 1) by omega]; exact hb.cont _ (by omega) (by omega))
        (fun j hj => by
          rw [show a' + 1 + j = a' + (j + 1) by omega, (hci (j + 1) (by omega)).1,
            show more.length - (j + 1) = m - 1 - j by omega])
      rw [← hmore] at hcont
      rw [← hcont]
      unfold rowsFrom
      rw [hlen, List.range'_succ, List.map_cons]
      refine congrArg₂ _ ?_ rfl
      funext c
      fin_cases c
      · rfl
      · rfl
      · rfl
      · exact c0
      · rfl
      · exact hb.head

/-- A valid table fits into any surrounding circuit that leaves the advice columns of the hash table alone, with a row of
zeros before it. -/
theorem C60_fill {x : Run Fr} {k : ChipKind} {short : Bool} {L' : Layouter Fr} {post : List (Op Fr)}
    {g₀ : Grid Fr} {s : ℕ} (hbn : x.IsBn k short) (hlegal : x.Legal) (hload : x.Loads L')
    (hlaid : x.Laid L' post g₀)
    (hq : ∀ c r v, Op.advice c r v ∈ x.before.ops ++ post → ¬ x.AdviceCol c)
    (hen : x.EnabledAfter g₀ s) (h0 : 0 < x.calcs) (T : List (Fin 6 → Fr)) (hT : T.length = x.calcs)
    (hv : ValidTable x.STEP x.step (Base.domainSpec x.legacy) T) :
    ∃ g, x.Accepted k short L' post g ∧ g.n = g₀.n ∧ g.usable = g₀.usable ∧ g.fixed = g₀.fixed ∧
      g.selector = g₀.selector ∧ (∀ c, ¬ x.AdviceCol c → g.advice c = g₀.advice c) ∧
      (∀ j (hj : j < T.length) i, x.col g i (s + j + 1) = T[j] i) ∧ ∀ i, x.col g i s = 0 := by
  obtain ⟨⟨lw, -⟩, hnat⟩ := hbn.lawful
  obtain ⟨v, hR, hcols⟩ := rows_of_valid hlegal.STEP_lt hlegal.step_lt hv (by rw [hT]; exact hlegal.calcs_lt) s
  rw [hT] at hR
  obtain ⟨g, hl, hs, hn, hu, hf, hsel, hadv, hag, hzero⟩ :=
    Run.exists_grid lw fr_big hlegal hnat hload hlaid hq hen h0 v hR
  refine ⟨g, ⟨hbn, hlegal, hload, hl, hs⟩, hn, hu, hf, hsel, hadv, fun j hj i => ?_, hzero⟩
  have ha := hag (s + j + 1) (by omega) (by omega)
  obtain ⟨h0, h1, h2, h3, h4, h5⟩ := hcols j hj
  fin_cases i
  · exact ha.idx.trans h0
  · exact ha.w0.trans h1
  · exact ha.w1.trans h2
  · exact ha.ctrl.trans h3
  · exact ha.dom.trans h4
  · exact ha.head.trans h5

/-- **C60.** In any surrounding circuit that leaves the advice columns of the hash table alone, with any
table passed to `load`: the contents that the enabled rows can have in an accepted assignment with the given
fixed columns, selectors and foreign advice are exactly the valid tables. -/
theorem C60_exact {x : Run Fr} {k : ChipKind} {short : Bool} {L' : Layouter Fr} {post : List (Op Fr)}
    {g₀ : Grid Fr} {s : ℕ} (hbn : x.IsBn k short) (hlegal : x.Legal) (hload : x.Loads L')
    (hlaid : x.Laid L' post g₀)
    (hq : ∀ c r v, Op.advice c r v ∈ x.before.ops ++ post → ¬ x.AdviceCol c)
    (hen : x.EnabledAfter g₀ s) (h0 : 0 < x.calcs) (T : List (Fin 6 → Fr)) (hT : T.length = x.calcs) :
    (∃ g, x.Accepted k short L' post g ∧ g.n = g₀.n ∧ g.usable = g₀.usable ∧ g.fixed = g₀.fixed ∧
      g.selector = g₀.selector ∧ (∀ c, ¬ x.AdviceCol c → g.advice c = g₀.advice c) ∧
      ∀ j (hj : j < T.length) i, x.col g i (s + j + 1) = T[j] i) ↔
    ValidTable x.STEP x.step (Base.domainSpec x.legacy) T := by
  constructor
  · rintro ⟨g, h, hn, hu, hf, -, -, hcol⟩
    have hen' : x.EnabledAfter g s := by
      refine ⟨by rw [hu]; exact hen.1, ?_⟩
      rw [hn, hf]
      exact hen.2
    obtain ⟨s₁, hen₁, -, hh, -⟩ := C28_controls h
    obtain rfl : s₁ = s := hen₁.unique h.laid.usable_le hen' h0
    have := sound_from h hen' h0 (x.calcs - 1) (s₁ + 1) (by omega) (by omega) (hh h0).1
    convert this using 1
    refine List.ext_getElem (by simp [rowsFrom]; omega) fun j h1 h2 => ?_
    simp only [rowsFrom, List.getElem_map, List.getElem_range']
    funext i
    rw [← hcol j h1 i]
    congr 1
    omega
  · intro hv
    obtain ⟨g, h, hn, hu, hf, hsel, hadv, hcol, -⟩ := C60_fill hbn hlegal hload hlaid hq hen h0 T hT hv
    exact ⟨g, h, hn, hu, hf, hsel, hadv, hcol⟩

/-- A circuit with the hash table only and nothing to hash, for every step and number of rows. -/
theorem blank_run (k : ChipKind) (short legacy : Bool) (mode : LoadMode) {STEP step n : ℕ} (hS : STEP < 2 ^ 64)
    (hst : step < 2 ^ 64) (hn : n < 2 ^ 64) (hn0 : 0 < n) :
    ∃ (x : Run Fr) (L' : Layouter Fr) (g : Grid Fr), x.IsBn k short ∧ x.Legal ∧ x.load = .ok L' ∧
      x.Laid L' [] g ∧ x.before.ops = [] ∧ x.EnabledAfter g 0 ∧ x.legacy = legacy ∧ x.mode = mode ∧
      x.STEP = STEP ∧ x.step = step ∧ x.calcs = n := by
  obtain ⟨ch, hch, -⟩ := bnChip_lawful k
  obtain ⟨x, hx⟩ : ∃ x : Run Fr, x = { demoRun ch short legacy mode 0 with
    STEP := STEP, step := step, table := ⟨[], [], [], []⟩, calcs := n } := ⟨_, rfl⟩
  have hbn : x.IsBn k short := by rw [hx]; exact ⟨hch, rfl⟩
  have hlegal : x.Legal := by
    rw [hx]
    refine ⟨fun i => i.isLt, fun i j h => Fin.ext h, by simp [demoRun], hS, hst, hn, ?_⟩
    intro c' h
    simp at h
  obtain ⟨L', hL, hacc⟩ := C31_complete hbn hlegal
    (fun _ => by rw [hx]; simp)
    (by
      rw [hx]
      intro a m _ _ ck hck
      simp [rowCk] at hck)
    (by
      rw [hx]
      refine ⟨fun j hj hgtj => ?_, fun j hj => ?_⟩
      · simp [rowCtl] at hgtj
      · simp [rowCtl, rowWords])
  obtain ⟨g, hg⟩ := Run.exists_honest (x := x) (L' := L') (by rw [hx]; rfl)
  obtain ⟨⟨lw, -⟩, hnat⟩ := hbn.lawful
  obtain ⟨s, hen, hfr, -⟩ := Run.honest_iff lw fr_big hlegal hnat (Or.inl hL) hg
  have hs : s = 0 := hfr hL (by rw [hx]; exact ⟨fun _ _ => rfl, fun _ _ => rfl, fun _ _ => rfl⟩)
  subst hs
  exact ⟨x, L', g, hbn, hlegal, hL, hg.toLaid, by rw [hx]; rfl, hen, by rw [hx]; rfl, by rw [hx]; rfl, by rw [hx],
    by rw [hx], by rw [hx]⟩

/-- C60 for a circuit of its own: for every chip, build, loading mode and pair of steps, the tables that some
accepted assignment exposes on the enabled rows are exactly the valid ones. -/
theorem C60_exists (k : ChipKind) (short legacy : Bool) (mode : LoadMode) {STEP step : ℕ} (hS : STEP < 2 ^ 64)
    (hst : step < 2 ^ 64) (T : List (Fin 6 → Fr)) (hlen : T.length < 2 ^ 64) (hne : T ≠ []) :
    (∃ (x : Run Fr) (L' : Layouter Fr) (post : List (Op Fr)) (g : Grid Fr) (s : ℕ),
      x.Accepted k short L' post g ∧ x.legacy = legacy ∧ x.mode = mode ∧ x.STEP = STEP ∧ x.step = step ∧
      x.EnabledAfter g s ∧ x.calcs = T.length ∧ ∀ j (hj : j < T.length) i, x.col g i (s + j + 1) = T[j] i) ↔
    ValidTable STEP step (Base.domainSpec legacy) T := by
  have hpos := List.length_pos_iff.mpr hne
  constructor
  · rintro ⟨x, L', post, g, s, h, hl, -, hS', hst', hen, hc, hcol⟩
    obtain ⟨s₁, hen₁, -, hh, -⟩ := C28_controls h
    obtain rfl : s₁ = s := hen₁.unique h.laid.usable_le hen (by omega)
    have := sound_from h hen (by omega) (x.calcs - 1) (s₁ + 1) (by omega) (by omega) (hh (by omega)).1
    rw [hl, hS', hst'] at this
    convert this using 1
    refine List.ext_getElem (by simp [rowsFrom]; omega) fun j h1 h2 => ?_
    simp only [rowsFrom, List.getElem_map, List.getElem_range']
    funext i
    rw [← hcol j h1 i]
    congr 1
    omega
  · intro hv
    obtain ⟨x, L', g₀, hbn, hlegal, hL, hlaid, hb, hen, hxl, hxm, hxS, hxs, hxc⟩ :=
      blank_run k short legacy mode hS hst hlen hpos
    obtain ⟨g, h, hn, hu, hf, -, -, hcol⟩ := (C60_exact hbn hlegal (Or.inl hL) hlaid (by simp [hb]) hen (by omega) T
      hxc.symm).mpr (by rw [hxl, hxS, hxs]; exact hv)
    refine ⟨x, L', [], g, 0, h, hxl, hxm, hxS, hxs, ⟨by rw [hu]; exact hen.1, ?_⟩, hxc, hcol⟩
    rw [hn, hf]
    exact hen.2

-- a block of two rows with a domain on each, and the last row
example : ValidTable 62 62 (Base.domainSpec false) (blockTable (Base.domainSpec false) 62 3
    (Spec.rowsDigest (Spec.onTriples permBn) (((3 + 1 * 62) * Base.domainSpec false : ℕ) : Fr)
      [(7, 1, 2), (8, 3, 4)]) 7 1 2 [(8, 3, 4)] ++ [![11, 0, 0, 0, 13, 1]]) :=
  ValidTable.block 3 7 1 2 [(8, 3, 4)] _ (by norm_num) (fun _ => by norm_num) (ValidTable.last 11 13)

-- the hypotheses of `C60_exact`: an empty circuit with three enabled rows
example (k : ChipKind) (short legacy : Bool) (mode : LoadMode) :
    ∃ (x : Run Fr) (L' : Layouter Fr) (g : Grid Fr), x.IsBn k short ∧ x.Legal ∧ x.load = .ok L' ∧
      x.Laid L' [] g ∧ (∀ c r v, Op.advice c r v ∈ x.before.ops ++ [] → ¬ x.AdviceCol c) ∧
      x.EnabledAfter g 0 ∧ x.calcs = 3 := by
  obtain ⟨x, L', g, h1, h2, h3, h4, h5, h6, -, -, -, -, h7⟩ :=
    blank_run k short legacy mode (STEP := 62) (step := 62) (n := 3) (by norm_num) (by norm_num) (by norm_num)
      (by norm_num)
  exact ⟨x, L', g, h1, h2, h3, h4, by simp [h5], h6, h7⟩

/-- The first row of a valid table has the head flag, and the last row has zero words, zero control and the
head flag. -/
theorem ValidTable.flags {STEP step SPEC : ℕ} {T : List (Fin 6 → Fr)} (h : ValidTable STEP step SPEC T) :
    (∃ t T', T = t :: T' ∧ t 5 = 1) ∧ ∃ T' d dom, T = T' ++ [![d, 0, 0, 0, dom, 1]] := by
  induction h with
  | last d dom => exact ⟨⟨_, [], rfl, rfl⟩, [], d, dom, rfl⟩
  | block i d a b more rest hi hpos hv ih =>
    obtain ⟨-, T', d', dom', e⟩ := ih
    refine ⟨⟨_, _, rfl, rfl⟩, ?_⟩
    rw [e, ← List.append_assoc]
    exact ⟨_, d', dom', rfl⟩

end Props
