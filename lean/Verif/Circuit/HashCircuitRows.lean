import Verif.Circuit.HashCircuit
import Verif.Circuit.GadgetSound
import Verif.Circuit.MockChip

/-!
# Columns, rows and regions of the test circuits
-/

set_option linter.unusedVariables false
set_option linter.unusedSectionVars false
set_option linter.unusedSimpArgs false

open Halo2

/-! ## Serving constants: rows -/

namespace Halo2.Layouter
variable {F : Type} [Field F]

/-- Is the operation a request for a constant? -/
def isConst : Op F → Bool
  | .constant _ _ => true
  | _ => false

theorem serveConstants_ends (kc : ℕ) : ∀ (os : List (Op F)) (L L' : Layouter F), L.constCol = some kc →
    L.serveConstants os = .ok L' →
    L'.colEnd (.fixed kc) = L.colEnd (.fixed kc) + os.countP isConst ∧
    (∀ k, k ≠ .fixed kc → L'.colEnd k = L.colEnd k) ∧ L'.constCol = some kc ∧
    ∀ o ∈ L'.ops, o ∈ L.ops ∨ o.bottom ≤ L'.colEnd (.fixed kc)
  | [], L, L', h, e => by
    injection e with e; subst e
    exact ⟨by simp, fun _ _ => rfl, h, fun o ho => Or.inl ho⟩
  | o :: os, L, L', h, e => by
    by_cases hc : ∃ c v, o = .constant c v
    · obtain ⟨c, v, rfl⟩ := hc
      simp only [serveConstants, h] at e
      obtain ⟨h1, h2, h3, h4⟩ := serveConstants_ends kc os _ L' rfl e
      simp only [if_true] at h1
      refine ⟨?_, fun k hk => ?_, h3, fun o ho => ?_⟩
      · rw [h1, List.countP_cons_of_pos (by rfl)]; omega
      · rw [h2 k hk]; exact if_neg hk
      · rcases h4 o ho with h | h
        · rcases List.mem_append.mp h with h | h
          · exact Or.inl h
          · simp only [List.mem_cons, List.not_mem_nil, or_false] at h
            rcases h with rfl | rfl
            · right; rw [h1]; simp only [Op.bottom]; omega
            · right; simp [Op.bottom]
        · exact Or.inr h
    · have e' : L.serveConstants os = .ok L' := by
        rw [← e]
        cases o with
        | constant c v => exact absurd ⟨c, v, rfl⟩ hc
        | _ => rfl
      obtain ⟨h1, h2, h3, h4⟩ := serveConstants_ends kc os L L' h e'
      refine ⟨?_, h2, h3, h4⟩
      rw [h1, List.countP_cons_of_neg]
      cases o with
      | constant c v => exact absurd ⟨c, v, rfl⟩ hc
      | _ => simp [isConst]

end Halo2.Layouter

namespace Circuit.TestCircuit
open Pow5 Gadget

variable {F : Type} [Field F] {t : ℕ}

section
variable (S : Params F t) (cols : Cols t) (σ : ℕ)

/-- Free rows: the state columns are used up to row `e`, the column `rc_b[0]` up to row `x`, the other columns of
the chip to row `e` at most. -/
structure Ends (L : Layouter F) (e x : ℕ) : Prop where
  le : ∀ i, L.colEnd (.advice (cols.state i)) ≤ e
  ex : ∃ i, L.colEnd (.advice (cols.state i)) = e
  sbox : L.colEnd (.advice cols.partialSbox) ≤ e
  rcA : ∀ i, L.colEnd (.fixed (cols.rcA i)) ≤ e
  rcB : ∀ i, i ≠ 0 → L.colEnd (.fixed (cols.rcB i)) ≤ e
  rcB0 : L.colEnd (.fixed (cols.rcB 0)) = x
  sel : ∀ j < 4, L.colEnd (.selector (σ + j)) ≤ e
  bot : ∀ o ∈ L.ops, o.bottom ≤ max e x

theorem countP_initial (cap : F) (s : ℕ) :
    (initialStateBody (config S cols σ) cap s).ops.countP Layouter.isConst = t + 1 := by
  have : ∀ l : List (Fin (t + 1)), (l.flatMap fun i => (assignAdviceFromConstant s
      ((config S cols σ).state i) 0 (if i = Fin.last t then cap else 0) : W F (ACell F)).ops).countP
        Layouter.isConst = l.length := by
    intro l
    induction l with
    | nil => rfl
    | cons i l ih =>
      rw [List.flatMap_cons, List.countP_append, ih]
      simp only [assignAdviceFromConstant, List.countP_cons, List.countP_nil, Layouter.isConst,
        List.length_cons]
      simp; omega
  simpa [initialStateBody, forFin] using this (List.finRange (t + 1))

variable {S cols σ}

theorem initial_ends (hd : cols.Distinct) (cap : F) {L L' : Layouter F} {w : Words F (t + 1)}
    (hL : L.constCol = some (cols.rcB 0)) {e x : ℕ} (h : Ends cols σ L e x)
    (hr : initialState (config S cols σ) cap L = .ok (w, L')) :
    Ends cols σ L' (e + 1) (x + (t + 1)) ∧ L'.constCol = some (cols.rcB 0) := by
  have hcol : ∀ k, k ∈ Layouter.shapeCols (initialStateBody (config S cols σ) cap 0).ops ↔
      ∃ i, k = .advice (cols.state i) := by
    intro k
    rw [Layouter.mem_shapeCols]
    constructor
    · rintro ⟨o, ho, hk⟩
      obtain ⟨i, rfl | rfl⟩ := (mem_initial S cols σ cap 0 o).mp ho
      · injection hk with hk; exact ⟨i, hk.symm⟩
      · cases hk
    · rintro ⟨i, rfl⟩
      exact ⟨_, (mem_initial S cols σ cap 0 _).mpr ⟨i, Or.inl rfl⟩, rfl⟩
  have hs : L.startOf (initialStateBody (config S cols σ) cap 0).ops = e := by
    apply Layouter.startOf_eq
    · intro k hk
      obtain ⟨i, rfl⟩ := (hcol k).mp hk
      exact h.le i
    · obtain ⟨i, hi⟩ := h.ex
      exact ⟨_, (hcol _).mpr ⟨i, rfl⟩, hi⟩
  unfold initialState Layouter.assignRegion at hr
  simp only [bind, Except.bind, pure, Except.pure, Layouter.reserve, hs,
    initial_shapeRows S cols σ cap 0] at hr
  generalize hsv : Layouter.serveConstants _ (initialStateBody (config S cols σ) cap e).ops = q at hr
  cases q with
  | error p => cases hr
  | ok L₁ =>
    simp only [Except.ok.injEq, Prod.mk.injEq] at hr
    obtain ⟨-, rfl⟩ := hr
    obtain ⟨h1, h2, h3, h4⟩ := Layouter.serveConstants_ends (cols.rcB 0) _ _ _ (by exact hL) hsv
    rw [countP_initial] at h1
    have hk : ∀ k, k ≠ .fixed (cols.rcB 0) → (∀ i, k ≠ .advice (cols.state i)) →
        L₁.colEnd k = L.colEnd k := by
      intro k h0 hn
      rw [h2 k h0]
      dsimp only
      rw [if_neg]
      rw [hcol]
      rintro ⟨i, hi⟩
      exact hn i hi
    have hst : ∀ i, L₁.colEnd (.advice (cols.state i)) = e + 1 := by
      intro i
      rw [h2 _ (by simp)]
      dsimp only
      rw [if_pos ((hcol _).mpr ⟨i, rfl⟩)]
    refine ⟨⟨fun i => (hst i).le, ⟨0, hst 0⟩, ?_, fun i => ?_, fun i hi => ?_, ?_, fun j hj => ?_,
      fun o ho => ?_⟩, h3⟩
    · rw [hk _ (by simp) (by intro i hi; injection hi with hi; exact hd.sbox i hi.symm)]
      exact h.sbox.trans (by omega)
    · rw [hk _ (by intro hi; injection hi with hi; exact hd.rcAB _ _ hi) (by simp)]
      exact (h.rcA i).trans (by omega)
    · rw [hk _ (by intro h0; injection h0 with h0; exact hi (hd.rcB h0)) (by simp)]
      exact (h.rcB i hi).trans (by omega)
    · rw [h1]
      dsimp only
      rw [if_neg (by rw [hcol]; simp), h.rcB0]
    · rw [hk _ (by simp) (by simp)]
      exact (h.sel j hj).trans (by omega)
    · rcases h4 o ho with h5 | h5
      · rcases List.mem_append.mp h5 with h5 | h5
        · exact (h.bot o h5).trans (by omega)
        · obtain ⟨i, rfl | rfl⟩ := (mem_initial S cols σ cap e o).mp h5
          · simp only [Op.bottom]; omega
          · simp [Op.bottom]
      · rw [h1] at h5
        dsimp only at h5
        rw [if_neg (by rw [hcol]; simp), h.rcB0] at h5
        omega

theorem add_ends (hd : cols.Distinct) {L L' : Layouter F} {w w' : Words F (t + 1)}
    {inp : Fin t → PaddedWord F} (hin : ∀ k : Fin t, k.val = 0 → ∀ v, inp k ≠ .padding v)
    {e x : ℕ} (h : Ends cols σ L e x)
    (hr : addInput (config S cols σ) L w (fun k => some (inp k)) = .ok (w', L')) :
    Ends cols σ L' (e + 3) x ∧ L'.constCol = L.constCol := by
  have hno : ∀ s c v, Op.constant c v ∉ (addInputBody (config S cols σ) w inp s).ops := by
    intro s c v hm
    rcases (mem_addInput S cols σ w inp s _).mp hm with h | ⟨i, h | h⟩ |
      ⟨k, ⟨v, -, h⟩ | h | h⟩ | ⟨i, h⟩ <;> cases h
  have hcol : ∀ k, k ∈ Layouter.shapeCols (addInputBody (config S cols σ) w inp 0).ops →
      (∃ i, k = .advice (cols.state i)) ∨ k = .selector (σ + 3) ∨
      ∃ j : Fin t, j.castSucc ≠ 0 ∧ k = .fixed (cols.rcB j.castSucc) := by
    intro k hk
    obtain ⟨o, ho, hk⟩ := Layouter.mem_shapeCols.mp hk
    rcases (mem_addInput S cols σ w inp 0 o).mp ho with rfl | ⟨i, rfl | rfl⟩ |
      ⟨k, ⟨v, hv, rfl⟩ | rfl | rfl⟩ | ⟨i, rfl⟩ <;> cases hk
    · exact Or.inr (Or.inl rfl)
    · exact Or.inl ⟨_, rfl⟩
    · refine Or.inr (Or.inr ⟨k, fun h0 => ?_, rfl⟩)
      exact hin k (by simpa [Fin.ext_iff] using h0) v hv
    · exact Or.inl ⟨_, rfl⟩
    · exact Or.inl ⟨_, rfl⟩
  have hst : ∀ i, RCol.advice (cols.state i) ∈
      Layouter.shapeCols (addInputBody (config S cols σ) w inp 0).ops := fun i =>
    Layouter.mem_shapeCols.mpr ⟨_, (mem_addInput S cols σ w inp 0 _).mpr (Or.inr (Or.inl ⟨i, Or.inl rfl⟩)),
      rfl⟩
  have hs : L.startOf (addInputBody (config S cols σ) w inp 0).ops = e := by
    apply Layouter.startOf_eq
    · intro k hk
      rcases hcol k hk with ⟨i, rfl⟩ | rfl | ⟨j, hj, rfl⟩
      · exact h.le i
      · exact h.sel 3 (by omega)
      · exact h.rcB _ hj
    · obtain ⟨i, hi⟩ := h.ex
      exact ⟨_, hst i, hi⟩
  have hreg := Layouter.assignRegion_ok L (fun s => addInputBody (config S cols σ) w inp s) hno
  have hall : allSome (fun k => some (inp k)) = some inp := by simp [allSome]
  unfold addInput at hr
  rw [hall] at hr
  simp only at hr
  rw [hreg, hs, addInput_shapeRows S cols σ w inp] at hr
  simp only [Except.ok.injEq, Prod.mk.injEq] at hr
  obtain ⟨-, rfl⟩ := hr
  have hle : ∀ k, L.colEnd k ≤ e → (if k ∈ Layouter.shapeCols (addInputBody (config S cols σ) w inp 0).ops
      then e + 3 else L.colEnd k) ≤ e + 3 := by
    intro k hk; split_ifs <;> omega
  refine ⟨⟨fun i => hle _ (h.le i), ⟨0, if_pos (hst 0)⟩, hle _ h.sbox, fun i => hle _ (h.rcA i),
    fun i hi => hle _ (h.rcB i hi), ?_, fun j hj => hle _ (h.sel j hj), fun o ho => ?_⟩, rfl⟩
  · dsimp only
    rw [if_neg, h.rcB0]
    intro hk
    rcases hcol _ hk with ⟨i, hi⟩ | hi | ⟨j, hj, hi⟩
    · cases hi
    · cases hi
    · injection hi with hi; exact hj (hd.rcB hi).symm
  · rcases List.mem_append.mp ho with ho | ho
    · exact (h.bot o ho).trans (by omega)
    · rcases (mem_addInput S cols σ w inp e o).mp ho with rfl | ⟨i, rfl | rfl⟩ |
        ⟨k, ⟨v, hv, rfl⟩ | rfl | rfl⟩ | ⟨i, rfl⟩ <;> simp only [Op.bottom] <;> omega

theorem double_exists (hp : 2 ≤ S.partialRounds) : ∃ o < steps S, kindAt S o = .double := by
  refine ⟨S.fullRounds / 2, ?_, ?_⟩
  · unfold steps; omega
  · unfold kindAt
    rw [if_neg (by omega), if_pos (by omega)]

theorem perm_ends (hd : cols.Distinct) (hp : 2 ≤ S.partialRounds) {L L' : Layouter F}
    {w w' : Words F (t + 1)} {e x : ℕ} (h : Ends cols σ L e x)
    (hr : permute S (config S cols σ) L w = .ok (w', L')) :
    Ends cols σ L' (max e x + (steps S + 1)) (max e x + (steps S + 1)) ∧ L'.constCol = L.constCol ∧
      ∀ i, (w' i).cell = ⟨.advice (cols.state i), max e x + steps S⟩ ∧
        L'.colEnd (.advice (cols.state i)) = max e x + (steps S + 1) := by
  obtain ⟨s, L₁, e₁, hs, ho, hc, hcol⟩ := permute_ok S cols σ L w
  rw [hr] at e₁
  simp only [Except.ok.injEq, Prod.mk.injEq] at e₁
  obtain ⟨rfl, rfl⟩ := e₁
  have hdb := double_exists hp
  have mem := permute_shapeCols S cols σ w 0
  have hse : s = max e x := by
    rw [hs]
    apply Layouter.startOf_eq
    · intro k hk
      rcases (mem k).mp hk with ⟨i, rfl⟩ | ⟨o, ho, rfl⟩ | ⟨-, i, rfl⟩ | ⟨-, rfl | ⟨i, rfl⟩⟩
      · exact (h.le i).trans (le_max_left _ _)
      · have := selAt_lt S σ o
        have := h.sel (selAt S σ o - σ) (by omega)
        rw [show σ + (selAt S σ o - σ) = selAt S σ o by omega] at this
        omega
      · exact (h.rcA i).trans (le_max_left _ _)
      · exact h.sbox.trans (le_max_left _ _)
      · by_cases hi : i = 0
        · subst hi; rw [h.rcB0]; exact le_max_right _ _
        · exact (h.rcB i hi).trans (le_max_left _ _)
    · rcases le_total x e with hx | hx
      · obtain ⟨i, hi⟩ := h.ex
        exact ⟨_, (mem _).mpr (Or.inl ⟨i, rfl⟩), by rw [hi, max_eq_left hx]⟩
      · exact ⟨_, (mem _).mpr (Or.inr (Or.inr (Or.inr ⟨hdb, Or.inr ⟨0, rfl⟩⟩))), by
          rw [h.rcB0, max_eq_right hx]⟩
  rw [← hs, permute_shapeRows, hse] at hcol
  rw [hse] at ho
  have hin : ∀ k, UsesCol S cols σ k → L'.colEnd k = max e x + (steps S + 1) := by
    intro k hk
    rw [hcol]; exact if_pos ((mem k).mpr hk)
  have hle : ∀ k, L.colEnd k ≤ e → L'.colEnd k ≤ max e x + (steps S + 1) := by
    intro k hk
    rw [hcol]; dsimp only
    split_ifs <;> omega
  refine ⟨⟨fun i => (hin _ (Or.inl ⟨i, rfl⟩)).le, ⟨0, hin _ (Or.inl ⟨0, rfl⟩)⟩, hle _ h.sbox,
    fun i => hle _ (h.rcA i), fun i hi => hle _ (h.rcB i hi),
    hin _ (Or.inr (Or.inr (Or.inr ⟨hdb, Or.inr ⟨0, rfl⟩⟩))), fun j hj => hle _ (h.sel j hj),
    fun o hm => ?_⟩, hc, fun i => ⟨by rw [hse]; rfl, hin _ (Or.inl ⟨i, rfl⟩)⟩⟩
  rw [ho] at hm
  rcases List.mem_append.mp hm with hm | hm
  · exact (h.bot o hm).trans (by omega)
  · rcases ((permuteBody_spec S cols σ _ w).2 o).mp hm with hb | ⟨i, rfl⟩
    · cases hb <;> simp only [Op.bottom] <;> omega
    · simp [Op.bottom]

/-- Rows after one more block. -/
def block (S : Params F t) (q : ℕ × ℕ) : ℕ × ℕ :=
  (max (q.1 + 3) q.2 + (steps S + 1), max (q.1 + 3) q.2 + (steps S + 1))

theorem block_iterate (S : Params F t) (q : ℕ × ℕ) (f : ℕ) : (block S)^[f + 1] q =
    (max (q.1 + 3) q.2 + (steps S + 1) + f * (3 + (steps S + 1)),
      max (q.1 + 3) q.2 + (steps S + 1) + f * (3 + (steps S + 1))) := by
  induction f with
  | zero => simp [block]
  | succ f ih =>
    rw [Function.iterate_succ_apply', ih]
    simp only [block, Prod.mk.injEq]
    rw [max_eq_left (by omega)]
    constructor <;> ring

theorem sponge_ends (hd : cols.Distinct) (hp : 2 ≤ S.partialRounds) {L L' : Layouter F}
    {w w' : Words F (t + 1)} {out : SMode F t} {inp : Fin t → PaddedWord F}
    (hin : ∀ k : Fin t, k.val = 0 → ∀ v, inp k ≠ .padding v) {q : ℕ × ℕ} (h : Ends cols σ L q.1 q.2)
    (hr : poseidonSponge S (config S cols σ) L w (some fun k => some (inp k)) = .ok (w', out, L')) :
    Ends cols σ L' (block S q).1 (block S q).2 ∧ L'.constCol = L.constCol ∧ out = getOutput w' ∧
      ∀ i, (w' i).cell = ⟨.advice (cols.state i), max (q.1 + 3) q.2 + steps S⟩ ∧
        L'.colEnd (.advice (cols.state i)) = (block S q).1 := by
  simp only [poseidonSponge, stepInput, bind, Except.bind, pure, Except.pure] at hr
  cases ha : addInput (config S cols σ) L w (fun k => some (inp k)) with
  | error p => rw [ha] at hr; cases hr
  | ok q₁ =>
    rw [ha] at hr
    obtain ⟨w₁, L₁⟩ := q₁
    simp only at hr
    cases hb : permute S (config S cols σ) L₁ w₁ with
    | error p => rw [hb] at hr; cases hr
    | ok q₂ =>
      rw [hb] at hr
      obtain ⟨w₂, L₂⟩ := q₂
      simp only [Except.ok.injEq, Prod.mk.injEq] at hr
      obtain ⟨rfl, rfl, rfl⟩ := hr
      obtain ⟨h1, c1⟩ := add_ends hd hin h ha
      obtain ⟨h2, c2, h3⟩ := perm_ends hd hp h1 hb
      exact ⟨h2, c2.trans c1, rfl, h3⟩

/-- The first `c` slots of the mode are filled, and the first slot does not hold padding. -/
structure Filled (m : AMode F t) (c : ℕ) : Prop where
  some : ∀ k : Fin t, (m k).isSome ↔ k.val < c
  first : ∀ k : Fin t, k.val = 0 → ∀ v, m k ≠ .some (.padding v)

theorem Filled.find {m : AMode F t} {c : ℕ} (h : Filled m c) :
    (List.finRange t).find? (fun k => (m k).isNone) = if hc : c < t then .some ⟨c, hc⟩ else none := by
  split_ifs with hc
  · rw [List.find?_eq_some_iff_getElem]
    refine ⟨?_, c, by simpa using hc, by simp, fun j hj => ?_⟩
    · have := (h.some ⟨c, hc⟩).not.mpr (by simp)
      simpa using this
    · have := (h.some ⟨j, by omega⟩).mpr hj
      simpa [Option.isSome_iff_ne_none] using this
  · rw [List.find?_eq_none]
    intro k _
    have := (h.some k).mpr (by omega)
    simpa [Option.isSome_iff_ne_none] using this

theorem absorb_ends (hd : cols.Distinct) (hp : 2 ≤ S.partialRounds) (ht : 0 < t) {L L' : Layouter F}
    {s s' : Sponge F (AMode F t) t} {v : PaddedWord F} {c : ℕ} (hc : c ≤ t) (hf : Filled s.mode c)
    (hv : c % t = 0 → ∀ x, v ≠ .padding x) {q : ℕ × ℕ} (h : Ends cols σ L q.1 q.2)
    (hr : s.absorb S (config S cols σ) L v = .ok (s', L')) :
    Ends cols σ L' ((block S)^[c / t] q).1 ((block S)^[c / t] q).2 ∧
      Filled s'.mode (if c = t then 1 else c + 1) := by
  unfold Sponge.absorb at hr
  rw [hf.find] at hr
  by_cases hct : c < t
  · rw [dif_pos hct] at hr
    simp only [Except.ok.injEq, Prod.mk.injEq] at hr
    obtain ⟨rfl, rfl⟩ := hr
    rw [Nat.div_eq_of_lt hct, if_neg (by omega)]
    refine ⟨h, fun k => ?_, fun k hk x hx => ?_⟩
    · by_cases hk : k = ⟨c, hct⟩
      · subst hk; simp
      · simp only [Function.update_of_ne hk, hf.some]
        have : k.val ≠ c := fun h => hk (Fin.ext h)
        omega
    · by_cases hk' : k = ⟨c, hct⟩
      · subst hk'
        simp only [Function.update_self, Option.some.injEq] at hx
        simp only at hk
        exact hv (by rw [hk]; simp) x hx
      · simp only [Function.update_of_ne hk'] at hx
        exact hf.first k hk x hx
  · obtain rfl : c = t := by omega
    rw [dif_neg hct] at hr
    obtain ⟨inp, hinp⟩ := full_of_find (m := s.mode) (by rw [hf.find, dif_neg hct])
    simp only [bind, Except.bind, pure, Except.pure, initWith, if_neg (Nat.ne_of_gt ht)] at hr
    rw [hinp] at hr
    cases hs : poseidonSponge S (config S cols σ) L s.state (some fun k => some (inp k)) with
    | error p => rw [hs] at hr; cases hr
    | ok r =>
      obtain ⟨w', out, L₁⟩ := r
      rw [hs] at hr
      simp only [Except.ok.injEq, Prod.mk.injEq] at hr
      obtain ⟨rfl, rfl⟩ := hr
      have hin : ∀ k : Fin c, k.val = 0 → ∀ v, inp k ≠ .padding v := by
        intro k hk v hv
        exact hf.first k hk v (by rw [hinp]; simp [hv])
      obtain ⟨h1, -, -, -⟩ := sponge_ends hd hp hin h hs
      rw [Nat.div_self ht, if_pos rfl]
      refine ⟨h1, fun k => ?_, fun k hk x hx => ?_⟩
      · simp only
        split_ifs with h0 <;> simp <;> omega
      · simp only [if_pos hk, Option.some.injEq] at hx
        exact hv (by simp) x hx

theorem absorbAll_ends (hd : cols.Distinct) (hp : 2 ≤ S.partialRounds) (ht : 0 < t) :
    ∀ (vs : List (PaddedWord F)) (L L' : Layouter F) (s s' : Sponge F (AMode F t) t) (c : ℕ) (q : ℕ × ℕ),
    c ≤ t → Filled s.mode c →
    (∀ j x, (c + j) % t = 0 → vs[j]? ≠ some (.padding x)) → Ends cols σ L q.1 q.2 →
    s.absorbAll S (config S cols σ) L vs = .ok (s', L') →
    Ends cols σ L' ((block S)^[(c + vs.length - 1) / t] q).1 ((block S)^[(c + vs.length - 1) / t] q).2 ∧
      ∃ c', c' ≤ t ∧ Filled s'.mode c' ∧ (c' % t = (c + vs.length) % t) ∧ (0 < c + vs.length → 0 < c')
  | [], L, L', s, s', c, q, hc, hf, hv, h, hr => by
    simp only [Sponge.absorbAll, Except.ok.injEq, Prod.mk.injEq] at hr
    obtain ⟨rfl, rfl⟩ := hr
    have : (c + ([] : List (PaddedWord F)).length - 1) / t = 0 := by
      apply Nat.div_eq_of_lt
      simp only [List.length_nil]; omega
    rw [this]
    exact ⟨h, c, hc, hf, by simp, by simp⟩
  | v :: vs, L, L', s, s', c, q, hc, hf, hv, h, hr => by
    simp only [Sponge.absorbAll, bind, Except.bind] at hr
    cases ha : s.absorb S (config S cols σ) L v with
    | error p => rw [ha] at hr; cases hr
    | ok r =>
      obtain ⟨s₁, L₁⟩ := r
      rw [ha] at hr
      simp only at hr
      obtain ⟨h1, f1⟩ := absorb_ends hd hp ht hc hf (by
        intro h0 x hx
        exact hv 0 x (by simpa using h0) (by simp [hx])) h ha
      by_cases hct : c = t
      · rw [if_pos hct] at f1
        rw [hct, Nat.div_self ht] at h1
        obtain ⟨h2, c', hc', hf', hm, hpos⟩ := absorbAll_ends hd hp ht vs L₁ L' s₁ s' 1 _ (by omega) f1 (by
          intro j x hj
          refine fun hx => hv (j + 1) x ?_ (by simpa using hx)
          rw [hct, Nat.add_mod_left, add_comm]; exact hj) h1 hr
        have e : (c + (v :: vs).length - 1) / t = (1 + vs.length - 1) / t + 1 := by
          rw [hct, List.length_cons, show t + (vs.length + 1) - 1 = (1 + vs.length - 1) + t by omega,
            Nat.add_div_right _ ht]
        rw [e, Function.iterate_succ_apply]
        refine ⟨h2, c', hc', hf', ?_, fun _ => hpos (by omega)⟩
        rw [hm, hct, List.length_cons, Nat.add_mod_left, add_comm]
      · rw [if_neg hct] at f1
        rw [Nat.div_eq_of_lt (by omega)] at h1
        obtain ⟨h2, c', hc', hf', hm, hpos⟩ := absorbAll_ends hd hp ht vs L₁ L' s₁ s' (c + 1) q (by omega) f1 (by
          intro j x hj
          refine fun hx => hv (j + 1) x ?_ (by simpa using hx)
          rw [show c + (j + 1) = c + 1 + j by omega]; exact hj) h1 hr
        have e : c + (v :: vs).length = c + 1 + vs.length := by rw [List.length_cons]; omega
        rw [e]
        exact ⟨h2, c', hc', hf', hm, hpos⟩

/-- **Rows of the gadget.** Hashing `n` words takes one row for the initial state and, for each block of `t`
words, three rows for the input and the rows of the permutation; the first permutation also waits for the `t + 1`
constants in `rc_b[0]`. The digest is in the last row of the first state column. -/
theorem hashCells_ends (hd : cols.Distinct) (hp : 2 ≤ S.partialRounds) (ht : 0 < t) {n : ℕ} (hn : 0 < n)
    {L L' : Layouter F} (hL : L.constCol = some (cols.rcB 0)) {m : Fin n → ACell F} {x : ACell F} {e z : ℕ}
    (h : Ends cols σ L e z) (hr : hashCells S (config S cols σ) L m = .ok (x, L')) :
    Ends cols σ L' (max (e + 4) (z + (t + 1)) + (steps S + 1) + (n - 1) / t * (3 + (steps S + 1)))
      (max (e + 4) (z + (t + 1)) + (steps S + 1) + (n - 1) / t * (3 + (steps S + 1))) ∧
    x.cell = ⟨.advice (cols.state 0),
      max (e + 4) (z + (t + 1)) + steps S + (n - 1) / t * (3 + (steps S + 1))⟩ ∧
    ∀ i, L'.colEnd (.advice (cols.state i)) =
      max (e + 4) (z + (t + 1)) + (steps S + 1) + (n - 1) / t * (3 + (steps S + 1)) := by
  have hpad : (Base.DomainKind.constantLength n).padding t n =
      .ok (List.replicate ((n + t - 1) / t * t - n) (0 : F)) := by
    simp [Base.DomainKind.padding, Base.DomainKind.padding.constPad, Nat.ne_of_gt ht]
  have hB : (n + t - 1) / t = (n - 1) / t + 1 := by
    rw [show n + t - 1 = (n - 1) + t by omega, Nat.add_div_right _ ht]
  have hle : n ≤ (n + t - 1) / t * t := by
    have := Nat.lt_div_mul_add (a := n + t - 1) ht
    omega
  have hlt : (n + t - 1) / t * t < n + t := by
    have := Nat.div_mul_le_self (n + t - 1) t
    omega
  simp only [hashCells, Hash.init, Sponge.new, bind, Except.bind, pure, Except.pure] at hr
  cases hi : initialState (config S cols σ) (Base.DomainKind.constantLength n).initialCapacity L with
  | error p => rw [hi] at hr; cases hr
  | ok r₁ =>
  obtain ⟨w, L₁⟩ := r₁
  rw [hi] at hr
  simp only [Hash.hash, hpad, bind, Except.bind, pure, Except.pure] at hr
  obtain ⟨h1, c1⟩ := initial_ends hd _ hL h hi
  obtain ⟨vs, hvs⟩ : ∃ vs : List (PaddedWord F), vs = (List.ofFn m).map PaddedWord.message ++
    (List.replicate ((n + t - 1) / t * t - n) (0 : F)).map PaddedWord.padding := ⟨_, rfl⟩
  rw [← hvs] at hr
  have hlen : vs.length = (n + t - 1) / t * t := by
    rw [hvs]; simp; omega
  cases ha : Sponge.absorbAll S (config S cols σ) L₁ (⟨fun _ => none, w⟩ : Sponge F (AMode F t) t) vs with
  | error p => rw [ha] at hr; cases hr
  | ok r₂ =>
  obtain ⟨s₂, L₂⟩ := r₂
  rw [ha] at hr
  simp only at hr
  obtain ⟨h2, c', hc', hf', hm, hpos⟩ := absorbAll_ends hd hp ht vs L₁ L₂ _ s₂ 0 (e + 1, z + (t + 1))
    (by omega) ⟨fun k => by simp, fun k _ v => by simp⟩ (by
      intro j y hj hy
      rw [zero_add] at hj
      have hj' : j < vs.length := (List.getElem?_eq_some_iff.mp hy).1
      have hnj : j < n := by
        by_contra hge
        obtain ⟨q, rfl⟩ := Nat.dvd_of_mod_eq_zero hj
        have h1 : t * q < t * ((n + t - 1) / t) := by rw [← hlen.trans (mul_comm _ _)]; exact hj'
        have h2 := Nat.lt_of_mul_lt_mul_left h1
        have h3 : t * q + t ≤ (n + t - 1) / t * t := by
          calc t * q + t = (q + 1) * t := by ring
            _ ≤ _ := Nat.mul_le_mul_right _ h2
        omega
      rw [hvs, List.getElem?_append_left (by simpa using hnj)] at hy
      simp [hnj] at hy) h1 ha
  have hc0 : c' = t := by
    have h0 := hpos (by rw [zero_add, hlen]; omega)
    rw [zero_add, hlen, Nat.mul_mod_left] at hm
    obtain ⟨q, rfl⟩ := Nat.dvd_of_mod_eq_zero hm
    have : q ≤ 1 := by
      by_contra hq
      have : t * 2 ≤ t * q := Nat.mul_le_mul_left _ (by omega)
      omega
    obtain rfl : q = 1 := by
      rcases Nat.le_one_iff_eq_zero_or_eq_one.mp this with rfl | rfl
      · simp at h0
      · rfl
    simp
  subst hc0
  obtain ⟨inp, hinp⟩ := full_of_find (m := s₂.mode) (by rw [hf'.find, dif_neg (by omega)])
  have hin : ∀ k : Fin c', k.val = 0 → ∀ v, inp k ≠ .padding v := by
    intro k hk v hv
    exact hf'.first k hk v (by rw [hinp]; simp [hv])
  simp only [Sponge.finishAbsorbing, bind, Except.bind, pure, Except.pure, hinp] at hr
  cases hs : poseidonSponge S (config S cols σ) L₂ s₂.state (some fun k => some (inp k)) with
  | error p => rw [hs] at hr; cases hr
  | ok r₃ =>
  obtain ⟨w', out, L₃⟩ := r₃
  rw [hs] at hr
  simp only at hr
  obtain ⟨h3, c3, rfl, hw⟩ := sponge_ends hd hp hin h2 hs
  obtain ⟨m', hm'⟩ := take_output ht w'
  simp only [Sponge.squeeze, hm', Except.ok.injEq, Prod.mk.injEq] at hr
  obtain ⟨rfl, rfl⟩ := hr
  have hf : (0 + vs.length - 1) / c' = (n - 1) / c' := by
    rw [zero_add, hlen, hB]
    have h4 := Nat.div_add_mod (n - 1) c'
    have h5 : ((n - 1) / c' + 1) * c' - 1 = c' - 1 + c' * ((n - 1) / c') := by
      rw [add_mul, one_mul, mul_comm]; omega
    rw [h5, Nat.add_mul_div_left _ _ ht, Nat.div_eq_of_lt (by omega), zero_add]
  rw [hf] at h3 hw
  rw [← Function.iterate_succ_apply' (block S), block_iterate] at h3
  refine ⟨h3, (hw 0).1.trans ?_, fun i => by
    rw [(hw i).2, ← Function.iterate_succ_apply' (block S), block_iterate]⟩
  rw [Cell.mk.injEq]
  refine ⟨rfl, ?_⟩
  cases hq : (n - 1) / c' with
  | zero => simp
  | succ f =>
    rw [block_iterate, max_eq_left (by dsimp only; omega)]
    dsimp only
    ring

/-! ## Cells of the copy constraints -/

/-- A cell of a column in `E` that has been assigned. -/
def Tied (E : Set Col) (ops : List (Op F)) (c : Cell) : Prop :=
  c.col ∈ E ∧ ((∃ k v, c.col = .advice k ∧ Op.advice k c.row v ∈ ops) ∨ ∃ k v, c.col = .fixed k ∧ Op.fixed k c.row v ∈ ops)

theorem Tied.mono {E : Set Col} {ops ops' : List (Op F)} {c : Cell} (h : Tied E ops c) (hs : ∀ o ∈ ops, o ∈ ops') :
    Tied E ops' c := by
  refine ⟨h.1, ?_⟩
  rcases h.2 with ⟨k, v, e, hm⟩ | ⟨k, v, e, hm⟩
  · exact Or.inl ⟨k, v, e, hs _ hm⟩
  · exact Or.inr ⟨k, v, e, hs _ hm⟩

theorem Tied.lt {E : Set Col} {ops : List (Op F)} {c : Cell} (h : Tied E ops c) {u : ℕ} (hf : Fits ops u) : c.row < u := by
  rcases h.2 with ⟨k, v, e, hm⟩ | ⟨k, v, e, hm⟩ <;> exact hf _ hm

/-- All copy constraints connect assigned cells of columns in `E`. -/
def Linked (E : Set Col) (L : Layouter F) : Prop :=
  ∀ a b, Op.copy a b ∈ L.ops → Tied E L.ops a ∧ Tied E L.ops b

/-- The cell a padded word comes from, if any, is an assigned cell of a column in `E`. -/
def WordIn (E : Set Col) (ops : List (Op F)) : PaddedWord F → Prop
  | .message a => Tied E ops a.cell
  | .padding _ => True

theorem WordIn.mono {E : Set Col} {ops ops' : List (Op F)} {p : PaddedWord F} (h : WordIn E ops p)
    (hs : ∀ o ∈ ops, o ∈ ops') : WordIn E ops' p := by
  cases p with
  | message a => exact Tied.mono h hs
  | padding v => trivial

variable {E : Set Col} (hst : ∀ i, Col.advice (cols.state i) ∈ E) (hrb : ∀ i, Col.fixed (cols.rcB i) ∈ E)
include hst hrb

theorem initial_linked (cap : F) {L L' : Layouter F} {w : Words F (t + 1)}
    (hL : L.constCol = some (cols.rcB 0)) (h : Linked E L)
    (hr : initialState (config S cols σ) cap L = .ok (w, L')) :
    Linked E L' ∧ (∀ o ∈ L.ops, o ∈ L'.ops) ∧ ∀ i, Tied E L'.ops (w i).cell := by
  unfold initialState Layouter.assignRegion at hr
  simp only [bind, Except.bind, pure, Except.pure, Layouter.reserve] at hr
  generalize L.startOf (initialStateBody (config S cols σ) cap 0).ops = s at hr
  generalize hM : Layouter.mk _ _ (L.ops ++ _) = M at hr
  have hMc : M.constCol = some (cols.rcB 0) := by rw [← hM]; exact hL
  generalize hsv : M.serveConstants (initialStateBody (config S cols σ) cap s).ops = q at hr
  cases q with
  | error p => cases hr
  | ok L₁ =>
    simp only [Except.ok.injEq, Prod.mk.injEq] at hr
    obtain ⟨rfl, rfl⟩ := hr
    obtain ⟨L₂, log, e, ho, -, -, h1, -, h3, -⟩ := Layouter.serveConstants_spec (cols.rcB 0)
      (initialStateBody (config S cols σ) cap s).ops M hMc
    rw [hsv] at e
    injection e with e
    subst e
    have hsub : ∀ o ∈ L.ops ++ (initialStateBody (config S cols σ) cap s).ops, o ∈ L₁.ops := by
      intro o hm
      rw [ho, ← hM]
      exact List.mem_append_left _ hm
    have hcell : ∀ i, Tied E L₁.ops ⟨.advice (cols.state i), s⟩ := fun i =>
      ⟨hst i, Or.inl ⟨_, _, rfl, hsub _ (List.mem_append_right _ ((mem_initial S cols σ cap s _).mpr ⟨i, Or.inl rfl⟩))⟩⟩
    refine ⟨fun a b hm => ?_, fun o hm => hsub o (List.mem_append_left _ hm), fun i => hcell i⟩
    have hm₀ := hm
    rw [ho, ← hM] at hm
    rcases List.mem_append.mp hm with hm | hm
    · rcases List.mem_append.mp hm with hm | hm
      · exact ⟨(h a b hm).1.mono fun o ho => hsub o (List.mem_append_left _ ho),
          (h a b hm).2.mono fun o ho => hsub o (List.mem_append_left _ ho)⟩
      · obtain ⟨i, h | h⟩ := (mem_initial S cols σ cap s _).mp hm <;> cases h
    · obtain ⟨c, v, row, hc, h2 | h2⟩ := h1 _ hm
      · cases h2
      · cases h2
        obtain ⟨v', -, hf⟩ := h3 _ _ hm
        obtain ⟨i, h4 | h4⟩ := (mem_initial S cols σ cap s _).mp hc
        · cases h4
        · cases h4
          exact ⟨⟨hrb 0, Or.inr ⟨_, _, rfl, by rw [ho]; exact List.mem_append_right _ hf⟩⟩, hcell i⟩

theorem sponge_linked {L L' : Layouter F} {w w' : Words F (t + 1)} {out : SMode F t}
    {inp : Fin t → PaddedWord F} (hin : ∀ k, WordIn E L.ops (inp k)) (hw : ∀ i, Tied E L.ops (w i).cell)
    (h : Linked E L)
    (hr : poseidonSponge S (config S cols σ) L w (some fun k => some (inp k)) = .ok (w', out, L')) :
    Linked E L' ∧ (∀ o ∈ L.ops, o ∈ L'.ops) ∧ ∀ i, Tied E L'.ops (w' i).cell := by
  have hno : ∀ s c v, Op.constant c v ∉ (addInputBody (config S cols σ) w inp s).ops := by
    intro s c v hm
    rcases (mem_addInput S cols σ w inp s _).mp hm with h | ⟨i, h | h⟩ |
      ⟨k, ⟨v, -, h⟩ | h | h⟩ | ⟨i, h⟩ <;> cases h
  have hreg := Layouter.assignRegion_ok L (fun s => addInputBody (config S cols σ) w inp s) hno
  have hall : allSome (fun k => some (inp k)) = some inp := by simp [allSome]
  simp only [poseidonSponge, stepInput, addInput, hall, hreg, bind, Except.bind, pure, Except.pure] at hr
  generalize L.startOf (addInputBody (config S cols σ) w inp 0).ops = s at hr
  rw [addInput_val S cols σ w inp s] at hr
  generalize hL₁ : Layouter.mk _ _ _ = L₁ at hr
  obtain ⟨s', L₂, e, -, ho, -, -⟩ := permute_ok S cols σ L₁ (fun i => ⟨⟨.advice (cols.state i), s + 2⟩,
      plus (fun i => (w i).value) (fun k => pv ACell.value (inp k)) i⟩)
  rw [e] at hr
  simp only [Except.ok.injEq, Prod.mk.injEq] at hr
  obtain ⟨rfl, -, rfl⟩ := hr
  have hsub₁ : ∀ o ∈ L.ops ++ (addInputBody (config S cols σ) w inp s).ops, o ∈ L₂.ops := by
    intro o hm
    rw [ho, ← hL₁]
    exact List.mem_append_left _ hm
  have hsub : ∀ o ∈ L.ops, o ∈ L₂.ops := fun o hm => hsub₁ o (List.mem_append_left _ hm)
  have hnew : ∀ {k r v}, Op.advice (cols.state k) r v ∈ (addInputBody (config S cols σ) w inp s).ops →
      Tied E L₂.ops ⟨.advice (cols.state k), r⟩ := fun hm =>
    ⟨hst _, Or.inl ⟨_, _, rfl, hsub₁ _ (List.mem_append_right _ hm)⟩⟩
  have hrow : ∀ j ≤ steps S, ∀ i, Tied E L₂.ops ⟨.advice (cols.state i), s' + j⟩ := fun j hj i =>
    ⟨hst i, Or.inl ⟨_, _, rfl, by
      rw [ho]
      exact List.mem_append_right _ (((permuteBody_spec S cols σ s' _).2 _).mpr (Or.inl (.state j hj i)))⟩⟩
  refine ⟨fun a b hm => ?_, hsub, fun i => hrow _ le_rfl i⟩
  rw [ho, ← hL₁] at hm
  rcases List.mem_append.mp hm with hm | hm
  · rcases List.mem_append.mp hm with hm | hm
    · exact ⟨(h a b hm).1.mono hsub, (h a b hm).2.mono hsub⟩
    · have hmem := fun o => (mem_addInput S cols σ w inp s o).mpr
      rcases (mem_addInput S cols σ w inp s _).mp hm with h | ⟨i, h | h⟩ |
        ⟨k, ⟨v, -, h⟩ | h | h⟩ | ⟨i, h⟩ <;> cases h
      · exact ⟨hnew (hmem _ (Or.inr (Or.inl ⟨i, Or.inl rfl⟩))), (hw i).mono hsub⟩
      · refine ⟨hnew (hmem _ (Or.inr (Or.inr (Or.inl ⟨k, Or.inr (Or.inl rfl)⟩)))), ?_⟩
        have := hin k
        cases hk : inp k with
        | message a => rw [hk] at this; exact Tied.mono this hsub
        | padding v =>
          exact ⟨hrb _, Or.inr ⟨_, _, rfl, hsub₁ _ (List.mem_append_right _
            (hmem _ (Or.inr (Or.inr (Or.inl ⟨k, Or.inl ⟨v, hk, rfl⟩⟩)))))⟩⟩
  · rcases ((permuteBody_spec S cols σ _ _).2 _).mp hm with hb | ⟨i, hb⟩
    · generalize hq : Op.copy a b = o at hb
      cases hb <;> cases hq
    · cases hb
      exact ⟨by simpa using hrow 0 (Nat.zero_le _) i,
        hnew (k := i) (r := s + 2) ((mem_addInput S cols σ w inp s _).mpr (Or.inr (Or.inr (Or.inr ⟨i, rfl⟩))))⟩

theorem absorb_linked {L L' : Layouter F} {s s' : Sponge F (AMode F t) t} {v : PaddedWord F}
    (hm : ∀ k p, s.mode k = some p → WordIn E L.ops p) (hw : ∀ i, Tied E L.ops (s.state i).cell) (hv : WordIn E L.ops v)
    (h : Linked E L) (hr : s.absorb S (config S cols σ) L v = .ok (s', L')) :
    Linked E L' ∧ (∀ o ∈ L.ops, o ∈ L'.ops) ∧ (∀ k p, s'.mode k = some p → WordIn E L'.ops p) ∧
      ∀ i, Tied E L'.ops (s'.state i).cell := by
  unfold Sponge.absorb at hr
  cases hf : (List.finRange t).find? (fun k => (s.mode k).isNone) with
  | some k =>
    rw [hf] at hr
    simp only [Except.ok.injEq, Prod.mk.injEq] at hr
    obtain ⟨rfl, rfl⟩ := hr
    refine ⟨h, fun o ho => ho, fun j p hp => ?_, hw⟩
    by_cases hj : j = k
    · subst hj
      simp only [Function.update_self, Option.some.injEq] at hp
      exact hp ▸ hv
    · simp only [Function.update_of_ne hj] at hp
      exact hm j p hp
  | none =>
    obtain ⟨inp, hinp⟩ := full_of_find hf
    rw [hf, hinp] at hr
    simp only [bind, Except.bind, pure, Except.pure] at hr
    cases hs : poseidonSponge S (config S cols σ) L s.state (some fun k => some (inp k)) with
    | error p => rw [hs] at hr; cases hr
    | ok r =>
      obtain ⟨w', out, L₁⟩ := r
      rw [hs] at hr
      simp only [initWith] at hr
      split_ifs at hr with ht
      · simp only [Except.ok.injEq, Prod.mk.injEq] at hr
        obtain ⟨rfl, rfl⟩ := hr
        obtain ⟨h1, hsub, h2⟩ := sponge_linked hst hrb (fun k => hm k _ (by rw [hinp])) hw h hs
        refine ⟨h1, hsub, fun k p hp => ?_, h2⟩
        simp only at hp
        split_ifs at hp
        simp only [Option.some.injEq] at hp
        exact hp ▸ hv.mono hsub

theorem absorbAll_linked : ∀ (vs : List (PaddedWord F)) (L L' : Layouter F) (s s' : Sponge F (AMode F t) t),
    (∀ k p, s.mode k = some p → WordIn E L.ops p) → (∀ i, Tied E L.ops (s.state i).cell) → (∀ v ∈ vs, WordIn E L.ops v) →
    Linked E L → s.absorbAll S (config S cols σ) L vs = .ok (s', L') →
    Linked E L' ∧ (∀ o ∈ L.ops, o ∈ L'.ops) ∧ (∀ k p, s'.mode k = some p → WordIn E L'.ops p) ∧
      ∀ i, Tied E L'.ops (s'.state i).cell
  | [], L, L', s, s', hm, hw, hv, h, hr => by
    simp only [Sponge.absorbAll, Except.ok.injEq, Prod.mk.injEq] at hr
    obtain ⟨rfl, rfl⟩ := hr
    exact ⟨h, fun o ho => ho, hm, hw⟩
  | v :: vs, L, L', s, s', hm, hw, hv, h, hr => by
    simp only [Sponge.absorbAll, bind, Except.bind] at hr
    cases ha : s.absorb S (config S cols σ) L v with
    | error p => rw [ha] at hr; cases hr
    | ok r =>
      obtain ⟨s₁, L₁⟩ := r
      rw [ha] at hr
      obtain ⟨h1, hs, h2, h3⟩ := absorb_linked hst hrb hm hw (hv v (by simp)) h ha
      obtain ⟨h4, hs', h5⟩ := absorbAll_linked vs L₁ L' s₁ s' h2 h3 (fun v hm => (hv v (by simp [hm])).mono hs) h1 hr
      exact ⟨h4, fun o ho => hs' o (hs o ho), h5⟩

/-- Hashing assigned cells of columns in `E` only connects assigned cells of columns in `E`. -/
theorem hashCells_linked (ht : 0 < t) {n : ℕ} {L L' : Layouter F} (hL : L.constCol = some (cols.rcB 0))
    {m : Fin n → ACell F} (hm : ∀ i, Tied E L.ops (m i).cell) {x : ACell F} (h : Linked E L)
    (hr : hashCells S (config S cols σ) L m = .ok (x, L')) : Linked E L' ∧ Tied E L'.ops x.cell := by
  simp only [hashCells, Hash.init, Sponge.new, bind, Except.bind, pure, Except.pure] at hr
  cases hi : initialState (config S cols σ) (Base.DomainKind.constantLength n).initialCapacity L with
  | error p => rw [hi] at hr; cases hr
  | ok r₁ =>
  obtain ⟨w, L₁⟩ := r₁
  rw [hi] at hr
  simp only [Hash.hash, bind, Except.bind, pure, Except.pure] at hr
  obtain ⟨h1, s1, w1⟩ := initial_linked hst hrb _ hL h hi
  cases hpad : ((Base.DomainKind.constantLength n).padding t n : Except Panic (List F)) with
  | error p => rw [hpad] at hr; cases hr
  | ok pad =>
  rw [hpad] at hr
  simp only at hr
  generalize hvs : (List.ofFn m).map PaddedWord.message ++ pad.map PaddedWord.padding = vs at hr
  cases ha : Sponge.absorbAll S (config S cols σ) L₁ (⟨fun _ => none, w⟩ : Sponge F (AMode F t) t) vs with
  | error p => rw [ha] at hr; cases hr
  | ok r₂ =>
  obtain ⟨s₂, L₂⟩ := r₂
  rw [ha] at hr
  simp only at hr
  obtain ⟨h2, -, m2, w2⟩ := absorbAll_linked hst hrb vs L₁ L₂ _ s₂ (by intro k p hp; cases hp) w1 (by
    intro v hv
    rw [← hvs] at hv
    rcases List.mem_append.mp hv with hv | hv
    · obtain ⟨a, ha, rfl⟩ := List.mem_map.mp hv
      obtain ⟨i, rfl⟩ := List.mem_ofFn.mp ha
      exact (hm i).mono s1
    · obtain ⟨a, ha, rfl⟩ := List.mem_map.mp hv
      trivial) h1 ha
  cases hf : (List.finRange t).find? (fun k => (s₂.mode k).isNone) with
  | some k =>
    have hk : s₂.mode k = none := by simpa using List.find?_some hf
    rw [finish_gap S cols σ L₂ s₂ k hk] at hr
    cases hr
  | none =>
  obtain ⟨inp, hinp⟩ := full_of_find hf
  simp only [Sponge.finishAbsorbing, bind, Except.bind, pure, Except.pure, hinp] at hr
  cases hs : poseidonSponge S (config S cols σ) L₂ s₂.state (some fun k => some (inp k)) with
  | error p => rw [hs] at hr; cases hr
  | ok r₃ =>
  obtain ⟨w', out, L₃⟩ := r₃
  obtain ⟨h3, -, w3⟩ := sponge_linked hst hrb (fun k => m2 k _ (by rw [hinp])) w2 h2 hs
  have hout : out = getOutput w' := by
    simp only [poseidonSponge, bind, Except.bind, pure, Except.pure] at hs
    split at hs
    · cases hs
    · split at hs
      · cases hs
      · simp only [Except.ok.injEq, Prod.mk.injEq] at hs
        obtain ⟨rfl, rfl, -⟩ := hs
        rfl
  subst hout
  rw [hs] at hr
  obtain ⟨m', hm'⟩ := take_output ht w'
  simp only [Sponge.squeeze, hm', Except.ok.injEq, Prod.mk.injEq] at hr
  obtain ⟨rfl, rfl⟩ := hr
  exact ⟨h3, w3 0⟩

omit hst hrb
/-! ## The cell check and poison -/

variable (S cols σ)

theorem padGate_queries : ∀ e ∈ (padGate (config S cols σ)).polys, ∀ q ∈ e.queries,
    (∃ i, q = (.advice (cols.state i), -1)) ∨ (∃ k : Fin t, q = (.advice (cols.state k.castSucc), 0)) ∨
      ∃ i, q = (.advice (cols.state i), 1) := by
  intro e he q hq
  obtain ⟨e', he', rfl⟩ := List.mem_map.mp he
  rcases List.mem_append.mp he' with h | h
  · obtain ⟨k, -, rfl⟩ := List.mem_map.mp h
    simp only [Expr.queries_mul, Expr.queries_selector, Expr.queries_sub, Expr.queries_add, Expr.queries_advice,
      List.nil_append, List.mem_append, List.mem_singleton] at hq
    rcases hq with (rfl | rfl) | rfl
    · exact Or.inl ⟨_, rfl⟩
    · exact Or.inr (Or.inl ⟨_, rfl⟩)
    · exact Or.inr (Or.inr ⟨_, rfl⟩)
  · rw [List.mem_singleton.mp h] at hq
    simp only [Expr.queries_mul, Expr.queries_selector, Expr.queries_sub, Expr.queries_advice,
      List.nil_append, List.mem_append, List.mem_singleton] at hq
    rcases hq with rfl | rfl
    · exact Or.inl ⟨_, rfl⟩
    · exact Or.inr (Or.inr ⟨_, rfl⟩)

/-- Where the pad-and-add gate is enabled and its cells are written, they are assigned. -/
theorem pad_assigned {ops : List (Op F)} {s : ℕ} (h : PadOps cols ops s) :
    ∀ e ∈ (padGate (config S cols σ)).polys, ∀ q ∈ e.queries,
      ∃ r' : ℕ, ((s + 1 : ℕ) : ℤ) + q.2 = r' ∧ ∃ op ∈ ops, op.Assigns q.1 r' := by
  obtain ⟨u, v, h0, h1, h2, h3⟩ := h
  intro e he q hq
  rcases padGate_queries S cols σ e he q hq with ⟨i, rfl⟩ | ⟨k, rfl⟩ | ⟨i, rfl⟩
  · exact ⟨s, by push_cast; ring, _, h0 i, rfl, rfl⟩
  · exact ⟨s + 1, by simp, _, h1 k, rfl, rfl⟩
  · refine ⟨s + 2, by push_cast; ring, ?_⟩
    induction i using Fin.lastCases with
    | last => exact ⟨_, h3, rfl, rfl⟩
    | cast k => exact ⟨_, h2 k, rfl, rfl⟩

theorem addInput_padOps (w : Words F (t + 1)) (inp : Fin t → PaddedWord F) (s : ℕ) :
    PadOps cols (addInputBody (config S cols σ) w inp s).ops s := by
  have mem := mem_addInput S cols σ w inp s
  have hp : ∀ i : Fin (t + 1), plus (fun i => (w i).value) (fun k => pv ACell.value (inp k)) i =
      if h : i.val < t then (w i).value + pv ACell.value (inp ⟨i.val, h⟩) else (w i).value := fun i => rfl
  refine ⟨fun i => (w i).value, fun k => pv ACell.value (inp k), fun i => (mem _).mpr ?_,
    fun k => (mem _).mpr ?_, fun k => (mem _).mpr ?_, (mem _).mpr ?_⟩
  · exact Or.inr (Or.inl ⟨i, Or.inl rfl⟩)
  · exact Or.inr (Or.inr (Or.inl ⟨k, Or.inr (Or.inl rfl)⟩))
  · exact Or.inr (Or.inr (Or.inr ⟨k.castSucc, by rw [hp, dif_pos (by simp)]; rfl⟩))
  · exact Or.inr (Or.inr (Or.inr ⟨Fin.last t, by rw [hp, dif_neg (by simp)]⟩))

/-- The region of `add_input` assigns every cell queried by the gates it enables. -/
theorem addInput_assigned (w : Words F (t + 1)) (inp : Fin t → PaddedWord F) (s : ℕ) :
    ∀ p ∈ gates (config S cols σ), p.CellsAssigned (addInputBody (config S cols σ) w inp s).ops := by
  intro p hp k r hk ⟨e₀, he₀, hs⟩ e he q hq
  obtain ⟨rfl, rfl⟩ : k = σ + 3 ∧ r = s + 1 := by
    rcases (mem_addInput S cols σ w inp s _).mp hk with h | ⟨i, h | h⟩ |
      ⟨k, ⟨v, -, h⟩ | h | h⟩ | ⟨i, h⟩ <;> cases h
    exact ⟨rfl, rfl⟩
  obtain ⟨j, rfl⟩ := exists_index S cols σ hp
  have hj := (gate_sel S cols σ j e₀ he₀).2 _ hs
  obtain rfl : j = 3 := by
    apply Fin.ext
    change j.val = 3
    omega
  exact pad_assigned S cols σ (addInput_padOps S cols σ w inp s) e he q hq

/-- If every enabled selector comes from a region of the chip, no gate is poisoned. -/
theorem justified_unpoisoned {g : Grid F} {ops : List (Op F)} (hu : g.usable ≤ g.n)
    (hfit : Fits ops g.usable) (hj : Justified S cols σ ops)
    (hsel : ∀ k < 4, ∀ r < g.n, g.selector (σ + k) r = finalSelector ops (σ + k) r) :
    ∀ p ∈ gates (config S cols σ), p.Unpoisoned g := by
  intro p hp
  obtain ⟨j, rfl⟩ := exists_index S cols σ hp
  by_cases hne : ((gates (config S cols σ)).get j).polys = []
  · intro e he; rw [hne] at he; cases he
  obtain ⟨e₀, he₀⟩ := List.exists_mem_of_ne_nil _ hne
  refine Gate.unpoisoned_of_assigned (s := σ + j) hu (fun e he => (gate_sel S cols σ j e he).1) fun r hr hs => ?_
  rw [hsel j j.2 r hr, finalSelector_iff] at hs
  refine ⟨by simpa [Op.bottom] using hfit _ hs, fun e he q hq => ?_⟩
  have fin : (∃ r' : ℕ, (r : ℤ) + q.2 = r' ∧ ∃ op ∈ ops, op.Assigns q.1 r') →
      ∃ r' : ℕ, (r : ℤ) + q.2 = r' ∧ r' < g.usable := by
    rintro ⟨r', h1, op, h2, h3⟩
    have := hfit op h2
    have := Assigns_bottom h3
    exact ⟨r', h1, by omega⟩
  apply fin
  rcases hj j j.2 r hs with ⟨x, s, h1, h2⟩ | ⟨hj3, s, rfl, hpad⟩
  · obtain ⟨w, hw⟩ : ∃ w : Words F (t + 1), w = fun i => ⟨⟨.advice 0, 0⟩, x i⟩ := ⟨_, rfl⟩
    have hx : (fun i => (w i).value) = x := by rw [hw]
    have mem := (permuteBody_spec S cols σ s w).2
    rw [hx] at mem
    obtain ⟨e', he'⟩ := (gate_sel S cols σ j e₀ he₀).1
    obtain ⟨r', h3, op, h4, h5⟩ := permute_assigned S cols σ w s _ hp _ r ((mem _).mpr (Or.inl h2))
      ⟨e₀, he₀, by rw [he']; simp⟩ e he q hq
    refine ⟨r', h3, op, ?_, h5⟩
    rcases (mem op).mp h4 with h | ⟨i, rfl⟩
    · exact h1 op h
    · exact h5.elim
  · obtain rfl : j = 3 := Fin.ext hj3
    exact pad_assigned S cols σ hpad e he q hq

end

/-! ## Configuration -/

/-- The columns of the test circuits. -/
def testCols (t : ℕ) : Cols t := ⟨fun i => i, t + 1, fun i => i, fun i => t + 1 + i⟩

theorem testCols_distinct (t : ℕ) : (testCols t).Distinct where
  state := by intro i j h; exact Fin.ext h
  sbox i := by have := i.2; simp only [testCols]; omega
  rcA := by intro i j h; exact Fin.ext h
  rcB := by intro i j h; simp only [testCols] at h; exact Fin.ext (by omega)
  rcAB i j := by have := i.2; simp only [testCols]; omega

theorem adviceColumns_eq (n : ℕ) (cs : CS F) : adviceColumns n cs =
    ((fun i : Fin n => cs.numAdvice + i.val, { cs with numAdvice := cs.numAdvice + n }) : (Fin n → ℕ) × CS F) := by
  induction n with
  | zero => exact @Prod.ext (Fin 0 → ℕ) (CS F) _ _ (funext fun i => i.elim0) rfl
  | succ n ih =>
    simp only [adviceColumns, bind, StateT.bind, ih, CS.adviceColumn, pure, StateT.pure]
    refine @Prod.ext (Fin (n + 1) → ℕ) (CS F) _ _ ?_ (by simp [add_assoc])
    funext i
    induction i using Fin.lastCases with
    | last => simp
    | cast i => simp

theorem fixedColumns_eq (n : ℕ) (cs : CS F) : fixedColumns n cs =
    ((fun i : Fin n => cs.numFixed + i.val, { cs with numFixed := cs.numFixed + n }) : (Fin n → ℕ) × CS F) := by
  induction n with
  | zero => exact @Prod.ext (Fin 0 → ℕ) (CS F) _ _ (funext fun i => i.elim0) rfl
  | succ n ih =>
    simp only [fixedColumns, bind, StateT.bind, ih, CS.fixedColumn, pure, StateT.pure]
    refine @Prod.ext (Fin (n + 1) → ℕ) (CS F) _ _ ?_ (by simp [add_assoc])
    funext i
    induction i using Fin.lastCases with
    | last => simp
    | cast i => simp

theorem columns_eq (t : ℕ) : (columns t (emptyCS : CS F)) =
    ((testCols t, ⟨t + 2, 2 * (t + 1), 0, [], [], []⟩) : Cols t × CS F) := by
  simp only [columns, bind, StateT.bind, adviceColumns_eq, fixedColumns_eq, CS.adviceColumn, pure,
    StateT.pure, emptyCS, testCols, zero_add]
  refine @Prod.ext (Cols t) (CS F) _ _ rfl ?_
  simp only [CS.mk.injEq, true_and, and_true]
  omega

/-! ## The regions of the circuits -/

section
variable (S : Params F t) (σ : ℕ)

/-- After "load message". -/
theorem load_ok {n : ℕ} (hn : 0 < n) (h : n ≤ t + 1) (m : Fin n → F) (kc : Option ℕ) :
    ∃ L : Layouter F, (freshLayouter kc).assignRegion (fun s => loadBody (config S (testCols t) σ) m s) =
        .ok (fun i => ⟨⟨.advice i, 0⟩, m i⟩, L) ∧ L.constCol = kc ∧
      (∀ o, o ∈ L.ops ↔ ∃ i : Fin n, o = .advice i 0 (m i)) ∧
      (∀ k, L.colEnd k = if ∃ i : Fin n, k = .advice i then 1 else 0) ∧
      Ends (testCols t) σ L 1 0 := by
  obtain ⟨body, hb⟩ : ∃ body : ℕ → W F (Fin n → ACell F), body = fun s =>
    forFin n fun i => assignAdvice s ((config S (testCols t) σ).state (i.castLE h)) 0 (m i) := ⟨_, rfl⟩
  have hlb : (fun s => loadBody (config S (testCols t) σ) m s) = fun s => Except.ok (body s) := by
    funext s; rw [hb]; simp only [loadBody, dif_pos h]
  have mem : ∀ s o, o ∈ (body s).ops ↔ ∃ i : Fin n, o = .advice i s (m i) := by
    intro s o
    rw [hb]
    simp only [mem_forFin, assignAdvice, List.mem_singleton, add_zero]
    rfl
  have hreg := Layouter.assignRegion_ok (freshLayouter kc : Layouter F) body (by
    intro s c v hm
    obtain ⟨i, hi⟩ := (mem s _).mp hm
    cases hi)
  have hs : (freshLayouter kc : Layouter F).startOf (body 0).ops = 0 := by
    apply Layouter.startOf_eq
    · intro k _; exact le_rfl
    · exact ⟨_, Layouter.mem_shapeCols.mpr ⟨_, (mem 0 _).mpr ⟨⟨0, hn⟩, rfl⟩, rfl⟩, rfl⟩
  have hrows : Layouter.shapeRows (body 0).ops = 1 := by
    apply Layouter.shapeRows_eq
    · intro o ho; obtain ⟨i, rfl⟩ := (mem 0 o).mp ho; simp [Op.bottom]
    · exact ⟨_, (mem 0 _).mpr ⟨⟨0, hn⟩, rfl⟩, rfl⟩
  have hsc : ∀ k, k ∈ Layouter.shapeCols (body 0).ops ↔ ∃ i : Fin n, k = .advice i := by
    intro k
    rw [Layouter.mem_shapeCols]
    constructor
    · rintro ⟨o, ho, hk⟩
      obtain ⟨i, rfl⟩ := (mem 0 o).mp ho
      injection hk with hk
      exact ⟨i, hk.symm⟩
    · rintro ⟨i, rfl⟩
      exact ⟨_, (mem 0 _).mpr ⟨i, rfl⟩, rfl⟩
  rw [hs, hrows] at hreg
  rw [hlb, hreg]
  have hval : (body 0).val = fun i => ⟨⟨.advice i, 0⟩, m i⟩ := by rw [hb]; rfl
  refine ⟨_, by rw [hval], rfl, fun o => ?_, fun k => ?_, ?_⟩
  · simp only [freshLayouter, List.nil_append]
    exact mem 0 o
  · dsimp only
    simp only [hsc]
    rfl
  · have hk : ∀ k, (if k ∈ Layouter.shapeCols (body 0).ops then 0 + 1
        else (freshLayouter kc : Layouter F).colEnd k) ≤ 1 := by
      intro k; split_ifs
      · exact le_rfl
      · exact Nat.zero_le _
    refine ⟨fun i => hk _, ⟨0, ?_⟩, hk _, fun i => hk _, fun i _ => hk _, ?_, fun j _ => hk _, fun o ho => ?_⟩
    · exact if_pos ((hsc _).mpr ⟨⟨0, hn⟩, rfl⟩)
    · dsimp only
      rw [if_neg (by rw [hsc]; simp)]
      rfl
    · simp only [freshLayouter, List.nil_append] at ho
      obtain ⟨i, rfl⟩ := (mem 0 o).mp ho
      simp [Op.bottom]

theorem prepare_eq (c : Config F t) (x : Fin (t + 1) → F) (s : ℕ) :
    loadBody c x s = .ok (prepareBody c x s) := by
  simp only [loadBody, dif_pos le_rfl, prepareBody, Fin.castLE_rfl, id]

/-- One permutation of words in the first row. -/
theorem permute_row {L L' : Layouter F} {w w' : Words F (t + 1)}
    (hc : ∀ k, L.colEnd k = if ∃ i : Fin (t + 1), k = .advice i then 1 else 0) (hb : ∀ o ∈ L.ops, o.bottom ≤ 1)
    (hw : ∀ i, (w i).cell = ⟨.advice i, 0⟩)
    (hr : permute S (config S (testCols t) σ) L w = .ok (w', L')) :
    (∀ i : Fin (t + 1), (w' i).cell = ⟨.advice i, 1 + steps S⟩ ∧ L'.colEnd (.advice i) = 1 + (steps S + 1)) ∧
      (∀ o ∈ L'.ops, o.bottom ≤ 1 + (steps S + 1)) ∧
      ∀ a b, Op.copy a b ∈ L'.ops → Op.copy a b ∈ L.ops ∨
        ∃ i : Fin (t + 1), a = ⟨.advice i, 1⟩ ∧ b = ⟨.advice i, 0⟩ := by
  obtain ⟨s, L₁, e₁, hs, ho, -, hcol⟩ := permute_ok S (testCols t) σ L w
  rw [hr] at e₁
  simp only [Except.ok.injEq, Prod.mk.injEq] at e₁
  obtain ⟨rfl, rfl⟩ := e₁
  have mem := permute_shapeCols S (testCols t) σ w 0
  have hse : s = 1 := by
    rw [hs]
    apply Layouter.startOf_eq
    · intro k _; rw [hc]; split_ifs <;> omega
    · exact ⟨.advice 0, (mem _).mpr (Or.inl ⟨0, rfl⟩), by rw [hc, if_pos ⟨0, rfl⟩]⟩
  rw [← hs, permute_shapeRows, hse] at hcol
  rw [hse] at ho
  refine ⟨fun i => ⟨by rw [hse]; rfl, ?_⟩, fun o hm => ?_, fun a b hm => ?_⟩
  · rw [hcol]; exact if_pos ((mem _).mpr (Or.inl ⟨i, rfl⟩))
  · rw [ho] at hm
    rcases List.mem_append.mp hm with hm | hm
    · exact (hb o hm).trans (by omega)
    · rcases ((permuteBody_spec S _ σ _ w).2 o).mp hm with h | ⟨i, rfl⟩
      · cases h <;> simp only [Op.bottom] <;> omega
      · simp [Op.bottom]
  · rw [ho] at hm
    rcases List.mem_append.mp hm with hm | hm
    · exact Or.inl hm
    · rcases ((permuteBody_spec S _ σ _ w).2 _).mp hm with h | ⟨i, h⟩
      · generalize hq : Op.copy a b = o at h
        cases h <;> cases hq
      · cases h
        exact Or.inr ⟨i, rfl, hw i⟩

/-- Region "constrain final state". -/
theorem constrain_ok (L : Layouter F) (final : Words F (t + 1)) (y : Fin (t + 1) → F) {E : ℕ}
    (hE : ∀ i : Fin (t + 1), L.colEnd (.advice i) = E) : ∃ (u : Fin (t + 1) → Unit) (L' : Layouter F)
      (post : List (Op F)),
    L.assignRegion (fun s => .ok (constrainBody (config S (testCols t) σ) final y s)) = .ok (u, L') ∧
      L'.ops = L.ops ++ post ∧ ∀ o, o ∈ post ↔ ∃ i : Fin (t + 1),
        o = .advice i E (y i) ∨ o = .copy (final i).cell ⟨.advice i, E⟩ := by
  have mem : ∀ s o, o ∈ (constrainBody (config S (testCols t) σ) final y s).ops ↔ ∃ i : Fin (t + 1),
      o = .advice i s (y i) ∨ o = .copy (final i).cell ⟨.advice i, s⟩ := by
    intro s o
    simp only [constrainBody, mem_forFin]
    refine exists_congr fun i => ?_
    simp [assignAdvice, constrainEqual, config, testCols]
  have hreg := Layouter.assignRegion_ok L (fun s => constrainBody (config S (testCols t) σ) final y s) (by
    intro s c v hm
    obtain ⟨i, h | h⟩ := (mem s _).mp hm <;> cases h)
  have hs : L.startOf (constrainBody (config S (testCols t) σ) final y 0).ops = E := by
    apply Layouter.startOf_eq
    · intro k hk
      obtain ⟨o, ho, hk⟩ := Layouter.mem_shapeCols.mp hk
      obtain ⟨i, rfl | rfl⟩ := (mem 0 o).mp ho
      · cases hk; exact (hE i).le
      · cases hk
    · exact ⟨.advice 0, Layouter.mem_shapeCols.mpr ⟨_, (mem 0 _).mpr ⟨0, Or.inl rfl⟩, rfl⟩, hE 0⟩
  rw [hs] at hreg
  exact ⟨_, _, _, hreg, rfl, mem E⟩

/-- The last region. -/
theorem output_ok (L : Layouter F) (out : ACell F) (y : F) : ∃ L' : Layouter F,
    L.assignRegion (fun s => .ok (outputBody (config S (testCols t) σ) out y s)) = .ok ((), L') ∧
      L'.ops = L.ops ++ [.advice 0 (L.colEnd (.advice 0)) y,
        .copy out.cell ⟨.advice 0, L.colEnd (.advice 0)⟩] := by
  have hreg := Layouter.assignRegion_ok L (fun s => outputBody (config S (testCols t) σ) out y s) (by
    intro s c v hm
    simp [outputBody, assignAdvice, constrainEqual] at hm)
  have hs : L.startOf (outputBody (config S (testCols t) σ) out y 0).ops = L.colEnd (.advice 0) := by
    have : (outputBody (config S (testCols t) σ) out y 0).ops =
        [.advice 0 0 y, .copy out.cell ⟨.advice 0, 0⟩] := rfl
    rw [this]
    simp only [Layouter.startOf, Layouter.shapeCols, List.filterMap_cons, List.filterMap_nil, Op.rcol, List.map_cons,
      List.map_nil, List.foldl_cons, List.foldl_nil, Nat.zero_max]
  rw [hs] at hreg
  refine ⟨_, hreg, ?_⟩
  simp [outputBody, assignAdvice, constrainEqual, config, testCols]

end

end Circuit.TestCircuit
