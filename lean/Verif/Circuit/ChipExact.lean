import Verif.Circuit.ChipCells
import Verif.Circuit.ChipBn

/-!
# The permutation chips: which advice cells they bind

For both chips: the cells of a region that the gates bind to the first row of the region, and the cells
that are written but not bound.
-/

set_option linter.unusedVariables false
set_option linter.unusedSectionVars false

open Halo2

namespace Circuit

variable {F : Type} [Field F]

theorem placeAt_getElem {T : ℕ} : ∀ (ws : List (Words F T)) (p : ℕ → ℕ) (i : ℕ) (h : i < (placeAt ws p).length),
    (placeAt ws p)[i] = (ws[i]'(by rwa [placeAt_length] at h), p i)
  | [], p, i, h => by simp [placeAt] at h
  | w :: ws, p, 0, h => rfl
  | w :: ws, p, i + 1, h => by
    simp only [placeAt, List.getElem_cons_succ]
    exact placeAt_getElem ws _ i _

/-- What the gates of a chip say about its advice cells. -/
structure Chip.Lawful.Exact {ch : Chip F 3} {π : (Fin 3 → F) → Fin 3 → F} (lw : ch.Lawful π) where
  /-- the cells `(c, r)` of the region at row `p` that are bound, for the advice columns from `a` on -/
  Bound : ℕ → ℕ → ℕ → ℕ → Prop
  /-- the other cells that are written -/
  Free : ℕ → ℕ → ℕ → ℕ → Prop
  /-- the value of a bound cell, from the state in the first row of the region -/
  value : ℕ → ℕ → ℕ → ℕ → (Fin 3 → F) → F
  gates_iff : ∀ a f σ ws p (g : Grid F), RowsApart lw.height ws.length p → Fits (lw.ops a f σ ws p) g.n →
    (∀ c, f ≤ c → c < f + lw.nF → ∀ r < g.n, g.fixed c r = finalFixed (lw.ops a f σ ws p) c r) →
    (∀ c, σ ≤ c → c < σ + lw.nS → ∀ r < g.n, g.selector c r = finalSelector (lw.ops a f σ ws p) c r) →
    ((∀ q ∈ lw.gates a f σ, q.Holds g) ↔ ∀ i < ws.length, ∀ c r, Bound a (p i) c r →
      g.advice c r = value a (p i) c r fun k : Fin 3 => g.advice (a + k) (p i))
  start : ∀ a p (k : Fin 3), Bound a p (a + k) p
  own : ∀ a p c r, Bound a p c r ∨ Free a p c r → a ≤ c ∧ p ≤ r ∧ r < p + lw.height
  disjoint : ∀ a p c r, Bound a p c r → ¬ Free a p c r
  written : ∀ a f σ ws p c r, (∃ v, Op.advice c r v ∈ lw.ops a f σ ws p) ↔
    ∃ i < ws.length, Bound a (p i) c r ∨ Free a (p i) c r
  copies : ∀ a f σ ws p x y, Op.copy x y ∈ lw.ops a f σ ws p ↔
    ∃ i, ∃ h : i < ws.length, ∃ k : Fin 3, x = ⟨.advice (a + k), p i⟩ ∧ y = (ws[i] k).cell
  outs_bound : ∀ a f σ ws p i (h : i < (lw.outs a f σ ws p).length) k, ∃ c r,
    ((lw.outs a f σ ws p)[i] k).cell = ⟨.advice c, r⟩ ∧ Bound a (p i) c r

/-- Of the cells of all regions, a bound one is not one of the free ones. -/
theorem Chip.Lawful.Exact.apart {ch : Chip F 3} {π : (Fin 3 → F) → Fin 3 → F} {lw : ch.Lawful π} (ex : lw.Exact)
    {a n : ℕ} {p : ℕ → ℕ} (hp : RowsApart lw.height n p) {i j : ℕ} (hi : i < n) (hj : j < n) {c r : ℕ}
    (h : ex.Bound a (p i) c r) : ¬ ex.Free a (p j) c r := by
  intro h'
  have h1 := ex.own a (p i) c r (Or.inl h)
  have h2 := ex.own a (p j) c r (Or.inr h')
  rcases Nat.lt_trichotomy i j with hij | rfl | hij
  · have := hp i j hij hj
    omega
  · exact ex.disjoint a (p i) c r h h'
  · have := hp j i hij hi
    omega

namespace Septidon

theorem BlockOp.other {a f f' : ℕ} {m : Base.Mds F 3} {rc : ℕ → Fin 3 → F} {x : Fin 3 → F} {p c r : ℕ} {v : F}
    (h : BlockOp a f m rc x p (.advice c r v)) (x' : Fin 3 → F) :
    ∃ v', BlockOp a f' m rc x' p (.advice c r v') := by
  generalize ho : Op.advice c r v = op at h
  cases h with
  | fullIn o h i => cases ho; exact ⟨_, .fullIn o h i⟩
  | mid i => cases ho; exact ⟨_, .mid i⟩
  | midH => cases ho; exact ⟨_, .midH⟩
  | lin o h i => cases ho; exact ⟨_, .lin o h i⟩
  | partIn o h j hj => cases ho; exact ⟨_, .partIn o h j hj⟩
  | fin i => cases ho; exact ⟨_, .fin i⟩
  | finH => cases ho; exact ⟨_, .finH⟩
  | _ => cases ho

/-- The exact cells of the Septidon chip: all cells of a block are bound, except the helper cells. -/
def exact (m : Base.Mds F 3) (rc : ℕ → Fin 3 → F) (hc : Compact rc) : (lawful m rc hc).Exact where
  Bound a p c r := (∃ v, BlockOp a 0 m rc 0 p (.advice c r v)) ∧ ¬ Helper a p c r
  Free := Helper
  value a p c r x := advAt a m rc x p c r
  gates_iff a f σ ws p g hap hfit hfix _ := by
    refine (placed_cells a f m rc hc (placeAt ws p) (placeAt_apart 8 ws p hap) g hfit hfix).trans ?_
    have e : ∀ s, fullIn g (config a f) s = fun k : Fin 3 => g.advice (a + k) s := fun s =>
      funext fun k => fullIn_apply a f g s k
    constructor
    · rintro h i hi c r ⟨⟨v, hb⟩, hh⟩
      obtain ⟨q, hq, eq⟩ := placeAt_get ws p i hi
      obtain ⟨v', hb'⟩ := hb.other (f' := f) (fullIn g (config a f) q.2)
      rw [← eq] at hb' hh ⊢
      rw [h q hq c r v' hb' hh, hb'.advice_value, e]
    · intro h q hq c r v hb hh
      obtain ⟨-, i, hi, eq⟩ := placeAt_mem ws p q hq
      have := h i hi c r ⟨eq ▸ hb.other 0, eq ▸ hh⟩
      rw [this, hb.advice_value, e, eq]
  start a p k := ⟨⟨_, .fullIn 0 (by omega) k⟩, by rintro ⟨h, -⟩; omega⟩
  own a p c r h := by
    show a ≤ c ∧ p ≤ r ∧ r < p + 8
    rcases h with ⟨⟨v, h⟩, -⟩ | ⟨rfl, rfl | rfl⟩
    · rcases h.shape with ⟨_, _, _, e, h1, h2, h3, h4⟩ | ⟨_, _, _, e, _⟩
      · cases e; omega
      · cases e
    · omega
    · omega
  disjoint a p c r h := h.2
  written a f σ ws p c r := by
    have hm : ∀ v, Op.advice c r v ∈ (lawful m rc hc).ops a f σ ws p ↔ _ := fun v =>
      mem_placedOps a f m rc hc (placeAt ws p) _
    constructor
    · rintro ⟨v, hv⟩
      obtain ⟨q, hq, hb | ⟨k, e⟩⟩ := (hm v).mp hv
      · obtain ⟨-, i, hi, eq⟩ := placeAt_mem ws p q hq
        refine ⟨i, hi, ?_⟩
        rw [← eq]
        by_cases hh : Helper a q.2 c r
        · exact Or.inr hh
        · exact Or.inl ⟨hb.other 0, hh⟩
      · cases e
    · rintro ⟨i, hi, h⟩
      obtain ⟨q, hq, eq⟩ := placeAt_get ws p i hi
      rw [← eq] at h
      obtain ⟨v, hb⟩ : ∃ v, BlockOp a f m rc (fun k => (q.1 k).value) q.2 (.advice c r v) := by
        rcases h with ⟨⟨v, h⟩, -⟩ | ⟨rfl, rfl | rfl⟩
        · exact h.other _
        · exact ⟨_, .midH⟩
        · exact ⟨_, .finH⟩
      exact ⟨v, (hm v).mpr ⟨q, hq, Or.inl hb⟩⟩
  copies a f σ ws p x y := by
    refine (mem_placedOps a f m rc hc (placeAt ws p) _).trans ⟨?_, ?_⟩
    · rintro ⟨q, hq, hb | ⟨k, e⟩⟩
      · cases hb
      · obtain ⟨i, hi, rfl⟩ := List.mem_iff_getElem.mp hq
        rw [placeAt_getElem] at e
        cases e
        exact ⟨i, by rwa [placeAt_length] at hi, k, rfl, rfl⟩
    · rintro ⟨i, hi, k, rfl, rfl⟩
      refine ⟨(placeAt ws p)[i]'(by rwa [placeAt_length]), List.getElem_mem _, Or.inr ⟨k, ?_⟩⟩
      rw [placeAt_getElem]
  outs_bound a f σ ws p i h k := by
    have hi : i < (placeAt ws p).length := by simpa [lawful] using h
    have e : ((lawful m rc hc).outs a f σ ws p)[i] = outWords a m rc (placeAt ws p)[i].1 (placeAt ws p)[i].2 :=
      List.getElem_map _
    rw [e, placeAt_getElem]
    refine ⟨a + 12, p i + 5 + k, rfl, ⟨_, .fin k⟩, ?_⟩
    rintro ⟨-, h | h⟩ <;> omega

/-- The mark column of the Septidon chip shows where the blocks end. -/
theorem mark_op (m : Base.Mds F 3) (rc : ℕ → Fin 3 → F) (hc : Compact rc) (a f σ : ℕ) (ws : List (Words F 3))
    (p : ℕ → ℕ) (r : ℕ) : Op.fixed f r 1 ∈ (lawful m rc hc).ops a f σ ws p ↔ ∃ i < ws.length, r = p i + 7 := by
  refine (mem_placedOps a f m rc hc (placeAt ws p) _).trans ⟨?_, ?_⟩
  · rintro ⟨q, hq, hb | ⟨k, e⟩⟩
    · obtain ⟨-, i, hi, eq⟩ := placeAt_mem ws p q hq
      exact ⟨i, hi, by rw [hb.mark_row, eq]⟩
    · cases e
  · rintro ⟨i, hi, rfl⟩
    obtain ⟨q, hq, eq⟩ := placeAt_get ws p i hi
    exact ⟨q, hq, Or.inl (eq ▸ .mark)⟩

end Septidon

namespace Pow5

theorem BlockOp.other {t : ℕ} {S : Params F t} {cols : Cols t} {σ : ℕ} {x : Fin (t + 1) → F} {p c r : ℕ} {v : F}
    (h : BlockOp S cols σ x p (.advice c r v)) (x' : Fin (t + 1) → F) :
    ∃ v', BlockOp S cols σ x' p (.advice c r v') := by
  generalize ho : Op.advice c r v = op at h
  cases h with
  | state o h i => cases ho; exact ⟨_, .state o h i⟩
  | sbox o h hk => cases ho; exact ⟨_, .sbox o h hk⟩
  | _ => cases ho

/-- Value written to the advice cell `(c, r)` of the region at `p`. -/
def advAt (S : Params F 2) (a : ℕ) (x : Fin 3 → F) (p c r : ℕ) : F :=
  if c - a < 3 then xAt S x (r - p) (Fin.ofNat 3 (c - a))
  else (xAt S x (r - p) 0 + S.rc (roundAt S (r - p)) 0) ^ 5

theorem BlockOp.advice_value {S : Params F 2} {a f σ : ℕ} {x : Fin 3 → F} {p c r : ℕ} {v : F}
    (h : BlockOp S (chipCols a f) σ x p (.advice c r v)) : v = advAt S a x p c r := by
  generalize ho : Op.advice c r v = op at h
  cases h with
  | state o h i =>
    cases ho
    simp only [advAt, chipCols_state]
    rw [if_pos (by omega), show a + (i : ℕ) - a = i by omega, show p + o - p = o by omega, Septidon.fin_ofNat]
  | sbox o h hk =>
    cases ho
    have e : (chipCols a f).partialSbox = a + 3 := rfl
    simp only [advAt, e]
    rw [if_neg (by omega), show p + o - p = o by omega]
  | _ => cases ho

theorem BlockOp.anyFixed {S : Params F 2} {a f f' σ σ' : ℕ} {x : Fin 3 → F} {p c r : ℕ} {v : F}
    (h : BlockOp S (chipCols a f) σ x p (.advice c r v)) : BlockOp S (chipCols a f') σ' x p (.advice c r v) := by
  generalize ho : Op.advice c r v = op at h
  cases h with
  | state o h i => cases ho; exact .state o h i
  | sbox o h hk => cases ho; exact .sbox o h hk
  | _ => cases ho

/-- The exact cells of the Pow5 chip: all of them are bound. -/
def exact (S : Params F 2) (hinv : Matrix.of S.mReg * Matrix.of S.mInv = 1) : (lawful S hinv).Exact where
  Bound a p c r := ∃ v, BlockOp S (chipCols a 0) 0 0 p (.advice c r v)
  Free _ _ _ _ := False
  value a p c r x := advAt S a x p c r
  gates_iff a f σ ws p g hap hfit hfix hsel := by
    have hd := chipCols_distinct a f
    have hcons := placed_cons S (chipCols a f) σ hd (placeAt ws p) (placeAt_apart _ ws p hap)
    have mk : ∀ q ∈ placeAt ws p, ∀ op, BlockOp S (chipCols a f) σ (fun i => (q.1 i).value) q.2 op →
        op ∈ placedOps S (chipCols a f) σ (placeAt ws p) := fun q hq op h =>
      (mem_placedOps S (chipCols a f) σ _ op).mpr ⟨q, hq, Or.inl h⟩
    have hn : ∀ q ∈ placeAt ws p, q.2 + steps S < g.n := by
      intro q hq
      have := hfit _ (mk q hq _ (.state (steps S) le_rfl 0))
      simp only [Op.bottom] at this
      omega
    refine (placed_cells S (chipCols a f) σ g hinv (placeAt ws p) hn ?_ ?_).trans ?_
    · intro q hq c r v hb
      have hc : (chipCols a f).IsFixed c := by
        generalize ho : Op.fixed c r v = op at hb
        cases hb with
        | rcA o h i => cases ho; exact Or.inl ⟨i, rfl⟩
        | rcB o h hk i => cases ho; exact Or.inr ⟨i, rfl⟩
        | _ => cases ho
      have hm := mk q hq _ hb
      have := hfit _ hm
      simp only [Op.bottom] at this
      rw [hfix c (chipCols_isFixed (a := a) hc).1 (chipCols_isFixed (a := a) hc).2 r (by omega)]
      exact hcons.finalFixed (Set.mem_univ _) hm
    · intro k hk r hr
      rw [hsel (σ + k) (by omega) (by show σ + k < σ + 4; omega) r hr, finalSelector_iff]
      refine (mem_placedOps S (chipCols a f) σ _ _).trans ⟨?_, ?_⟩
      · rintro ⟨q, hq, hb | ⟨i, e⟩⟩
        · refine ⟨q, hq, ?_⟩
          generalize ho : Op.selector (σ + k) r = op at hb
          cases hb with
          | sel o h => injection ho with e1 e2; exact ⟨o, h, e2, e1.symm⟩
          | _ => cases ho
        · cases e
      · rintro ⟨q, hq, o, h, rfl, e⟩
        exact ⟨q, hq, Or.inl (e ▸ .sel o h)⟩
    have e : ∀ s, cur g (config S (chipCols a f) σ) s = fun k : Fin 3 => g.advice (a + k) s := fun s =>
      funext fun k => congrArg (fun c => g.advice c s) (chipCols_state a f k)
    constructor
    · rintro h i hi c r ⟨v, hb⟩
      obtain ⟨q, hq, eq⟩ := placeAt_get ws p i hi
      obtain ⟨v', hb'⟩ := hb.other (cur g (config S (chipCols a f) σ) q.2)
      have hb' := hb'.anyFixed (f' := f) (σ' := σ)
      rw [← eq] at hb' ⊢
      rw [h q hq c r v' hb', hb'.advice_value, e]
    · intro h q hq c r v hb
      obtain ⟨-, i, hi, eq⟩ := placeAt_mem ws p q hq
      have := h i hi c r (eq ▸ (hb.anyFixed (f' := 0) (σ' := 0)).other 0)
      rw [this, hb.advice_value, e, eq]
  start a p k := ⟨_, by
    have := BlockOp.state (S := S) (cols := chipCols a 0) (σ := 0) (x := 0) (s := p) 0 (by omega) k
    rw [chipCols_state] at this
    exact this⟩
  own a p c r h := by
    show a ≤ c ∧ p ≤ r ∧ r < p + (steps S + 1)
    rcases h with ⟨v, h⟩ | h
    · generalize ho : Op.advice c r v = op at h
      cases h with
      | state o h i => cases ho; rw [chipCols_state]; omega
      | sbox o h hk =>
        cases ho
        have e : (chipCols a 0).partialSbox = a + 3 := rfl
        omega
      | _ => cases ho
    · exact h.elim
  disjoint a p c r h := id
  written a f σ ws p c r := by
    have hm : ∀ v, Op.advice c r v ∈ (lawful S hinv).ops a f σ ws p ↔ _ := fun v =>
      mem_placedOps S (chipCols a f) σ (placeAt ws p) _
    constructor
    · rintro ⟨v, hv⟩
      obtain ⟨q, hq, hb | ⟨k, e⟩⟩ := (hm v).mp hv
      · obtain ⟨-, i, hi, eq⟩ := placeAt_mem ws p q hq
        exact ⟨i, hi, Or.inl (eq ▸ (hb.anyFixed (f' := 0) (σ' := 0)).other 0)⟩
      · cases e
    · rintro ⟨i, hi, ⟨v, h⟩ | h⟩
      · obtain ⟨q, hq, eq⟩ := placeAt_get ws p i hi
        rw [← eq] at h
        obtain ⟨v', hb⟩ := h.other fun i => (q.1 i).value
        exact ⟨v', (hm v').mpr ⟨q, hq, Or.inl hb.anyFixed⟩⟩
      · exact h.elim
  copies a f σ ws p x y := by
    refine (mem_placedOps S (chipCols a f) σ (placeAt ws p) _).trans ⟨?_, ?_⟩
    · rintro ⟨q, hq, hb | ⟨k, e⟩⟩
      · cases hb
      · obtain ⟨i, hi, rfl⟩ := List.mem_iff_getElem.mp hq
        rw [placeAt_getElem, chipCols_state] at e
        cases e
        exact ⟨i, by rwa [placeAt_length] at hi, k, rfl, rfl⟩
    · rintro ⟨i, hi, k, rfl, rfl⟩
      refine ⟨(placeAt ws p)[i]'(by rwa [placeAt_length]), List.getElem_mem _, Or.inr ⟨k, ?_⟩⟩
      rw [placeAt_getElem, chipCols_state]
  outs_bound a f σ ws p i h k := by
    have hi : i < (placeAt ws p).length := by simpa [lawful, placedOut] using h
    have e : ((lawful S hinv).outs a f σ ws p)[i] =
        stWords S (chipCols a f) (fun j => ((placeAt ws p)[i].1 j).value) (placeAt ws p)[i].2 (steps S) :=
      List.getElem_map _
    rw [e, placeAt_getElem]
    exact ⟨(chipCols a f).state k, p i + steps S, rfl, ⟨_, (BlockOp.state (S := S) (cols := chipCols a f) (σ := 0)
      (x := 0) (s := p i) (steps S) le_rfl k).anyFixed⟩⟩

end Pow5

/-! ## Over `bn256::Fr` -/

open Base.Bn256

/-- Both chips over `bn256::Fr`. The free cells of Septidon lie in the transition column, seven and three
rows above the mark of the block; Pow5 has none. -/
theorem bnChip_exact (k : ChipKind) : ∃ ch, bnChip k = .ok ch ∧ ∃ (lw : ch.Lawful specPerm) (ex : lw.Exact),
    ∀ a f σ (ws : List (Words Fr 3)) p c r, (∃ i < ws.length, ex.Free a (p i) c r) ↔
      k = .septidon ∧ c = a + 12 ∧
        (Op.fixed f (r + 7) 1 ∈ lw.ops a f σ ws p ∨ Op.fixed f (r + 3) 1 ∈ lw.ops a f σ ws p) := by
  obtain ⟨rc, h1, h2, h3, h4⟩ := Septidon.bn_table
  have hmi : Base.mdsInv mds = .ok (fun i j => ((Matrix.of mds)⁻¹) i j) := by
    rw [Base.mdsInv_eq, if_neg det_ne_zero]
  have hinv : Matrix.of mds * Matrix.of (fun i j => ((Matrix.of mds)⁻¹) i j) = 1 :=
    Matrix.mul_nonsing_inv _ (by rw [isUnit_iff_ne_zero]; exact det_ne_zero)
  have p2 : Pow5.perm (Props.pow5Bn rc fun i j => ((Matrix.of mds)⁻¹) i j) = specPerm := by
    rw [← h4]
    unfold Pow5.perm Septidon.perm
    have : (Props.pow5Bn rc fun i j => ((Matrix.of mds)⁻¹) i j).rc = Septidon.table rc := rfl
    rw [this]
    have e2 : (Props.pow5Bn rc fun i j => ((Matrix.of mds)⁻¹) i j).mReg = mds := rfl
    have e3 : (Props.pow5Bn rc fun i j => ((Matrix.of mds)⁻¹) i j).fullRounds / 2 = 4 := by
      show (8 : ℕ) / 2 = 4
      norm_num
    have e4 : (Props.pow5Bn rc fun i j => ((Matrix.of mds)⁻¹) i j).partialRounds = 57 := rfl
    rw [e2, e3, e4]
  have pow : ∀ (b : Bool) (tbl : List (Base.State Fr 3)) π,
      Pow5.perm (Props.pow5Bn tbl fun i j => ((Matrix.of mds)⁻¹) i j) = π →
      ∃ (lw : (Pow5.chip (Props.pow5Bn tbl fun i j => ((Matrix.of mds)⁻¹) i j)).Lawful π) (ex : lw.Exact),
        ∀ a f σ (ws : List (Words Fr 3)) p c r, (∃ i < ws.length, ex.Free a (p i) c r) ↔
        ChipKind.pow5 b = .septidon ∧ c = a + 12 ∧
        (Op.fixed f (r + 7) 1 ∈ lw.ops a f σ ws p ∨ Op.fixed f (r + 3) 1 ∈ lw.ops a f σ ws p) := by
    rintro b tbl _ rfl
    refine ⟨_, Pow5.exact (Props.pow5Bn tbl fun i j => ((Matrix.of mds)⁻¹) i j) hinv, ?_⟩
    intro a f σ ws p c r
    constructor
    · rintro ⟨i, -, h⟩; exact h.elim
    · rintro ⟨h, -⟩; cases h
  cases k with
  | septidon =>
    refine ⟨Septidon.chip mds (Septidon.table rc), ?_, ?_⟩
    · simp only [bnChip, h1]
      rfl
    · rw [← h4]
      refine ⟨_, Septidon.exact mds (Septidon.table rc) h3, ?_⟩
      intro a f σ ws p c r
      rw [Septidon.mark_op, Septidon.mark_op]
      constructor
      · rintro ⟨i, hi, rfl, rfl | rfl⟩
        · exact ⟨rfl, rfl, Or.inl ⟨i, hi, rfl⟩⟩
        · exact ⟨rfl, rfl, Or.inr ⟨i, hi, by omega⟩⟩
      · rintro ⟨-, rfl, ⟨i, hi, e⟩ | ⟨i, hi, e⟩⟩
        · exact ⟨i, hi, rfl, Or.inl (by omega)⟩
        · exact ⟨i, hi, rfl, Or.inr (by omega)⟩
  | pow5 c =>
    cases c with
    | false =>
      refine ⟨Pow5.chip (Props.pow5Bn roundConstants fun i j => ((Matrix.of mds)⁻¹) i j), ?_, pow _ _ _ rfl⟩
      simp only [bnChip, hmi]
    | true =>
      refine ⟨Pow5.chip (Props.pow5Bn rc fun i j => ((Matrix.of mds)⁻¹) i j), ?_, pow _ _ _ p2⟩
      simp only [bnChip, h1, hmi]

end Circuit
