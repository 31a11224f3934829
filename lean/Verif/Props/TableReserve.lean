import Verif.Circuit.TableReserve
import Verif.Props.TablePlan

/-!
# The caller's columns outside the table: C71

The six table columns and the enabling column belong to the caller, who may use them again below the table.
This file says what the circuit demands from the rows outside the table, and where the floor planner puts
a region that the caller synthesises after `load`.
-/

set_option linter.unusedVariables false

namespace Props
open Halo2 Circuit Circuit.Table Base.Bn256

private theorem rot_prev (g : Grid Fr) {r : ℕ} (h : r < g.n) :
    g.rot r (-1) = if r = 0 then g.n - 1 else r - 1 := by
  split_ifs with h0
  · rw [h0, Run.rot_zero_prev g (by omega)]
  · exact g.rot_of_lt (r - 1) (by omega) (by omega)

private theorem flag_eq {x : Run Fr} (hx : x.Legal) {i : ℕ} (hi : i ≤ x.STEP) :
    (specFlag x.legacy i : Fr) = ((i * Base.domainSpec x.legacy : ℕ) : Fr) :=
  specFlag_small (by have := hx.STEP_lt; omega)

/-- **C71.** Take an accepted grid and change the caller's six columns outside the table (the custom row `s` and
the enabled rows up to `s + calcs`) in any way. The changed grid is accepted exactly if on every usable row
outside the enabled ones the product of the head mark and the control of the row before is one of the
numbers `0, ..., STEP` (times the domain factor): the range check of the controls is not switched off by
`q_enable`, and nothing else looks at these rows. -/
theorem C71_outside {x : Run Fr} {k : ChipKind} {short : Bool} {L' : Layouter Fr} {post : List (Op Fr)}
    {g : Grid Fr} (h : x.Accepted k short L' post g) {s : ℕ} (hen : x.EnabledAfter g s) (h0 : 0 < x.calcs)
    {g' : Grid Fr} (hn : g'.n = g.n) (hu : g'.usable = g.usable) (hfx : g'.fixed = g.fixed)
    (hsl : g'.selector = g.selector) (hcol : ∀ c, (∀ i, c ≠ x.hashTable i) → g'.advice c = g.advice c)
    (hrow : ∀ i r, s ≤ r → r ≤ s + x.calcs → x.col g' i r = x.col g i r) :
    x.Satisfies L' g' ↔ ∀ r < g.usable, (r ≤ s ∨ s + x.calcs < r) → ∃ i ≤ x.STEP,
      x.col g' 5 r * x.col g' 3 (if r = 0 then g.n - 1 else r - 1) = ((i * Base.domainSpec x.legacy : ℕ) : Fr) := by
  obtain ⟨⟨lw, -⟩, hna⟩ := h.bn.lawful
  have hun := h.laid.usable_le
  rw [Run.satisfies_outside lw h.legal hna h.loaded h.laid h.sat hen h0 hn hu hfx hsl hcol hrow]
  refine forall_congr' fun r => forall_congr' fun hr => ?_
  rw [rot_prev g (by omega)]
  constructor
  · rintro h1 h2
    obtain ⟨i, hi, e⟩ := h1 (by omega)
    exact ⟨i, hi, by rw [← flag_eq h.legal hi]; exact e⟩
  · rintro h1 h2
    obtain ⟨i, hi, e⟩ := h1 (by omega)
    exact ⟨i, hi, by rw [flag_eq h.legal hi]; exact e⟩

/-- The grid `g` with another value in one advice cell. -/
private def poke (g : Grid Fr) (c r : ℕ) (v : Fr) : Grid Fr :=
  { g with advice := fun c' r' => if c' = c ∧ r' = r then v else g.advice c' r' }

-- below the table, any cell of the digest column is free ...
example (k : ChipKind) (short legacy : Bool) (mode : LoadMode) :
    ∃ (x : Run Fr) (L' : Layouter Fr) (g : Grid Fr), x.Accepted k short L' [] g ∧ x.EnabledAfter g 0 ∧ x.calcs = 6 ∧
      ∀ v, x.Satisfies L' (poke g (x.hashTable 0) 9 v) := by
  obtain ⟨x, L', g, h, -, hen, h6, -⟩ := demo_blocks k short legacy mode
  refine ⟨x, L', g, h, hen, h6, fun v => ?_⟩
  have h0 : 0 < x.calcs := by omega
  have hr := (C71_outside h hen h0 (g' := g) rfl rfl rfl rfl (fun _ _ => rfl) fun _ _ _ _ => rfl).mp h.sat
  have hne : ∀ j : Fin 6, j ≠ 0 → x.hashTable j ≠ x.hashTable 0 := fun j hj e => hj (h.legal.inj e)
  refine (C71_outside (g' := poke g (x.hashTable 0) 9 v) h hen h0 rfl rfl rfl rfl (fun c hc => funext fun r => ?_)
    fun i r h1 h2 => ?_).mpr
    fun r hu ho => ?_
  · simp only [poke]
    rw [if_neg fun e => hc 0 e.1]
  · simp only [Run.col, poke]
    rw [if_neg fun e => by omega]
  · obtain ⟨i, hi, e⟩ := hr r hu ho
    refine ⟨i, hi, ?_⟩
    simp only [Run.col, poke] at e ⊢
    rw [if_neg fun e => hne 5 (by decide) e.1, if_neg fun e => hne 3 (by decide) e.1]
    exact e

-- ... but a head mark after a control that is out of range is rejected, though `q_enable` is off on both rows
example (k : ChipKind) (short legacy : Bool) (mode : LoadMode) :
    ∃ (x : Run Fr) (L' : Layouter Fr) (g : Grid Fr), x.Accepted k short L' [] g ∧ x.EnabledAfter g 0 ∧ x.calcs = 6 ∧
      ¬ x.Satisfies L' (poke (poke g (x.hashTable 3) 9 ((63 * Base.domainSpec x.legacy : ℕ) : Fr))
        (x.hashTable 5) 10 1) := by
  obtain ⟨ch, L', g, -, hL, h, hh, hen, -⟩ := demo k short legacy mode 0
  obtain ⟨x, hxe⟩ : ∃ x, x = demoRun ch short legacy mode 0 := ⟨_, rfl⟩
  have h6 : x.calcs = 6 := by rw [hxe]; rfl
  have hST : x.STEP = 62 := by rw [hxe]; rfl
  have hfr : x.Fresh := by rw [hxe]; exact ⟨fun _ _ => rfl, fun _ _ => rfl, fun _ _ => rfl⟩
  rw [← hxe] at hL h hh hen
  refine ⟨x, L', g, h, hen, h6, fun hs => ?_⟩
  have h0 : 0 < x.calcs := by omega
  have hu : 64 ≤ g.usable := by
    have := ((C64_rows h.bn h.legal hL hfr g.usable).mp h.laid.fits).1
    omega
  have hne : ∀ j : Fin 6, j ≠ 5 → x.hashTable j ≠ x.hashTable 5 := fun j hj e => hj (h.legal.inj e)
  obtain ⟨i, hi, e⟩ := (C71_outside (g' := poke (poke g (x.hashTable 3) 9 ((63 * Base.domainSpec x.legacy : ℕ) : Fr))
    (x.hashTable 5) 10 1) h hen h0 rfl rfl rfl rfl (fun c hc => funext fun r => by
    simp only [poke]
    rw [if_neg fun e => hc 5 e.1, if_neg fun e => hc 3 e.1]) fun i r h1 h2 => by
    simp only [Run.col, poke]
    rw [if_neg fun e => by omega, if_neg fun e => by omega]).mp hs 10 (by omega) (by omega)
  simp only [Run.col, poke, if_true, and_self, if_neg (show (10 : ℕ) ≠ 0 by norm_num), Nat.add_one_sub_one] at e
  rw [if_neg (fun e => by omega), one_mul] at e
  have hd : 0 < Base.domainSpec x.legacy ∧ Base.domainSpec x.legacy ≤ 2 ^ 64 := by
    unfold Base.domainSpec; split <;> omega
  have hb : ∀ m ≤ 63, m * Base.domainSpec x.legacy < Base.Bn256.r := by
    intro m hm
    have : m * Base.domainSpec x.legacy ≤ 63 * 2 ^ 64 := Nat.mul_le_mul hm hd.2
    exact lt_of_le_of_lt this (by norm_num [Base.Bn256.r])
  have e' := (ZMod.natCast_eq_natCast_iff' _ _ Base.Bn256.r).mp e
  rw [Nat.mod_eq_of_lt (hb 63 le_rfl), Nat.mod_eq_of_lt (hb i (by omega))] at e'
  have := Nat.eq_of_mul_eq_mul_right hd.1 e'
  omega

private theorem laid_enabled {x : Run Fr} {k : ChipKind} {short : Bool} (hbn : x.IsBn k short) (hx : x.Legal)
    {L' : Layouter Fr} (hL : x.load = .ok L') :
    ∃ s, (∀ post g, x.Laid L' post g → x.EnabledAfter g s) ∧
      (∀ i, L'.colEnd (.advice (x.hashTable i)) = match x.mode with
        | .serial => s + 1 + x.calcs
        | .parallel _ => s + 1) ∧
      L'.colEnd (.fixed x.qEnable) = match x.mode with
        | .serial => if 0 < x.calcs then s + 1 + x.calcs else x.before.colEnd (.fixed x.qEnable)
        | .parallel _ => x.before.colEnd (.fixed x.qEnable) := by
  obtain ⟨⟨lw, -⟩, hna⟩ := hbn.lawful
  obtain ⟨s, s', ho, h1, h2⟩ := Run.load_ends lw hx hna hL
  exact ⟨s, fun post g hl => hl.enabled lw hx ho, h1, h2⟩

/-- After a serial `load`, every region of the caller that uses one of the table columns or `q_enable` is put
below the table: it writes to no row up to the last enabled one. -/
theorem C71_serial_apart {x : Run Fr} {k : ChipKind} {short : Bool} (hbn : x.IsBn k short) (hx : x.Legal)
    (hm : x.mode = .serial) (h0 : 0 < x.calcs) {L' : Layouter Fr} (hL : x.load = .ok L') :
    ∃ s, (∀ post g, x.Laid L' post g → x.EnabledAfter g s) ∧
      ∀ (α : Type) (body : ℕ → W Fr α), RegionOK body → (∀ st c v, Op.constant c v ∉ (body st).ops) →
        (∃ c ∈ Layouter.shapeCols (body 0).ops, c = .fixed x.qEnable ∨ ∃ i, c = .advice (x.hashTable i)) →
        ∃ v L'', L'.assignRegion (fun st => .ok (body st)) = .ok (v, L'') ∧
          ∀ o ∈ L''.ops.drop L'.ops.length, ∀ c r, o.Hits c r → s + x.calcs < r := by
  obtain ⟨s, hs, h1, h2⟩ := laid_enabled hbn hx hL
  rw [hm] at h1 h2
  simp only [h0, if_true] at h1 h2
  refine ⟨s, hs, fun α body hb hc ⟨c, hcs, hcol⟩ => ⟨_, _, L'.assignRegion_ok body hc, fun o ho c' r hh => ?_⟩⟩
  rw [List.drop_left] at ho
  have e : L'.colEnd c = s + 1 + x.calcs := by
    rcases hcol with rfl | ⟨i, rfl⟩
    · exact h2
    · exact h1 i
  have := (hb.within _ o ho c' r hh).1
  have := L'.le_startOf hcs
  omega

/-- After a parallel `load`, the floor planner still takes all rows of the table columns except the first custom
row to be free, and `q_enable` to be as free as before: a region that assigns one cell of a table column
gets the first enabled row and overwrites that cell of the table. -/
theorem C71_parallel_over {x : Run Fr} {k : ChipKind} {short : Bool} (hbn : x.IsBn k short) (hx : x.Legal)
    {threads : ℕ} (hm : x.mode = .parallel threads) {L' : Layouter Fr} (hL : x.load = .ok L') :
    ∃ s, (∀ post g, x.Laid L' post g → x.EnabledAfter g s) ∧
      (∀ i v, ∃ L'', L'.assignRegion (fun st => .ok (assignAdvice st (x.hashTable i) 0 v)) =
          .ok (⟨⟨.advice (x.hashTable i), s + 1⟩, v⟩, L'') ∧
        L''.ops = L'.ops ++ [.advice (x.hashTable i) (s + 1) v] ∧
        finalAdvice L''.ops (x.hashTable i) (s + 1) = v) ∧
      ∀ v, ∃ L'', L'.assignRegion (fun st => .ok (assignFixed st x.qEnable 0 v)) =
          .ok (⟨⟨.fixed x.qEnable, x.before.colEnd (.fixed x.qEnable)⟩, v⟩, L'') := by
  obtain ⟨s, hs, h1, h2⟩ := laid_enabled hbn hx hL
  rw [hm] at h1 h2
  simp only at h1 h2
  refine ⟨s, hs, fun i v => ?_, fun v => ?_⟩
  · have hst : L'.startOf (assignAdvice 0 (x.hashTable i) 0 v).ops = s + 1 := by
      simp [Layouter.startOf, Layouter.shapeCols, assignAdvice, Op.rcol, h1]
    have e := L'.assignRegion_ok (fun st => assignAdvice st (x.hashTable i) 0 v)
      (by intro s c v; simp [assignAdvice])
    rw [hst] at e
    exact ⟨_, e, rfl, by simp [assignAdvice, finalAdvice, List.foldl_append]⟩
  · have hst : L'.startOf (assignFixed 0 x.qEnable 0 v).ops = x.before.colEnd (.fixed x.qEnable) := by
      simp [Layouter.startOf, Layouter.shapeCols, assignFixed, Op.rcol, h2]
    have e := L'.assignRegion_ok (fun st => assignFixed st x.qEnable 0 v)
      (by intro s c v; simp [assignFixed])
    rw [hst] at e
    exact ⟨_, e⟩

/-- The consequence in parallel mode: if the caller, after `load`, assigns a single cell of the head mark column in
a region of its own, with any value but 1, then no grid that carries that column is accepted, whatever
the other columns hold. -/
theorem C71_parallel_rejected {x : Run Fr} {k : ChipKind} {short : Bool} (hbn : x.IsBn k short) (hx : x.Legal)
    {threads : ℕ} (hm : x.mode = .parallel threads) (h0 : 0 < x.calcs) {L' L'' : Layouter Fr} {cell : ACell Fr}
    (hL : x.load = .ok L') {v : Fr} (hv : v ≠ 1)
    (hL'' : L'.assignRegion (fun st => .ok (assignAdvice st (x.hashTable 5) 0 v)) = .ok (cell, L''))
    {g : Grid Fr} (hl : x.Laid L' (L''.ops.drop L'.ops.length) g)
    (hg : ∀ r < g.usable, x.col g 5 r = finalAdvice L''.ops (x.hashTable 5) r) : ¬ x.Satisfies L' g := by
  intro hs
  obtain ⟨s, hen, h1, -⟩ := C71_parallel_over hbn hx hm hL
  have hen := hen _ _ hl
  obtain ⟨M, e1, -, e3⟩ := h1 5 v
  rw [hL''] at e1
  cases e1
  obtain ⟨s₂, hen₂, -, h2, -⟩ := C28_controls (k := k) (short := short) ⟨hbn, hx, Or.inl hL, hl, hs⟩
  obtain rfl : s₂ = s := hen₂.unique hl.usable_le hen h0
  have h3 := (h2 h0).1
  rw [hg (s₂ + 1) (by have := hen.1; omega), e3] at h3
  exact hv h3

/-- The grid with one cell set back to what `ops` left there. -/
private def restore (g : Grid Fr) (ops : List (Op Fr)) (col row : ℕ) : Grid Fr :=
  { g with advice := fun c r => if c = col ∧ r = row then finalAdvice ops c r else g.advice c r }

/-- The consequence in serial mode: the same region, for any of the six columns and any value, does not harm the
witness. -/
theorem C71_serial_accepted {x : Run Fr} {k : ChipKind} {short : Bool} (hbn : x.IsBn k short) (hx : x.Legal)
    (hm : x.mode = .serial) (h0 : 0 < x.calcs) (hw : Complete x.STEP x.step x.table x.calcs) {L' L'' : Layouter Fr}
    {cell : ACell Fr} (hL : x.load = .ok L') {v : Fr} {i : Fin 6}
    (hL'' : L'.assignRegion (fun st => .ok (assignAdvice st (x.hashTable i) 0 v)) = .ok (cell, L''))
    {g : Grid Fr} (hl : x.Laid L' (L''.ops.drop L'.ops.length) g)
    (hq : ∀ c r v, Op.advice c r v ∈ x.before.ops → ¬ x.AdviceCol c)
    (hg : ∀ c, x.AdviceCol c → ∀ r < g.usable, g.advice c r = finalAdvice L''.ops c r) :
    x.Accepted k short L' (L''.ops.drop L'.ops.length) g := by
  refine ⟨hbn, hx, Or.inl hL, hl, ?_⟩
  obtain ⟨⟨lw, -⟩, hna⟩ := hbn.lawful
  obtain ⟨s, hen, h1, -⟩ := laid_enabled hbn hx hL
  have hen := hen _ _ hl
  rw [hm] at h1
  simp only at h1
  have hst : L'.startOf (assignAdvice 0 (x.hashTable i) 0 v).ops = s + 1 + x.calcs := by
    simp [Layouter.startOf, Layouter.shapeCols, assignAdvice, Op.rcol, h1]
  have e := L'.assignRegion_ok (fun st => assignAdvice st (x.hashTable i) 0 v)
    (by intro s c v; simp [assignAdvice])
  rw [hst] at e
  rw [e] at hL''
  have hops : L''.ops = L'.ops ++ [.advice (x.hashTable i) (s + 1 + x.calcs) v] := by
    injection hL'' with hL''
    injection hL'' with _ hL''
    rw [← hL'']
    rfl
  have hfin : ∀ c r, ¬ (c = x.hashTable i ∧ r = s + 1 + x.calcs) →
      finalAdvice L''.ops c r = finalAdvice L'.ops c r := by
    intro c r hne
    rw [hops]
    simp only [finalAdvice, List.foldl_append, List.foldl_cons, List.foldl_nil]
    rw [if_neg fun h => hne ⟨h.1.symm, h.2.symm⟩]
  have hdrop : L''.ops.drop L'.ops.length = [.advice (x.hashTable i) (s + 1 + x.calcs) v] := by
    rw [hops, List.drop_left]
  rw [hdrop] at hl
  -- the grid without the additional cell
  obtain ⟨g₀, hg₀⟩ : ∃ g₀, g₀ = restore g L'.ops (x.hashTable i) (s + 1 + x.calcs) := ⟨_, rfl⟩
  have hl₀ : x.Laid L' [] g₀ := by
    rw [hg₀]
    refine ⟨hl.usable_le, hl.fits, fun o ho => hl.quietFixed o (by
        simp only [List.append_nil] at ho; simp [ho]), fun c r ho => hl.quietSel c r (by
        simp only [List.append_nil] at ho; simp [ho]), fun c hc r hr hu => ?_, fun c hc r hr => ?_⟩
    · refine (hl.fixed c hc r hr hu).trans ?_
      simp [finalFixed, List.foldl_append]
    · refine (hl.selector c hc r hr).trans ?_
      simp [finalSelector]
  have hon : x.Honest L' [] g₀ := by
    refine ⟨hl₀, by simpa using hq, fun c hc r hr => ?_⟩
    rw [hg₀] at hr ⊢
    simp only [List.append_nil, restore]
    split_ifs with h
    · rfl
    · rw [hg c hc r hr, hfin c r h]
  obtain ⟨s₂, hen₂, -, hv, hiff⟩ := Run.honest_iff lw fr_big hx hna (Or.inl hL) hon
  have hsat := hiff.mpr ((complete_iff _ _ _ _).mp hw)
  have hen₀ : x.EnabledAfter g₀ s := by rw [hg₀]; exact hen
  obtain rfl : s₂ = s := hen₂.unique hl₀.usable_le hen₀ h0
  have hacc : x.Accepted k short L' [] g₀ := ⟨hbn, hx, Or.inl hL, hl₀, hsat⟩
  have hcell : ∀ c r, ¬ (c = x.hashTable i ∧ r = s₂ + 1 + x.calcs) → g.advice c r = g₀.advice c r := by
    intro c r h
    rw [hg₀]
    simp only [restore]
    rw [if_neg h]
  have hun := hl.usable_le
  have hz : ∀ j r, r < g.usable → (r < s₂ ∨ s₂ + x.calcs < r) → x.col g₀ j r = 0 := by
    intro j r hr hout
    obtain ⟨s', ho⟩ : ∃ s', L'.ops = x.before.ops ++ Run.ops lw s₂ s' := by
      obtain ⟨s₃, s', ho, -⟩ := Run.load_ends lw hx hna hL
      obtain rfl : s₃ = s₂ := (hl.enabled lw hx ho).unique hl.usable_le hen h0
      exact ⟨s', ho⟩
    rw [Run.col, hon.advice _ (Or.inl ⟨j, rfl⟩) r (by rw [hg₀]; exact hr), List.append_nil, ho, ← List.append_nil (_ ++ _)]
    rw [finalAdvice_between (fun r v ho => hq _ r v ho (Or.inl ⟨j, rfl⟩)) (by simp)]
    exact final_outside x.legacy x.STEP specPerm lw x.cs.numAdvice x.cs.numFixed x.cs.numSelectors x.qEnable
      x.hashTable x.step (rowAt x.table) x.calcs x.mode hx.cols hx.inj s₂ s' (x.hashTable j) r
      (by have := hx.cols j; omega) hout
  refine (C71_outside hacc hen₀ h0 (g' := g) (by rw [hg₀]; rfl) (by rw [hg₀]; rfl) (by rw [hg₀]; rfl) (by rw [hg₀]; rfl)
    (fun c hc => funext fun r => hcell c r fun h => hc i h.1)
    (fun j r h1 h2 => hcell _ r fun h => by omega)).mpr fun r hr hout => ⟨0, Nat.zero_le _, ?_⟩
  have hr' : r < g.usable := by rw [hg₀] at hr; exact hr
  have hgn : g₀.n = g.n := by rw [hg₀]; rfl
  simp only [Nat.zero_mul, Nat.cast_zero, hgn]
  by_cases hr1 : r = s₂ + 1 + x.calcs
  · -- the row of the additional cell comes after the last row of the table, whose control is zero
    have hc3 : x.col g 3 (s₂ + x.calcs) = 0 := by
      have hlast := hw.last (x.calcs - 1) (by omega)
      have := hv.ctrl (x.calcs - 1) (by omega)
      rw [show s₂ + (x.calcs - 1 + 1) = s₂ + x.calcs by omega] at this
      rw [rowCtl_eq] at hlast
      have hz : (specFlag x.legacy 0 : Fr) = 0 := by rw [specFlag_small (by norm_num)]; simp
      have e : ctl (rowAt x.table) (x.calcs - 1) = 0 := hlast.2
      rw [e, hz] at this
      rw [Run.col, hcell _ _ (by omega)]
      exact this
    rw [if_neg (by omega), show r - 1 = s₂ + x.calcs by omega, hc3, mul_zero]
  · -- the head mark is zero
    have hh : x.col g 5 r = 0 := by
      rw [Run.col, hcell _ r (fun h => hr1 h.2)]
      rcases Nat.lt_or_ge r s₂ with h | h
      · exact hz 5 r hr' (Or.inl h)
      · rcases hout with h' | h'
        · obtain rfl : r = s₂ := by omega
          exact hv.head0
        · exact hz 5 r hr' (Or.inr h')
    rw [hh, zero_mul]

-- both modes, on the same table: in serial mode the additional cell does no harm, in parallel mode it breaks the proof
example (k : ChipKind) (short legacy : Bool) (threads : ℕ) :
    ∃ (x y : Run Fr) (L M L₂ M₂ : Layouter Fr) (c d : ACell Fr) (g g' : Grid Fr), y = x.reload x.table (.parallel threads) ∧
      x.mode = .serial ∧ x.load = .ok L ∧ y.load = .ok M ∧ x.before.ops = [] ∧
      L.assignRegion (fun st => .ok (assignAdvice st (x.hashTable 5) 0 2)) = .ok (c, L₂) ∧
      M.assignRegion (fun st => .ok (assignAdvice st (y.hashTable 5) 0 2)) = .ok (d, M₂) ∧
      g = ⟨1000, 1000, finalAdvice L₂.ops, finalFixed L₂.ops, finalSelector L₂.ops⟩ ∧
      g' = ⟨1000, 1000, finalAdvice M₂.ops, finalFixed M₂.ops, finalSelector M₂.ops⟩ ∧
      x.Accepted k short L (L₂.ops.drop L.ops.length) g ∧ y.Laid M (M₂.ops.drop M.ops.length) g' ∧
      ¬ y.Satisfies M g' := by
  obtain ⟨ch, hch, -⟩ := bnChip_lawful k
  have key : ∀ mode, ∃ L M c, (demoRun ch short legacy mode 0).load = .ok L ∧
      L.assignRegion (fun st => .ok (assignAdvice st ((demoRun ch short legacy mode 0).hashTable 5) 0 2)) = .ok (c, M) ∧
      (demoRun ch short legacy mode 0).Laid L (M.ops.drop L.ops.length)
        ⟨1000, 1000, finalAdvice M.ops, finalFixed M.ops, finalSelector M.ops⟩ ∧
      ∃ o, M.ops = L.ops ++ o := by
    intro mode
    obtain ⟨x, hxe⟩ : ∃ x, x = demoRun ch short legacy mode 0 := ⟨_, rfl⟩
    have hbn : x.IsBn k short := by rw [hxe]; exact ⟨hch, rfl⟩
    have hx : x.Legal := by rw [hxe]; exact demo_legal ch short legacy mode 0
    have hfr : x.Fresh := by rw [hxe]; exact ⟨fun _ _ => rfl, fun _ _ => rfl, fun _ _ => rfl⟩
    obtain ⟨L, hL⟩ := (C41_checks hbn hx).1.mpr ⟨by intro _; rw [hxe]; simp [demoRun, demoTable],
      by intro a m _ _ ck h; rw [hxe] at h; simp [demoRun, demoTable, rowCk] at h⟩
    have e := L.assignRegion_ok (fun st => assignAdvice st (x.hashTable 5) 0 (2 : Fr))
      (by intro s c v; simp [assignAdvice])
    have hrows : k.rows ≤ 38 := by cases k <;> simp [ChipKind.rows]
    have h6 : x.calcs = 6 := by rw [hxe]; rfl
    have hST : x.STEP = 62 := by rw [hxe]; rfl
    have hb : x.before.ops = [] := by rw [hxe]; rfl
    rw [← hxe]
    refine ⟨L, _, _, hL, e, ⟨le_rfl, (C64_rows hbn hx hL hfr 1000).mpr (by rw [h6, hST]; omega), ?_, ?_, ?_, ?_⟩, _, rfl⟩
    · intro o ho c r v hw
      simp only [hb, List.nil_append, List.drop_left, assignAdvice, List.mem_singleton] at ho
      subst ho
      rcases hw with h | ⟨_, _, h⟩ <;> cases h
    · intro c r ho
      simp [hb, assignAdvice] at ho
    · intro c hc r hr _
      simp only [List.drop_left]
    · intro c hc r hr
      simp only [List.drop_left]
  obtain ⟨L, L₂, c, e1, e2, e3, o, e4⟩ := key .serial
  obtain ⟨M, M₂, d, f1, f2, f3, -⟩ := key (.parallel threads)
  refine ⟨demoRun ch short legacy .serial 0, demoRun ch short legacy (.parallel threads) 0, L, M, L₂, M₂, c, d, _, _,
    rfl, rfl, e1, f1, rfl, e2, f2, rfl, rfl, ?_, f3, ?_⟩
  · refine C71_serial_accepted ⟨hch, rfl⟩ (demo_legal ch short legacy .serial 0) rfl (by simp [demoRun])
      ((complete_iff _ _ _ _).mpr (demo_wellFormed 0)) e1 e2 e3 (by simp [demoRun]) fun c _ r _ => rfl
  · exact C71_parallel_rejected (k := k) (short := short) ⟨hch, rfl⟩ (demo_legal ch short legacy (.parallel threads) 0)
      rfl (by simp [demoRun]) f1 (by decide) f2 f3 fun r _ => rfl

end Props
