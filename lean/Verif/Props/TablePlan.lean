import Verif.Props.TableMisc
import Verif.Props.TableExact

/-!
# Rows and floor planners: C64, C65
-/

set_option linter.unusedVariables false

namespace Props
open Halo2 Circuit Circuit.Table Base.Bn256

/-- The rows that `load` needs, wherever its regions are. -/
theorem placed_fits {x : Run Fr} {π : (Fin 3 → Fr) → Fin 3 → Fr} {lw : x.ch.Lawful π} {L' : Layouter Fr} {s : ℕ}
    {s' : ℕ → ℕ} (hp : Run.Placed lw L' s s') (u : ℕ) :
    Fits (x.newOps L') u ↔ x.STEP + 2 ≤ u ∧ s + x.calcs + 1 ≤ u ∧ ∀ i < x.calcs, s' i + lw.height ≤ u := by
  have hlen := length_inWords x.legacy x.STEP π lw x.cs.numAdvice x.cs.numFixed x.cs.numSelectors
    x.qEnable x.hashTable x.step (rowAt x.table) x.calcs s
  have hmem := mem_loadOps x.legacy x.STEP π lw x.cs.numAdvice x.cs.numFixed x.cs.numSelectors
    x.qEnable x.hashTable x.step (rowAt x.table) x.calcs (tailOps x.cs.numSelectors s x.calcs x.mode) s s'
  rw [Run.newOps_eq lw hp.ops_eq]
  constructor
  · intro h
    refine ⟨?_, ?_, fun i hi => ?_⟩
    · have := h _ ((hmem _).mpr (Or.inl ((mem_rangeOps x.legacy x.STEP x.cs.numFixed _).mpr (Or.inr rfl))))
      simpa only [Op.bottom] using this
    · have hm : Op.selector x.cs.numSelectors (s + x.calcs) ∈ Run.ops lw s s' := by
        rw [← finalSelector_iff]
        exact (load_selector _ _ _ _ _ _ _ _ _ _ _ _ _ s s' _).mpr (Or.inr rfl)
      have := h _ hm
      simpa only [Op.bottom] using this
    · obtain ⟨op, hop, hb⟩ := lw.reach (x.cs.numAdvice + 8) (x.cs.numFixed + 1) (x.cs.numSelectors + 1) _ s' i
        (by rw [hlen]; exact hi)
      rw [← hb]
      exact h op ((hmem _).mpr (Or.inr (Or.inr (Or.inr (Or.inl hop)))))
  · rintro ⟨h1, h2, h3⟩ o ho
    rcases (hmem o).mp ho with hm | hm | hm | hm | hm
    · rcases (mem_rangeOps x.legacy x.STEP x.cs.numFixed _).mp hm with ⟨i, hi, rfl⟩ | rfl <;>
        simp only [Op.bottom] <;> omega
    · obtain ⟨c, -, -, hb⟩ := tableOps_cols _ _ _ _ hm
      rw [List.length_map, List.length_range] at hb
      omega
    · rw [mem_tailOps _ _ _ _ _ hm]
      simp only [Op.bottom]
      omega
    · rcases lw.shape _ _ _ _ _ _ hm with ⟨_, _, _, rfl, -, -, i, hi, -, hr⟩ |
        ⟨_, _, _, rfl, -, -, i, hi, -, hr⟩ | ⟨_, _, rfl, -, -, i, hi, -, hr⟩ | ⟨_, _, _, _, rfl, -⟩
      · rw [hlen] at hi; have := h3 i hi; simp only [Op.bottom]; omega
      · rw [hlen] at hi; have := h3 i hi; simp only [Op.bottom]; omega
      · rw [hlen] at hi; have := h3 i hi; simp only [Op.bottom]; omega
      · simp [Op.bottom]
    · obtain ⟨q, -, k, rfl⟩ := (mem_finalOps _ _ _).mp hm
      simp [Op.bottom]

/-! ## C64: how many rows `load` needs -/

/-- **C64.** If nothing was assigned to the columns of the hash table before, `load` fits into `u` usable rows iff
the range table (`STEP + 1` entries and one row to fill from), the table (`calcs` rows and the custom row)
and the permutations (8 or 38 rows each) do. -/
theorem C64_rows {x : Run Fr} {k : ChipKind} {short : Bool} (hbn : x.IsBn k short) (hx : x.Legal)
    {L' : Layouter Fr} (hL : x.load = .ok L') (hf : x.Fresh) (u : ℕ) :
    Fits (x.newOps L') u ↔ x.STEP + 2 ≤ u ∧ x.calcs + 1 ≤ u ∧ k.rows * x.calcs ≤ u := by
  obtain ⟨⟨lw, hlw⟩, hn⟩ := hbn.lawful
  obtain ⟨s, s', ho, hfr, st⟩ := (Run.load_iff lw hx hn).2.2 L' hL
  obtain ⟨rfl, rfl⟩ := hfr hf
  rw [placed_fits (s := 0) ⟨st.apart, ho⟩ u, Nat.zero_add, ← hlw]
  refine and_congr Iff.rfl (and_congr_right fun h1 => ⟨fun h => ?_, fun h i hi => ?_⟩)
  · rcases Nat.eq_zero_or_pos x.calcs with h0 | h0
    · rw [h0]; omega
    · have := h (x.calcs - 1) (by omega)
      simp only [stack, Nat.zero_add] at this
      rwa [← Nat.mul_succ, Nat.succ_eq_add_one, Nat.sub_add_cancel h0] at this
  · simp only [stack, Nat.zero_add]
    rw [← Nat.mul_succ]
    exact le_trans (Nat.mul_le_mul_left _ hi) h

private theorem minRows (short : Bool) (t : HashTable Fr) :
    t.minimumRowRequire short (hashSpec short) = t.tableSize * (if short then 9 else 38) := by
  have e1 : Base.hashBlockSize true (hashSpec true) = 9 := by
    simp [Base.hashBlockSize, hashSpec, Base.p128Pow5T3Compact]
  have e2 : Base.hashBlockSize false (hashSpec false) = 38 := by
    simp [Base.hashBlockSize, hashSpec, Base.p128Pow5T3, partialRounds]
  cases short
  · rw [HashTable.minimumRowRequire, e2]; rfl
  · rw [HashTable.minimumRowRequire, e1]; rfl

/-- **C64**, for `minimum_row_require()`: with `calcs` equal to the size of a nonempty table and the chip of the
build, that many usable rows are enough iff they hold the range table; with `STEP = 62` these are 64 rows, so
the number is too small for up to 7 rows with Septidon, and for a single row with Pow5. -/
theorem C64_minimum {x : Run Fr} {k : ChipKind} {short : Bool} (hbn : x.IsBn k short) (hx : x.Legal)
    {L' : Layouter Fr} (hL : x.load = .ok L') (hf : x.Fresh)
    (hk : if short then k = .septidon else ∃ b, k = .pow5 b)
    (hc : x.calcs = x.table.tableSize) (h0 : 0 < x.calcs) :
    (Fits (x.newOps L') (x.table.minimumRowRequire short (hashSpec short)) ↔
      x.STEP + 2 ≤ x.table.minimumRowRequire short (hashSpec short)) ∧
    (x.STEP = 62 → (Fits (x.newOps L') (x.table.minimumRowRequire short (hashSpec short)) ↔
      (if short then 8 else 2) ≤ x.calcs)) := by
  have key : Fits (x.newOps L') (x.table.minimumRowRequire short (hashSpec short)) ↔
      x.STEP + 2 ≤ x.table.minimumRowRequire short (hashSpec short) := by
    rw [C64_rows hbn hx hL hf, minRows, ← hc]
    cases short with
    | true =>
      simp only [if_true] at hk
      subst hk
      simp only [ChipKind.rows, if_true]
      omega
    | false =>
      simp only [Bool.false_eq_true, if_false] at hk
      obtain ⟨b, rfl⟩ := hk
      simp only [ChipKind.rows, Bool.false_eq_true, if_false]
      omega
  refine ⟨key, fun hS => key.trans ?_⟩
  rw [minRows, ← hc, hS]
  cases short with
  | true => simp only [if_true]; omega
  | false => simp only [Bool.false_eq_true, if_false]; omega

/-- **C64**, for an accepted witness: the last of the `calcs` rows must be empty, so a table whose own last row is
not empty needs `calcs` to be larger than its size; and then with the Pow5 chip the rows given by
`minimum_row_require()` are never enough, in either build. -/
theorem C64_pow5_never {x : Run Fr} {b : Bool} {short : Bool} {L' : Layouter Fr} {post : List (Op Fr)}
    {g : Grid Fr} (h : x.Accepted (.pow5 b) short L' post g) (hh : x.Honest L' post g) (hL : x.load = .ok L')
    (hf : x.Fresh) (hm : x.mode = .serial)
    (hlast : ∃ w, x.table.inputs.getLast? = some w ∧ w ≠ (0, 0)) :
    x.table.tableSize < x.calcs ∧ x.table.minimumRowRequire short (hashSpec short) < g.usable := by
  obtain ⟨w, hw, hne⟩ := hlast
  have hfit : x.table.inputs.length ≤ x.calcs :=
    ((C41_checks h.bn h.legal).1.mp ⟨L', hL⟩).1 hm |>.1
  have hpos : 0 < x.table.inputs.length := by
    rcases hl : x.table.inputs with _ | ⟨a, l⟩
    · rw [hl] at hw; simp at hw
    · simp
  have hlt : x.table.inputs.length < x.calcs := by
    refine lt_of_le_of_ne hfit fun e => hne ?_
    have := ((C32_only_complete h hh).last (x.calcs - 1) (by omega)).1
    rw [← this, rowWords_eq]
    rw [List.getLast?_eq_getElem?, e] at hw
    simp only [rowAt, hw, Option.getD_some]
  refine ⟨hlt, ?_⟩
  have hfits := (C64_rows h.bn h.legal hL hf g.usable).mp h.laid.fits
  obtain ⟨-, -, h3⟩ := hfits
  simp only [ChipKind.rows] at h3
  rw [minRows, HashTable.tableSize]
  cases short with
  | true => simp only [if_true]; omega
  | false => simp only [Bool.false_eq_true, if_false]; omega

-- the demo run: 64 rows with Septidon (6·8 for the permutations), 228 with Pow5
example (k : ChipKind) (short legacy : Bool) (mode : LoadMode) :
    ∃ (x : Run Fr) (L' : Layouter Fr), x.IsBn k short ∧ x.Legal ∧ x.load = .ok L' ∧ x.Fresh ∧
      ∀ u, Fits (x.newOps L') u ↔ (match k with | .septidon => 64 | .pow5 _ => 228) ≤ u := by
  obtain ⟨ch, L', g, hch, h0, h, -⟩ := demo k short legacy mode 0
  refine ⟨_, L', h.bn, h.legal, h0, ⟨fun _ _ => rfl, fun _ _ => rfl, fun _ _ => rfl⟩, fun u => ?_⟩
  rw [C64_rows h.bn h.legal h0 ⟨fun _ _ => rfl, fun _ _ => rfl, fun _ _ => rfl⟩]
  simp only [demoRun]
  cases k <;> simp only [ChipKind.rows] <;> omega

-- tables of any size for `C64_minimum`, with the chip of the build
example (short legacy : Bool) (mode : LoadMode) (n : ℕ) (hn : n < 2 ^ 64) :
    ∃ (x : Run Fr) (k : ChipKind) (L' : Layouter Fr), x.IsBn k short ∧ x.Legal ∧ x.load = .ok L' ∧ x.Fresh ∧
      (if short then k = .septidon else ∃ b, k = .pow5 b) ∧ x.calcs = x.table.tableSize ∧ x.calcs = n ∧
      x.STEP = 62 := by
  obtain ⟨k, hk⟩ : ∃ k, k = if short then ChipKind.septidon else .pow5 true := ⟨_, rfl⟩
  obtain ⟨ch, hch, -⟩ := bnChip_lawful k
  obtain ⟨x, hxe⟩ : ∃ x, x = { demoRun ch short legacy mode 0 with
    table := ⟨List.replicate n (1, 2), [], [], []⟩, calcs := n } := ⟨_, rfl⟩
  have hbn : x.IsBn k short := by rw [hxe]; exact ⟨hch, rfl⟩
  have hx : x.Legal := by
    obtain ⟨h1, h2, h3, h4, h5, h6, -⟩ := demo_legal ch short legacy mode 0
    rw [hxe]
    exact ⟨h1, h2, h3, h4, h5, hn, by simp⟩
  obtain ⟨L', hL⟩ := (C41_checks hbn hx).1.mpr ⟨by rw [hxe]; intro _; simp,
    by rw [hxe]; intro a m _ _ ck h; simp [rowCk] at h⟩
  refine ⟨x, k, L', hbn, hx, hL, ?_, ?_, ?_, ?_, ?_⟩
  · rw [hxe]; exact ⟨fun _ _ => rfl, fun _ _ => rfl, fun _ _ => rfl⟩
  · rw [hk]; cases short
    · exact ⟨true, rfl⟩
    · rfl
  · rw [hxe]; simp [HashTable.tableSize]
  · rw [hxe]
  · rw [hxe]; rfl

-- the demo table ends in the words (7, 8)
example (b short legacy : Bool) :
    ∃ (x : Run Fr) (L' : Layouter Fr) (g : Grid Fr), x.Accepted (.pow5 b) short L' [] g ∧ x.Honest L' [] g ∧
      x.load = .ok L' ∧ x.Fresh ∧ x.mode = .serial ∧
      ∃ w, x.table.inputs.getLast? = some w ∧ w ≠ (0, 0) := by
  obtain ⟨ch, L', g, hch, h0, h, hh, -⟩ := demo (.pow5 b) short legacy .serial 0
  refine ⟨_, L', g, h, hh, h0, ⟨fun _ _ => rfl, fun _ _ => rfl, fun _ _ => rfl⟩, rfl, (7, 8), rfl, ?_⟩
  intro e
  have := congrArg (fun p : Fr × Fr => p.1) e
  revert this
  decide

/-! ## C65: other floor planners -/

/-- **C65.** Let any floor planner put the regions of serial loading at rows of its choice, such that no two
permutations overlap. Loading succeeds under the same conditions as with the simple floor planner; the enabled
rows follow the first row of the table; and the grids that carry the witness are accepted iff the rows form
complete blocks. -/
theorem C65_planner {x : Run Fr} {k : ChipKind} {short : Bool} (hbn : x.IsBn k short) (hx : x.Legal)
    {plan : ℕ → ℕ} (hp : x.Plan plan) :
    ((∃ L', x.loadPlanned plan = .ok L') ↔ ∃ L', x.load = .ok L') ∧
    ∀ L', x.loadPlanned plan = .ok L' →
      (∀ post g, x.Laid L' post g → x.EnabledAfter g (plan 0)) ∧
      (∀ post g, x.Honest L' post g →
        (x.Accepted k short L' post g ↔ Complete x.STEP x.step x.table x.calcs)) ∧
      ∀ u, Fits (x.newOps L') u ↔
        x.STEP + 2 ≤ u ∧ plan 0 + x.calcs + 1 ≤ u ∧ ∀ i < x.calcs, plan (i + 1) + k.rows ≤ u := by
  obtain ⟨⟨lw, hlw⟩, hn⟩ := hbn.lawful
  obtain ⟨h1, -, h3⟩ := Run.loadPlanned_iff lw plan hn hp.1
  refine ⟨?_, fun L' hL => ?_⟩
  · rw [h1, (Run.load_iff lw hx hn).1, hp.1]
  · have ho := h3 L' hL
    have hap : RowsApart lw.height x.calcs fun i => plan (i + 1) := by
      have hcfg : x.configured.1.permuteConfig =
          lw.cfg (x.cs.numAdvice + 8) (x.cs.numFixed + 1) (x.cs.numSelectors + 1) := by
        rw [Run.configured_eq lw]
        rfl
      have := hp.2
      rwa [hcfg, permuteRows_eq] at this
    refine ⟨fun post g hl => hl.enabled lw hx ho, fun post g hg => ?_, fun u => ?_⟩
    · obtain ⟨s, -, -, -, hiff⟩ := Run.honest_iff lw fr_big hx hn (Or.inr ⟨plan, hp, hL⟩) hg
      rw [complete_iff, ← hiff]
      exact ⟨fun h => h.sat, fun h => ⟨hbn, hx, Or.inr ⟨plan, hp, hL⟩, hg.toLaid, h⟩⟩
    · rw [placed_fits ⟨hap, ho⟩ u, hlw]

/-- **C65**, the regions: two permutations do not overlap iff their first rows are at least 8 (Septidon) or 38
(Pow5) rows apart. -/
theorem C65_apart {x : Run Fr} {k : ChipKind} {short : Bool} (hbn : x.IsBn k short) (plan : ℕ → ℕ) :
    x.Plan plan ↔ x.mode = .serial ∧ ∀ i j, i < j → j < x.calcs →
      plan (i + 1) + k.rows ≤ plan (j + 1) ∨ plan (j + 1) + k.rows ≤ plan (i + 1) := by
  obtain ⟨⟨lw, hlw⟩, hn⟩ := hbn.lawful
  have hcfg : x.configured.1.permuteConfig =
      lw.cfg (x.cs.numAdvice + 8) (x.cs.numFixed + 1) (x.cs.numSelectors + 1) := by
    rw [Run.configured_eq lw]
    rfl
  rw [Run.Plan, hcfg, permuteRows_eq, hlw]
  rfl

/-- **C65**, the simple floor planner is one of them. -/
theorem C65_simple {x : Run Fr} {k : ChipKind} {short : Bool} (hbn : x.IsBn k short) (hx : x.Legal)
    (hm : x.mode = .serial) {L : Layouter Fr} (hL : x.load = .ok L) :
    ∃ plan L', x.Plan plan ∧ x.loadPlanned plan = .ok L' ∧ L'.ops = L.ops := by
  obtain ⟨⟨lw, hlw⟩, hn⟩ := hbn.lawful
  obtain ⟨s, s', ho, -, st⟩ := (Run.load_iff lw hx hn).2.2 L hL
  obtain ⟨plan, hplan⟩ : ∃ plan : ℕ → ℕ, plan = fun i => Nat.casesOn i s s' := ⟨_, rfl⟩
  have hp : x.Plan plan := by
    refine (C65_apart hbn plan).mpr ⟨hm, ?_⟩
    rw [hplan, ← hlw]
    exact st.apart
  obtain ⟨L', hL'⟩ := (C65_planner hbn hx hp).1.mpr ⟨L, hL⟩
  refine ⟨plan, L', hp, hL', ?_⟩
  rw [(Run.loadPlanned_iff lw plan hn hm).2.2 L' hL', ho, hplan]
  rfl

/-- **C65**, the floor planner does not matter: any two of them (the simple one included) accept the same tables,
in circuits that leave the advice columns of the hash table alone. -/
theorem C65_same_tables {x : Run Fr} {k : ChipKind} {short : Bool} (hbn : x.IsBn k short) (hx : x.Legal)
    (h0 : 0 < x.calcs) {L₁ L₂ : Layouter Fr} (hL₁ : x.Loads L₁) (hL₂ : x.Loads L₂) {post₁ post₂ : List (Op Fr)}
    {g₁ g₂ : Grid Fr} (hg₁ : x.Laid L₁ post₁ g₁) (hg₂ : x.Laid L₂ post₂ g₂)
    (hq₁ : ∀ c r v, Op.advice c r v ∈ x.before.ops ++ post₁ → ¬ x.AdviceCol c)
    (hq₂ : ∀ c r v, Op.advice c r v ∈ x.before.ops ++ post₂ → ¬ x.AdviceCol c)
    {s₁ s₂ : ℕ} (he₁ : x.EnabledAfter g₁ s₁) (he₂ : x.EnabledAfter g₂ s₂) (h : x.Satisfies L₁ g₁) :
    ∃ g, x.Accepted k short L₂ post₂ g ∧ x.EnabledAfter g s₂ ∧
      (∀ c, ¬ x.AdviceCol c → g.advice c = g₂.advice c) ∧
      ∀ j < x.calcs, ∀ i, x.col g i (s₂ + j + 1) = x.col g₁ i (s₁ + j + 1) := by
  obtain ⟨T, hT⟩ : ∃ T : List (Fin 6 → Fr), T = (List.range x.calcs).map fun j i => x.col g₁ i (s₁ + j + 1) :=
    ⟨_, rfl⟩
  have hlen : T.length = x.calcs := by rw [hT]; simp
  have hget : ∀ j (hj : j < T.length) i, T[j] i = x.col g₁ i (s₁ + j + 1) := by
    intro j hj i
    rw [List.getElem_of_eq hT]
    simp
  have hv := (C60_exact hbn hx hL₁ hg₁ hq₁ he₁ h0 T hlen).mp ⟨g₁, ⟨hbn, hx, hL₁, hg₁, h⟩, rfl, rfl, rfl, rfl,
    fun _ _ => rfl, fun j hj i => (hget j hj i).symm⟩
  obtain ⟨g, ha, hn, hu, hf, -, hadv, hcol⟩ := (C60_exact hbn hx hL₂ hg₂ hq₂ he₂ h0 T hlen).mpr hv
  refine ⟨g, ha, ⟨by rw [hu]; exact he₂.1, by rw [hn, hf]; exact he₂.2⟩, hadv, fun j hj i => ?_⟩
  rw [hcol j (by omega) i, hget]

-- the six rows of the demo table at row 5, and the permutations in reverse order, 40 rows apart
example (k : ChipKind) (short legacy : Bool) :
    ∃ (x : Run Fr) (plan : ℕ → ℕ) (L' : Layouter Fr) (g : Grid Fr), x.Plan plan ∧ plan 0 = 5 ∧ plan 2 < plan 1 ∧
      x.loadPlanned plan = .ok L' ∧ x.Honest L' [] g ∧ x.Accepted k short L' [] g ∧ x.EnabledAfter g 5 ∧
      x.calcs = 6 := by
  obtain ⟨ch, L₀, g₀, hch, h0, h, hh, -⟩ := demo k short legacy .serial 0
  obtain ⟨x, hx⟩ : ∃ x, x = demoRun ch short legacy .serial 0 := ⟨_, rfl⟩
  rw [← hx] at h0 h hh
  have hcalcs : x.calcs = 6 := by rw [hx]; rfl
  obtain ⟨plan, hplan⟩ : ∃ plan : ℕ → ℕ, plan = fun i => if i = 0 then 5 else 40 * (10 - i) := ⟨_, rfl⟩
  have hp : x.Plan plan := by
    refine (C65_apart h.bn plan).mpr ⟨by rw [hx]; rfl, fun i j hij hj => Or.inr ?_⟩
    rw [hcalcs] at hj
    rw [hplan]
    have : k.rows ≤ 38 := by cases k <;> simp [ChipKind.rows]
    simp only [Nat.succ_ne_zero, if_false]
    omega
  obtain ⟨h1, h2⟩ := C65_planner h.bn h.legal hp
  obtain ⟨L', hL'⟩ := h1.mpr ⟨L₀, h0⟩
  obtain ⟨g, hg⟩ := Run.exists_honest (x := x) (L' := L') (by rw [hx]; rfl)
  obtain ⟨h3, h4, -⟩ := h2 L' hL'
  have e5 : plan 0 = 5 := by rw [hplan]; rfl
  exact ⟨x, plan, L', g, hp, e5, by rw [hplan]; norm_num, hL', hg,
    (h4 [] g hg).mpr (C32_only_complete h hh), by rw [← e5]; exact h3 [] g hg.toLaid, hcalcs⟩

-- and the same with the simple floor planner: two layouters for `C65_same_tables`
example (k : ChipKind) (short legacy : Bool) :
    ∃ (x : Run Fr) (L₁ L₂ : Layouter Fr) (g₁ g₂ : Grid Fr), x.IsBn k short ∧ x.Legal ∧ 0 < x.calcs ∧ x.Loads L₁ ∧
      x.Loads L₂ ∧ x.Laid L₁ [] g₁ ∧ x.Laid L₂ [] g₂ ∧ x.before.ops = [] ∧ x.EnabledAfter g₁ 0 ∧
      x.EnabledAfter g₂ 5 ∧ x.Satisfies L₁ g₁ := by
  obtain ⟨ch, L₀, g₀, hch, h0, h, hh, hen, -⟩ := demo k short legacy .serial 0
  obtain ⟨x, hx⟩ : ∃ x, x = demoRun ch short legacy .serial 0 := ⟨_, rfl⟩
  rw [← hx] at h0 h hh hen
  have hcalcs : x.calcs = 6 := by rw [hx]; rfl
  obtain ⟨plan, hplan⟩ : ∃ plan : ℕ → ℕ, plan = fun i => if i = 0 then 5 else 40 * (10 - i) := ⟨_, rfl⟩
  have hp : x.Plan plan := by
    refine (C65_apart h.bn plan).mpr ⟨by rw [hx]; rfl, fun i j hij hj => Or.inr ?_⟩
    rw [hcalcs] at hj
    rw [hplan]
    have : k.rows ≤ 38 := by cases k <;> simp [ChipKind.rows]
    simp only [Nat.succ_ne_zero, if_false]
    omega
  obtain ⟨h1, h2⟩ := C65_planner h.bn h.legal hp
  obtain ⟨L', hL'⟩ := h1.mpr ⟨L₀, h0⟩
  obtain ⟨g, hg⟩ := Run.exists_honest (x := x) (L' := L') (by rw [hx]; rfl)
  obtain ⟨h3, -⟩ := h2 L' hL'
  have e5 : plan 0 = 5 := by rw [hplan]; rfl
  exact ⟨x, L₀, L', g₀, g, h.bn, h.legal, by omega, Or.inl h0, Or.inr ⟨plan, hp, hL'⟩, h.laid, hg.toLaid,
    by rw [hx]; rfl, hen, by rw [← e5]; exact h3 [] g hg.toLaid, h.sat⟩

end Props
