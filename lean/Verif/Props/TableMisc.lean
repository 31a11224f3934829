import Verif.Props.TableLoad
import Mathlib.Data.List.Nodup

/-!
# Encoding of controls, equality-enabled columns, row counts: C42, C43, C44
-/

set_option linter.unusedVariables false

namespace Props
open Halo2 Circuit Circuit.Table Base.Bn256

/-! ## C42 -/

theorem domainSpec_le (legacy : Bool) : Base.domainSpec legacy ≤ 2 ^ 64 := by
  cases legacy <;> norm_num [Base.domainSpec]

theorem domainSpec_pos (legacy : Bool) : 0 < Base.domainSpec legacy := by
  cases legacy <;> norm_num [Base.domainSpec]

/-- **C42.** For every `u64` control (and every `u64` step, and every entry `i ≤ STEP` of the range table)
the product with `HASHABLE_DOMAIN_SPEC` fits `u128`, so the field element is the product; distinct values
give distinct elements of `Fr`. The control difference checked by the circuit lies in the range table iff
it is the encoding of a value `≤ STEP`. -/
theorem C42_control_encoding (legacy : Bool) :
    (∀ c < 2 ^ 64, c * Base.domainSpec legacy < 2 ^ 128 ∧
      (specFlag legacy c : Fr) = ((c * Base.domainSpec legacy : ℕ) : Fr)) ∧
    (∀ c < 2 ^ 64, ∀ c' < 2 ^ 64, (specFlag legacy c : Fr) = specFlag legacy c' → c = c') ∧
    (∀ STEP < 2 ^ 64, (rangeEntries legacy STEP : List Fr).length = STEP + 1 ∧
      (rangeEntries legacy STEP : List Fr).Nodup ∧
      ∀ c < 2 ^ 64, (specFlag legacy c : Fr) ∈ (rangeEntries legacy STEP : List Fr) ↔ c ≤ STEP) := by
  have hinj : ∀ c < 2 ^ 64, ∀ c' < 2 ^ 64, (specFlag legacy c : Fr) = specFlag legacy c' → c = c' := by
    intro c hc c' hc' h
    rw [specFlag_small hc, specFlag_small hc'] at h
    have hb : ∀ c < 2 ^ 64, c * Base.domainSpec legacy < r := fun c hc =>
      lt_of_le_of_lt (Nat.mul_le_mul hc.le (domainSpec_le legacy)) (by norm_num [r])
    have := (ZMod.natCast_eq_natCast_iff' _ _ r).mp h
    rw [Nat.mod_eq_of_lt (hb c hc), Nat.mod_eq_of_lt (hb c' hc')] at this
    exact Nat.eq_of_mul_eq_mul_right (domainSpec_pos legacy) this
  refine ⟨fun c hc => ⟨?_, specFlag_small hc⟩, hinj, fun STEP hS => ⟨by simp [rangeEntries], ?_, fun c hc => ?_⟩⟩
  · calc c * Base.domainSpec legacy ≤ c * 2 ^ 64 := Nat.mul_le_mul_left _ (domainSpec_le legacy)
      _ < 2 ^ 64 * 2 ^ 64 := Nat.mul_lt_mul_of_pos_right hc (by norm_num)
      _ = 2 ^ 128 := by norm_num
  · unfold rangeEntries
    refine List.Nodup.map_on ?_ List.nodup_range
    intro i hi j hj h
    rw [List.mem_range] at hi hj
    exact hinj i (by omega) j (by omega) h
  · simp only [rangeEntries, List.mem_map, List.mem_range]
    constructor
    · rintro ⟨i, hi, h⟩
      have := hinj i (by omega) c hc h
      omega
    · exact fun h => ⟨c, by omega, rfl⟩

-- the largest control, which still fits
example : (2 ^ 64 - 1) * Base.domainSpec false < 2 ^ 128 ∧ Base.domainSpec false = 2 ^ 64 :=
  ⟨((C42_control_encoding false).1 _ (by norm_num)).1, rfl⟩

/-! ## C43 -/

/-- **C43**, for `load`: every copy constraint joins cells of columns on which `configure_sub` enabled
equality (in either mode, under any floor planner). -/
theorem C43_load {x : Run Fr} {k : ChipKind} {short : Bool} (hbn : x.IsBn k short) (hx : x.Legal)
    {L' : Layouter Fr} (hL : x.Loads L') :
    ∀ u v, Op.copy u v ∈ x.newOps L' → u.col ∈ x.configured.2.equality ∧ v.col ∈ x.configured.2.equality := by
  obtain ⟨⟨lw, -⟩, hn⟩ := hbn.lawful
  obtain ⟨s, s', ⟨-, ho⟩, -⟩ := hL.placed lw hx hn
  rw [Run.newOps_eq lw ho, Run.configured_eq lw]
  have hin : ∀ w ∈ inWords x.legacy x.STEP specPerm lw x.cs.numAdvice x.cs.numFixed x.cs.numSelectors x.qEnable
      x.hashTable x.step (rowAt x.table) x.calcs s, ∀ k, (w k).cell.col ∈ tableEqs x.cs.numAdvice x.hashTable := by
    intro w hw k
    obtain ⟨j, hj, rfl⟩ := List.getElem_of_mem hw
    rw [inWords_cell]
    fin_cases k <;> simp [tableEqs]
  have hout : ∀ w ∈ outWords x.legacy x.STEP specPerm lw x.cs.numAdvice x.cs.numFixed x.cs.numSelectors x.qEnable
      x.hashTable x.step (rowAt x.table) x.calcs s, ∀ k, (w k).cell.col ∈ tableEqs x.cs.numAdvice x.hashTable := by
    intro w hw k
    obtain ⟨j, hj, rfl⟩ := List.getElem_of_mem hw
    rw [outWords_cell]
    fin_cases k <;> simp [tableEqs, outCol]
  intro u v hm
  simp only [List.mem_append]
  rw [Run.ops, mem_loadOps] at hm
  rcases hm with hm | hm | hm | hm | hm
  · rw [mem_rangeOps] at hm
    rcases hm with ⟨i, -, h⟩ | h <;> cases h
  · obtain ⟨c, h, -⟩ := tableOps_cols _ _ _ _ hm
    cases h
  · cases hmode : x.mode with
    | serial => simp [hmode, tailOps] at hm
    | parallel => simp only [hmode, tailOps] at hm; split at hm <;> simp at hm
  · rcases lw.shape _ _ _ _ _ _ hm with ⟨_, _, _, h, -⟩ | ⟨_, _, _, h, -⟩ | ⟨_, _, h, -⟩ | ⟨c, r, w, k, h, hw, hc⟩
    · cases h
    · cases h
    · cases h
    · cases h
      exact ⟨Or.inr hc, Or.inl (Or.inr (hin w hw k))⟩
  · rw [mem_finalOps] at hm
    obtain ⟨q, hq, k, h⟩ := hm
    cases h
    obtain ⟨h1, h2⟩ := List.of_mem_zip hq
    exact ⟨Or.inl (Or.inr (hout _ h1 k)), Or.inr (lw.outs_eq _ _ _ _ _ _ h2 k)⟩

/-- **C43**, for `permute` and `permute_batch` alone: with input cells in equality-enabled columns, every copy
constraint joins equality-enabled columns, and so the returned cells can be passed on. -/
theorem C43_permute (k : ChipKind) : ∃ ch, bnChip k = .ok ch ∧ ∀ (cs : CS Fr) (L : Layouter Fr)
    (ws : List (Words Fr 3)), (∀ w ∈ ws, ∀ i, (w i).cell.col ∈ (ch.configure cs).2.equality) →
    ∀ outs L', (mapPermute (ch.permute (ch.configure cs).1) L ws = .ok (outs, L') ∨
      ∃ threads, ch.permuteBatch (ch.configure cs).1 threads L ws = .ok (outs, L')) →
    ∃ new, L'.ops = L.ops ++ new ∧
      (∀ u v, Op.copy u v ∈ new →
        u.col ∈ (ch.configure cs).2.equality ∧ v.col ∈ (ch.configure cs).2.equality) ∧
      ∀ o ∈ outs, ∀ i, (o i).cell.col ∈ (ch.configure cs).2.equality := by
  obtain ⟨ch, hch, ⟨lw, -⟩⟩ := bnChip_lawful k
  refine ⟨ch, hch, fun cs L ws hws outs L' hrun => ?_⟩
  rw [lw.configure_eq] at hws hrun ⊢
  simp only at hws hrun ⊢
  have key : ∃ s, outs = lw.outs cs.numAdvice cs.numFixed cs.numSelectors ws s ∧
      L'.ops = L.ops ++ lw.ops cs.numAdvice cs.numFixed cs.numSelectors ws s := by
    rcases hrun with h | ⟨threads, h⟩
    · obtain ⟨s, L'', e, o, -⟩ := lw.serial cs.numAdvice cs.numFixed cs.numSelectors L ws
      rw [h] at e; cases e
      exact ⟨_, rfl, o⟩
    · obtain ⟨s, L'', e, o, -⟩ := lw.batch cs.numAdvice cs.numFixed cs.numSelectors L threads ws
      rw [h] at e; cases e
      exact ⟨_, rfl, o⟩
  obtain ⟨s, rfl, ho⟩ := key
  refine ⟨_, ho, fun u v hm => ?_, fun o hom i => List.mem_append.mpr (Or.inr (lw.outs_eq _ _ _ _ _ o hom i))⟩
  rcases lw.shape _ _ _ _ _ _ hm with ⟨_, _, _, h, -⟩ | ⟨_, _, _, h, -⟩ | ⟨_, _, h, -⟩ | ⟨c, r, w, k, h, hw, hc⟩
  · cases h
  · cases h
  · cases h
  · cases h
    exact ⟨List.mem_append.mpr (Or.inr hc), hws w hw k⟩

-- the demo run loads, so C43 is about its log (which has copy constraints: there are 6 permutations)
example (k : ChipKind) (short legacy : Bool) (mode : LoadMode) :
    ∃ (x : Run Fr) (L' : Layouter Fr), x.IsBn k short ∧ x.Legal ∧ x.Loads L' ∧ x.calcs = 6 := by
  obtain ⟨ch, L', g, -, h0, h, -⟩ := demo k short legacy mode 0
  exact ⟨_, L', h.bn, h.legal, Or.inl h0, rfl⟩

-- cells of equality-enabled columns to permute exist: the first word of the circuit's own output
example (k : ChipKind) : ∃ (ch : Chip Fr 3) (cs : CS Fr) (w : Words Fr 3), bnChip k = .ok ch ∧
    ∀ i, (w i).cell.col ∈ (ch.configure cs).2.equality := by
  obtain ⟨ch, hch, ⟨lw, -⟩⟩ := bnChip_lawful k
  refine ⟨ch, ⟨3, 0, 0, [], [], [.advice 0, .advice 1, .advice 2]⟩, fun i => ⟨⟨.advice i, 5⟩, 7⟩, hch, fun i => ?_⟩
  rw [lw.configure_eq]
  fin_cases i <;> simp

/-! ## C44 -/

/-- **C44**, height of one permutation: `hash_block_size()` without feature `short` is the number of rows of
a Pow5 region, for every width and all round numbers (full rounds even, as `configure` asserts). -/
theorem C44_pow5_height {F : Type} [Field F] {t : ℕ} (S : Pow5.Params F t) (cols : Pow5.Cols t) (cs cs' : CS F)
    (cfg : Pow5.Config F t) (hcfg : Pow5.configureChecked S cols cs = .ok (cfg, cs')) (w : Words F (t + 1))
    (R : Base.RSpec F) (h1 : R.fullRounds = S.fullRounds) (h2 : R.partialRounds = S.partialRounds) :
    Layouter.shapeRows (Pow5.permuteBody S cfg w 0).ops = Base.hashBlockSize false R := by
  unfold Pow5.configureChecked at hcfg
  split at hcfg
  · rename_i hev
    rw [Pow5.configure_eq] at hcfg
    cases hcfg
    rw [Pow5.permute_shapeRows, Pow5.steps, Base.hashBlockSize, h1, h2]
    simp only [Bool.false_eq_true, if_false]
    omega
  · cases hcfg

-- width 3, 8 full and 57 partial rounds
example (cs : CS Fr) (rc : List (Base.State Fr 3)) (mi : Base.Mds Fr 3) :
    ∃ cfg cs', Pow5.configureChecked (pow5Bn rc mi) ⟨![0, 1, 2], 3, ![0, 1, 2], ![3, 4, 5]⟩ cs = .ok (cfg, cs') ∧
      (hashSpec false).fullRounds = (pow5Bn rc mi).fullRounds ∧
      (hashSpec false).partialRounds = (pow5Bn rc mi).partialRounds := by
  refine ⟨_, _, if_pos ⟨?_, by norm_num⟩, rfl, rfl⟩
  show 8 % 2 = 0
  norm_num

/-- **C44**, height of one permutation: `hash_block_size()` with feature `short` is one more than the rows of
a Septidon region. -/
theorem C44_septidon_height : ∃ rc, cachedRoundConstants = .ok rc ∧ ∀ (cs : CS Fr) (w : Words Fr 3),
    Layouter.shapeRows (Septidon.permuteBody mds (fun r => rc.getD r 0)
      (Septidon.configure mds (fun r => rc.getD r 0) cs).1 w 0 0).ops + 1 =
      Base.hashBlockSize true (hashSpec true) := by
  obtain ⟨rc, h1, -, h3, -⟩ := Septidon.bn_table
  refine ⟨rc, h1, fun cs w => ?_⟩
  rw [Septidon.configure_eq]
  have := Septidon.permuteBody_rows cs.numAdvice cs.numFixed mds (fun r => rc.getD r 0) h3 w
  simp only at this ⊢
  rw [this]
  simp [Base.hashBlockSize, hashSpec, Base.p128Pow5T3Compact]

/-- The columns of the permutation chip inside the hash table circuit. -/
def ChipCol (x : Run Fr) : RCol → Prop
  | .advice c => x.cs.numAdvice + 8 ≤ c
  | .fixed c => x.cs.numFixed + 1 ≤ c
  | .selector c => x.cs.numSelectors + 1 ≤ c

/-- **C44**, for `load`: the writes to the columns of the permutation chip lie in `calcs` times the height of
the chip consecutive rows; with `calcs = table_size()` these are at most `minimum_row_require()` rows, in the
build that uses the chip (Septidon with feature `short`, Pow5 without), and Septidon fits in either build. -/
theorem C44_rows {x : Run Fr} {k : ChipKind} {short : Bool} (hbn : x.IsBn k short) (hx : x.Legal)
    {L' : Layouter Fr} (hL : x.load = .ok L') :
    (∃ s, ∀ o ∈ x.newOps L', ∀ c r, ChipCol x c → o.Hits c r → s ≤ r ∧ r < s + k.rows * x.calcs) ∧
    (x.calcs = x.table.tableSize → (k = .septidon ∨ short = false) →
      k.rows * x.calcs ≤ x.table.minimumRowRequire short (hashSpec short)) := by
  obtain ⟨⟨lw, hlw⟩, hn⟩ := hbn.lawful
  obtain ⟨s, s', ho, -, -, s₀, rfl, -⟩ := (Run.load_iff lw hx hn).2.2 L' hL
  refine ⟨⟨s₀, fun o hm c r hc hh => ?_⟩, fun hsz hk => ?_⟩
  · rw [Run.newOps_eq lw ho, Run.ops, mem_loadOps] at hm
    rcases hm with hm | hm | hm | hm | hm
    · rw [mem_rangeOps] at hm
      rcases hm with ⟨i, -, rfl⟩ | rfl
      · obtain ⟨rfl, rfl⟩ := hh
        simp only [ChipCol] at hc; omega
      · obtain ⟨rfl, -⟩ := hh
        simp only [ChipCol] at hc; omega
    · obtain ⟨c', h, ht, -⟩ := tableOps_cols _ _ _ _ hm
      have : c = c' := by
        cases o <;> simp only [Op.Hits, Op.rcol, Option.some.injEq] at hh h
        all_goals first
          | exact hh.1.trans h
          | cases h
      subst this
      have hcols := hx.cols
      cases c with
      | advice c =>
        simp only [ChipCol] at hc
        rcases ht with ⟨i, rfl⟩ | ⟨i, rfl⟩ | rfl | rfl
        · have := hcols i; simp only [conf] at hc; omega
        · have := i.isLt; simp only [conf] at hc; omega
        · simp only [conf] at hc; omega
        · simp only [conf] at hc; omega
      | fixed c => have hq := hx.enable; simp only [ChipCol] at hc; simp only [TableCol, conf] at ht; omega
      | selector c => simp only [ChipCol] at hc; simp only [TableCol, conf] at ht; omega
    · have : ∃ r', o = .selector x.cs.numSelectors r' := by
        cases hmode : x.mode with
        | serial => simp [hmode, tailOps] at hm; exact ⟨_, hm⟩
        | parallel =>
          simp only [hmode, tailOps] at hm
          split at hm
          · simp at hm
          · simp at hm; exact ⟨_, hm⟩
      obtain ⟨r', rfl⟩ := this
      obtain ⟨rfl, -⟩ := hh
      simp only [ChipCol] at hc; omega
    · have hlen := length_inWords x.legacy x.STEP specPerm lw x.cs.numAdvice x.cs.numFixed x.cs.numSelectors
        x.qEnable x.hashTable x.step (rowAt x.table) x.calcs s
      rcases lw.shape _ _ _ _ _ _ hm with ⟨_, _, _, rfl, -, -, h1⟩ | ⟨_, _, _, rfl, -, -, h1⟩ |
        ⟨_, _, rfl, -, -, h1⟩ | ⟨c, r, w, k, rfl, hw, hc⟩
      · obtain ⟨-, rfl⟩ := hh; have := stack_bounds h1; rwa [hlen, hlw] at this
      · obtain ⟨-, rfl⟩ := hh; have := stack_bounds h1; rwa [hlen, hlw] at this
      · obtain ⟨-, rfl⟩ := hh; have := stack_bounds h1; rwa [hlen, hlw] at this
      · cases hh
    · rw [mem_finalOps] at hm
      obtain ⟨q, hq, k, rfl⟩ := hm
      cases hh
  · rw [hsz, HashTable.tableSize, HashTable.minimumRowRequire, Nat.mul_comm]
    refine Nat.mul_le_mul_left _ ?_
    have e1 : Base.hashBlockSize true (hashSpec true) = 9 := by
      simp [Base.hashBlockSize, hashSpec, Base.p128Pow5T3Compact]
    have e2 : Base.hashBlockSize false (hashSpec false) = 38 := by
      simp [Base.hashBlockSize, hashSpec, Base.p128Pow5T3, partialRounds]
    rcases hk with rfl | rfl
    · cases short
      · rw [e2]; simp [ChipKind.rows]
      · rw [e1]; simp [ChipKind.rows]
    · rw [e2]; cases k <;> simp [ChipKind.rows]

/-- `minimum_row_require()` is too small for the Pow5 chip if the crates are built with feature `short` (which
is on by default): one Pow5 region has 38 rows, and `hash_block_size()` is 9. -/
theorem C44_pow5_short (rc : List (Base.State Fr 3)) (mi : Base.Mds Fr 3) (cs : CS Fr) (w : Words Fr 3) :
    Base.hashBlockSize true (hashSpec true) <
      Layouter.shapeRows (Pow5.permuteBody (pow5Bn rc mi) (Pow5.configureChip (pow5Bn rc mi) cs).1 w 0).ops := by
  rw [Pow5.configureChip_eq, Pow5.permute_shapeRows]
  simp [Base.hashBlockSize, hashSpec, Base.p128Pow5T3Compact, Pow5.steps, pow5Bn]

-- a table of 4 rows with `calcs = 4`, in both builds
example (k : ChipKind) (short legacy : Bool) (mode : LoadMode) :
    ∃ (x : Run Fr) (L' : Layouter Fr), x.IsBn k short ∧ x.Legal ∧ x.load = .ok L' ∧
      x.calcs = x.table.tableSize ∧ x.table.tableSize = 4 := by
  obtain ⟨ch, hch, -⟩ := bnChip_lawful k
  obtain ⟨x, hxe⟩ : ∃ x, x = { demoRun ch short legacy mode 0 with
    table := ⟨[(1, 2), (3, 4), (5, 6), (7, 8)], [0, 150, 88, 26], [], []⟩, calcs := 4 } := ⟨_, rfl⟩
  have hbn : x.IsBn k short := by rw [hxe]; exact ⟨hch, rfl⟩
  have hx : x.Legal := by
    obtain ⟨h1, h2, h3, h4, h5, h6, -⟩ := demo_legal ch short legacy mode 0
    rw [hxe]
    exact ⟨h1, h2, h3, h4, h5, by norm_num, by simp⟩
  obtain ⟨L', hL⟩ := (C41_checks hbn hx).1.mpr ⟨by rw [hxe]; intro _; simp,
    by rw [hxe]; intro a m _ _ ck h; simp [rowCk] at h⟩
  exact ⟨x, L', hbn, hx, hL, by rw [hxe]; rfl, by rw [hxe]; rfl⟩

end Props
