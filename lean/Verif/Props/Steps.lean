import Verif.Props.TableApi
import Verif.Props.TableExact

/-!
# The three steps: C77

The number of units per row occurs three times: as an argument of the builder (`stream_inputs`), as an argument of
`configure_sub` (`SpongeConfig::step`) and as the const generic `STEP` of the chip. Nothing in the crate compares them.
-/

set_option linter.unusedVariables false

namespace Props
open Halo2 Circuit Circuit.Table Circuit.HashTable Base.Bn256

/-- Some accepted assignment (of a circuit with chip `k`, build `short`, `legacy`, loading mode `mode`, `STEP` of
the chip and `step` of the configuration) exposes a block with head control `c·SPEC`, the given rows (domain, word,
word) and digest `d`. -/
def ProvesWith (k : ChipKind) (short legacy : Bool) (mode : LoadMode) (STEP step c : ℕ)
    (rows : List (Fr × Fr × Fr)) (d : Fr) : Prop :=
  ∃ (x : Run Fr) (L : Layouter Fr) (post : List (Op Fr)) (g : Grid Fr), x.Accepted k short L post g ∧
    x.legacy = legacy ∧ x.mode = mode ∧ x.STEP = STEP ∧ x.step = step ∧
    ∃ s a, x.EnabledAfter g s ∧ Block x g s a (rows.length - 1) ∧
      x.col g 3 a = ((c * Base.domainSpec legacy : ℕ) : Fr) ∧ x.col g 0 a = d ∧
      blockOf x g a (rows.length - 1) = rows

private theorem spec_bounds (legacy : Bool) :
    0 < Base.domainSpec legacy ∧ Base.domainSpec legacy ≤ 2 ^ 64 := by
  cases legacy <;> norm_num [Base.domainSpec]

private theorem getElem_contTable (SPEC step i : ℕ) (D : Fr) (more : List (Fr × Fr × Fr)) :
    ∀ j (hj : j < more.length),
      ((contTable SPEC step i D more)[j]'(by rw [length_contTable]; exact hj)) 5 = 0 ∧
      ((contTable SPEC step i D more)[j]'(by rw [length_contTable]; exact hj)) 4 = more[j].1 ∧
      ((contTable SPEC step i D more)[j]'(by rw [length_contTable]; exact hj)) 1 = more[j].2.1 ∧
      ((contTable SPEC step i D more)[j]'(by rw [length_contTable]; exact hj)) 2 = more[j].2.2 := by
  induction more with
  | nil => intro j hj; simp at hj
  | cons w more ih =>
    intro j hj
    cases j with
    | zero => exact ⟨rfl, rfl, rfl, rfl⟩
    | succ j => exact ih j (by simpa using hj)

/-- **C77.** For any two steps the circuit proves "`rows` with control `c` hash to `d`" iff `d` is the sponge digest and
`c` is `step` for every row but one, plus at most `STEP` (and not 0 if there is more than one row) for the last. -/
theorem C77_provable (k : ChipKind) (short legacy : Bool) (mode : LoadMode) {STEP step c : ℕ} (hS : STEP < 2 ^ 64)
    (hst : step < 2 ^ 64) (hc : c < 2 ^ 64) (rows : List (Fr × Fr × Fr)) (hne : rows ≠ [])
    (hlen : rows.length + 1 < 2 ^ 64) (d : Fr) :
    ProvesWith k short legacy mode STEP step c rows d ↔
      (∃ i ≤ STEP, (1 < rows.length → 0 < i) ∧ c = i + (rows.length - 1) * step) ∧
        d = Spec.rowsDigest (Spec.onTriples permBn) ((c * Base.domainSpec legacy : ℕ) : Fr) rows := by
  obtain ⟨hs0, hs1⟩ := spec_bounds legacy
  have hpos : 0 < rows.length := List.length_pos_iff.mpr hne
  constructor
  · rintro ⟨x, L, post, g, h, hleg, -, hS', hst', s, a, hen, hb, hctl, hd, hrows⟩
    obtain ⟨s₁, hen₁, -, -, -, hc28, -⟩ := C28_controls h
    obtain ⟨s₂, hen₂, hdig⟩ := C26_block_digest h
    have hlt : 0 < x.calcs := by have := hb.first; have := hb.last; omega
    obtain rfl : s₁ = s := hen₁.unique h.laid.usable_le hen hlt
    obtain rfl : s₂ = s₁ := hen₂.unique h.laid.usable_le hen hlt
    obtain ⟨i, hi, hi0, hci⟩ := hc28 a _ hb
    have h0 := hci 0 (Nat.zero_le _)
    rw [Nat.add_zero, Nat.sub_zero, hctl, hleg, hst'] at h0
    obtain ⟨e, hr⟩ := h0
    have hcr : c * Base.domainSpec legacy < r :=
      lt_of_le_of_lt (Nat.mul_le_mul hc.le hs1) (by norm_num [r])
    have e' := (ZMod.natCast_eq_natCast_iff' _ _ r).mp e
    rw [Nat.mod_eq_of_lt hcr, Nat.mod_eq_of_lt hr] at e'
    have e2 := Nat.eq_of_mul_eq_mul_right hs0 e'
    refine ⟨?_, ?_⟩
    · exact ⟨i, hS' ▸ hi, fun hl => hi0 (by omega), e2⟩
    · have := (hdig a _ hb).1 0 (Nat.zero_le _)
      rw [Nat.add_zero, hd, hctl, hrows] at this
      exact this
  · rintro ⟨⟨i, hi, hi0, hci⟩, rfl⟩
    obtain ⟨m, hm⟩ : ∃ m, rows.length = m + 1 := ⟨rows.length - 1, by omega⟩
    rw [hm, Nat.add_sub_cancel] at hci
    replace hi0 : 0 < m → 0 < i := fun h => hi0 (by omega)
    obtain ⟨⟨d0, a0, b0⟩, more, rfl⟩ := List.exists_cons_of_ne_nil hne
    have hml : more.length = m := by simpa using hm
    obtain ⟨D, hD⟩ : ∃ D, D = Spec.rowsDigest (Spec.onTriples permBn) ((c * Base.domainSpec legacy : ℕ) : Fr)
      ((d0, a0, b0) :: more) := ⟨_, rfl⟩
    obtain ⟨T, hT⟩ : ∃ T, T = blockTable (Base.domainSpec legacy) step i D d0 a0 b0 more ++ [![0, 0, 0, 0, 0, 1]] :=
      ⟨_, rfl⟩
    have hlT : T.length = m + 2 := by rw [hT]; simp [blockTable, length_contTable, hml]
    have hv : ValidTable STEP step (Base.domainSpec legacy) T := by
      rw [hT, hD, hci, ← hml]
      exact ValidTable.block i d0 a0 b0 more _ hi
        (fun h => hi0 (by rw [← hml]; exact List.length_pos_iff.mpr h)) (ValidTable.last 0 0)
    obtain ⟨x, L', post, g, s, hac, hxl, hxm, hxS, hxs, hen, hxc, hcol⟩ :=
      (C60_exists k short legacy mode hS hst T (by omega) (by rw [hT]; simp)).mpr hv
    rw [hlT] at hxc
    -- the rows of the block
    have hhead : ∀ i, x.col g i (s + 1) = (![D, a0, b0, ((c * Base.domainSpec legacy : ℕ) : Fr), d0, 1] : Fin 6 → Fr) i := by
      intro j
      have := hcol 0 (by omega) j
      rw [Nat.add_zero] at this
      rw [this, List.getElem_of_eq hT]
      simp only [blockTable, List.cons_append]
      rw [hml, ← hci]
      rfl
    have hcont : ∀ j (hj : j < m), x.col g 5 (s + j + 2) = 0 ∧
        (x.col g 4 (s + j + 2), x.col g 1 (s + j + 2), x.col g 2 (s + j + 2)) = more[j] := by
      intro j hj
      have e := fun q => hcol (j + 1) (by omega) q
      have hT' : T[j + 1]'(by omega) = (contTable (Base.domainSpec legacy) step i D more)[j]'(by
          rw [length_contTable]; omega) := by
        rw [List.getElem_of_eq hT]
        simp only [blockTable, List.cons_append, List.getElem_cons_succ]
        rw [List.getElem_append_left]
      obtain ⟨h1, h2, h3, h4⟩ := getElem_contTable (Base.domainSpec legacy) step i D more j (by omega)
      refine ⟨?_, ?_⟩
      · rw [show s + j + 2 = s + (j + 1) + 1 by omega, e, hT', h1]
      · rw [show s + j + 2 = s + (j + 1) + 1 by omega, e, e, e, hT', h2, h3, h4]
    have hlast : x.col g 5 (s + m + 2) = 1 := by
      have := hcol (m + 1) (by omega) 5
      rw [show s + m + 2 = s + (m + 1) + 1 by omega, this, List.getElem_of_eq hT,
        List.getElem_append_right (by simp [blockTable, length_contTable, hml])]
      rw [List.getElem_singleton]
      rfl
    have hblock : Block x g s (s + 1) m := by
      refine ⟨by omega, by omega, hhead 5, fun j h0 hj => ?_, ?_⟩
      · have := (hcont (j - 1) (by omega)).1
        rw [show s + 1 + j = s + (j - 1) + 2 by omega]
        exact this
      · rw [show s + 1 + m + 1 = s + m + 2 by omega]
        exact hlast
    have hlen1 : ((d0, a0, b0) :: more).length - 1 = m := by rw [hm]; rfl
    refine ⟨x, L', post, g, hac, hxl, hxm, hxS, hxs, s, s + 1, hen, ?_, hhead 3, ?_, ?_⟩
    · rw [hlen1]; exact hblock
    · rw [← hD]; exact hhead 0
    · rw [hlen1]
      unfold blockOf
      refine List.ext_getElem (by rw [List.length_map, List.length_range, hm]) fun j h1 h2 => ?_
      rw [List.getElem_map, List.getElem_range]
      cases j with
      | zero =>
        rw [List.getElem_cons_zero, Nat.add_zero]
        exact Prod.ext (hhead 4) (Prod.ext (hhead 1) (hhead 2))
      | succ j =>
        rw [List.getElem_cons_succ, ← (hcont j (by simp at h1; omega)).2]
        rw [show s + 1 + (j + 1) = s + j + 2 by omega]


-- 150 units in three rows of step 62, also with a larger `STEP`
example : (∃ i ≤ 100, (1 < 3 → 0 < i) ∧ 150 = i + (3 - 1) * 62) ∧ (100 < 2 ^ 64 ∧ 62 < 2 ^ 64 ∧ 150 < 2 ^ 64) :=
  ⟨⟨26, by norm_num, fun _ => by norm_num, by norm_num⟩, by norm_num⟩

/-- Some block of `n` rows with control `c` is provable. -/
def LengthInRows (k : ChipKind) (short legacy : Bool) (mode : LoadMode) (STEP step c n : ℕ) : Prop :=
  ∃ rows d, rows ≠ [] ∧ rows.length = n ∧ ProvesWith k short legacy mode STEP step c rows d

private theorem lengthInRows_iff (k : ChipKind) (short legacy : Bool) (mode : LoadMode) {STEP step c n : ℕ} (hS : STEP < 2 ^ 64)
    (hst : step < 2 ^ 64) (hc : c < 2 ^ 64) :
    LengthInRows k short legacy mode STEP step c n ↔
      0 < n ∧ n + 1 < 2 ^ 64 ∧ ∃ i ≤ STEP, (1 < n → 0 < i) ∧ c = i + (n - 1) * step := by
  constructor
  · rintro ⟨rows, d, hne, rfl, h⟩
    have hpos := List.length_pos_iff.mpr hne
    have hlen : rows.length + 1 < 2 ^ 64 := by
      obtain ⟨x, L, post, g, hac, -, -, -, -, s, a, -, hb, -⟩ := h
      have := hac.legal.calcs_lt
      have := hb.first
      have := hb.last
      omega
    exact ⟨hpos, hlen, ((C77_provable k short legacy mode hS hst hc rows hne hlen d).mp h).1⟩
  · rintro ⟨h0, h1, h⟩
    have hne : List.replicate n ((0, 0, 0) : Fr × Fr × Fr) ≠ [] := by
      intro e
      have := congrArg List.length e
      simp at this
      omega
    refine ⟨List.replicate n (0, 0, 0), _, hne, by simp, (C77_provable k short legacy mode hS hst hc _ hne (by simpa using h1)
      _).mpr ⟨by simpa using h, rfl⟩⟩

/-- C77 for the number of rows: every length can be proved iff `STEP` is not smaller than `step`, and every length has
only one number of rows iff it is not larger. -/
theorem C77_rows (k : ChipKind) (short legacy : Bool) (mode : LoadMode) {STEP step : ℕ} (hS : STEP < 2 ^ 63)
    (h0 : 0 < step) (hst : step < 2 ^ 63) :
    ((∀ c < 2 ^ 63, ∃ n, LengthInRows k short legacy mode STEP step c n) ↔ step ≤ STEP) ∧
    ((∀ c < 2 ^ 63, ∀ n n', LengthInRows k short legacy mode STEP step c n → LengthInRows k short legacy mode STEP step c n' →
      n = n') ↔ STEP ≤ step) := by
  have key : ∀ c < 2 ^ 63, ∀ n, LengthInRows k short legacy mode STEP step c n ↔
      0 < n ∧ n + 1 < 2 ^ 64 ∧ ∃ i ≤ STEP, (1 < n → 0 < i) ∧ c = i + (n - 1) * step := fun c hc n =>
    lengthInRows_iff k short legacy mode (by omega) (by omega) (by omega)
  refine ⟨⟨fun h => ?_, fun h c hc => ?_⟩, ⟨fun h => ?_, fun h c hc n n' h1 h2 => ?_⟩⟩
  · by_contra hlt
    obtain ⟨n, hn⟩ := h (STEP + 1) (by omega)
    obtain ⟨hn0, -, i, hi, hi0, e⟩ := (key _ (by omega) _).mp hn
    rcases Nat.lt_or_ge 1 n with h1 | h1
    · have := hi0 h1
      have : 1 * step ≤ (n - 1) * step := Nat.mul_le_mul_right _ (by omega)
      omega
    · obtain rfl : n = 1 := by omega
      omega
  · refine ⟨(c - 1) / step + 1, (key c hc _).mpr ⟨Nat.succ_pos _, ?_, c - (c - 1) / step * step, ?_, fun h1 => ?_, ?_⟩⟩
    · have : (c - 1) / step ≤ c - 1 := Nat.div_le_self ..
      omega
    all_goals
      have hd := Nat.div_add_mod (c - 1) step
      have hm := Nat.mod_lt (c - 1) h0
      rw [Nat.mul_comm] at hd
    · omega
    · have : 0 < (c - 1) / step := by omega
      have := Nat.div_le_self (c - 1) step
      omega
    · rw [Nat.add_sub_cancel]
      omega
  · by_contra hlt
    have e1 := (key STEP hS 1).mpr ⟨by omega, by norm_num, STEP, le_rfl, by omega, by omega⟩
    have e2 := (key STEP hS 2).mpr ⟨by omega, by norm_num, STEP - step, by omega, by omega, by omega⟩
    have := h STEP hS 1 2 e1 e2
    omega
  · obtain ⟨n0, -, i, hi, hi0, e⟩ := (key c hc n).mp h1
    obtain ⟨n0', -, i', hi', hi0', e'⟩ := (key c hc n').mp h2
    rw [e] at e'
    by_contra hne
    wlog hlt : n < n' generalizing n n' i i'
    · exact this n' n h2 h1 n0' i' hi' hi0' (e.trans e') n0 i hi hi0 e'.symm (Ne.symm hne) (by omega)
    have := hi0' (by omega)
    have e3 : (n' - 1) * step = (n - 1) * step + (n' - n) * step := by
      rw [← Nat.add_mul]; congr 1; omega
    have : 1 * step ≤ (n' - n) * step := Nat.mul_le_mul_right _ (by omega)
    omega

-- with `STEP = 63` and `step = 62` the length 63 fits one row and two rows
example (k : ChipKind) (short legacy : Bool) (mode : LoadMode) : LengthInRows k short legacy mode 63 62 63 1 ∧
    LengthInRows k short legacy mode 63 62 63 2 :=
  ⟨(lengthInRows_iff k short legacy mode (by norm_num) (by norm_num) (by norm_num)).mpr
      ⟨by norm_num, by norm_num, 63, le_rfl, by norm_num, by norm_num⟩,
    (lengthInRows_iff k short legacy mode (by norm_num) (by norm_num) (by norm_num)).mpr
      ⟨by norm_num, by norm_num, 1, by norm_num, by norm_num, by norm_num⟩⟩

/-- The rows of a table with one stream. -/
private theorem stream_rows {t : HashTable Fr} {src : List (Fr × Fr)} {c K : ℕ} (hK : 0 < K)
    (hlen : src.length = max 1 ((c + K - 1) / K)) (ht : HashTable.empty.streamInputs src c K = .ok t) (j : ℕ) :
    (rowWords t j = src.getD j (0, 0)) ∧ (rowCtl t j = if j < src.length then c - j * K else 0) ∧ rowDom t j = 0 ∧
      rowCk t j = none := by
  obtain ⟨-, h⟩ := run_data (legacy := false) (STEP := K) hK (.streamInputs src c K) aligned_empty ht rfl (by
    simp only [jobs, List.mem_singleton]
    rintro b rfl
    exact ⟨hlen, fun _ => rfl, fun ck h => by simp at h⟩)
  have h := h j
  simp only [HashTable.empty, List.length_nil, Nat.not_lt_zero, if_false, Nat.sub_zero, jobs, List.flatMap_cons,
    List.flatMap_nil, List.append_nil] at h
  by_cases hj : j < src.length
  · rw [List.getD_eq_getElem _ _ (by rw [Job.length_rows]; exact hj)] at h
    simp only [Job.rows, List.getElem_map, List.getElem_range, Job.row, dataAt, Prod.mk.injEq] at h
    refine ⟨h.1, by rw [h.2.1, if_pos hj], ?_, ?_⟩
    · rw [h.2.2.1]; split <;> rfl
    · rw [h.2.2.2]; split <;> rfl
  · rw [List.getD_eq_default _ _ (by rw [Job.length_rows]; simpa using hj)] at h
    simp only [emptyRow, dataAt, Prod.mk.injEq] at h
    refine ⟨?_, by rw [h.2.1, if_neg hj], h.2.2.1, h.2.2.2⟩
    rw [h.1, List.getD_eq_default _ _ (by omega)]

/-- C77 for a `STEP` that is too large: a message whose length is at most `STEP` but takes several rows in the builder is
accepted, and every row is exposed as a block of its own, with the digest of its two words. -/
theorem C77_split {x : Run Fr} {k : ChipKind} {short : Bool} (hbn : x.IsBn k short) (hx : x.Legal)
    {src : List (Fr × Fr)} {c K : ℕ} (hK : 0 < K) (hlen : src.length = max 1 ((c + K - 1) / K)) (hc : c ≤ x.STEP)
    (ht : HashTable.empty.streamInputs src c K = .ok x.table) (hcalcs : src.length < x.calcs) :
    ∃ L', x.load = .ok L' ∧ ∀ post g, x.Honest L' post g → x.Accepted k short L' post g ∧
      ∃ s, x.EnabledAfter g s ∧ ∀ i (hi : i < src.length), x.col g 5 (s + i + 1) = 1 ∧
        x.col g 3 (s + i + 1) = (((c - i * K) * Base.domainSpec x.legacy : ℕ) : Fr) ∧
        x.col g 0 (s + i + 1) = Spec.spongeHash (Spec.onTriples permBn)
          (((c - i * K) * Base.domainSpec x.legacy : ℕ) : Fr) [src[i].1, src[i].2] := by
  have hrow := stream_rows hK hlen ht
  have hctl : ∀ j, rowCtl x.table j ≤ x.STEP := fun j => by
    rw [(hrow j).2.1]
    split <;> omega
  have hinp : x.table.inputs.length = src.length ∧ x.table.controls.length = src.length := by
    obtain ⟨-, h2, e⟩ := streamInputs_ok ht
    have hi : x.table.inputs.length = src.length := by rw [e]; simp [HashTable.empty]
    have h2' := h2
    rw [e] at h2'
    simp only [HashTable.empty, List.nil_append] at h2'
    exact ⟨hi, by rw [e]; simpa [HashTable.empty] using h2'.symm⟩
  obtain ⟨L', hL, hacc⟩ := C31_complete hbn hx (fun _ => ⟨by omega, by omega⟩)
    (fun a m _ _ ck h => by rw [(hrow _).2.2.2] at h; cases h)
    ⟨fun j _ h => absurd (hctl j) (by omega), fun j hj => by
      obtain ⟨h1, h2, -⟩ := hrow j
      rw [h1, h2, if_neg (by omega), List.getD_eq_default _ _ (by omega)]
      exact ⟨rfl, rfl⟩⟩
  refine ⟨L', hL, fun post g hg => ⟨hacc post g hg, ?_⟩⟩
  obtain ⟨⟨lw, -⟩, hn⟩ := hbn.lawful
  obtain ⟨s, hen, -, hv, -⟩ := Run.honest_iff lw fr_big hx hn (Or.inl hL) hg
  refine ⟨s, hen, fun i hi => ?_⟩
  obtain ⟨r1, r2, r3, -⟩ := hrow i
  rw [if_pos hi] at r2
  have hst : i = 0 ∨ ctl (rowAt x.table) (i - 1) ≤ x.STEP := Or.inr (by rw [← rowCtl_eq]; exact hctl _)
  refine ⟨?_, ?_, ?_⟩
  · have h := hv.head i (by omega)
    rw [if_pos ((seq_isNew ..).mpr hst)] at h
    exact h
  · have h := hv.ctrl i (by omega)
    rw [← rowCtl_eq, specFlag_small (rowCtl_lt hx _), r2] at h
    exact h
  · have h := hv.block i 0 hst (by omega) (by rw [← rowCtl_eq]; exact hctl _) (by omega) 0 le_rfl (by omega)
    rw [← prefixDigest_eq _ _ _ _ (rowCtl_lt hx _)] at h
    refine h.trans ?_
    simp only [prefixDigest, r1, r2, r3, List.range_zero, List.map_nil, Spec.rowsDigest, Spec.spongeHash,
      Spec.absorbRows, Spec.absorbPairs, List.getD_eq_getElem _ _ hi, add_zero]

-- 63 units in two rows of 62, in a circuit with `STEP = 64`
example (k : ChipKind) (short legacy : Bool) (mode : LoadMode) : ∃ x : Run Fr, x.IsBn k short ∧ x.Legal ∧
    [((1, 2) : Fr × Fr), (3, 4)].length = max 1 ((63 + 62 - 1) / 62) ∧ 63 ≤ x.STEP ∧ x.step = 62 ∧
    HashTable.empty.streamInputs [((1, 2) : Fr × Fr), (3, 4)] 63 62 = .ok x.table ∧ 2 < x.calcs := by
  obtain ⟨ch, hch, -⟩ := bnChip_lawful k
  have ht : HashTable.empty.streamInputs [((1, 2) : Fr × Fr), (3, 4)] 63 62 =
      .ok ⟨[(1, 2), (3, 4)], [63, 1], [none, none], [none, none]⟩ := rfl
  exact ⟨{ demoRun ch short legacy mode 0 with
      STEP := 64, table := ⟨[(1, 2), (3, 4)], [63, 1], [none, none], [none, none]⟩ },
    ⟨hch, rfl⟩, ⟨fun i => i.isLt, fun i j h => Fin.ext h, by simp [demoRun], by norm_num, by norm_num [demoRun],
      by norm_num [demoRun], by simp⟩, rfl, by norm_num, rfl, ht, by norm_num [demoRun]⟩

/-- Whoever builds a table of one message, with step `K` in the builder, has it accepted and exposed as one block with
the digest of the message. -/
def ServesStep (k : ChipKind) (short legacy : Bool) (mode : LoadMode) (STEP step K : ℕ) : Prop :=
  ∀ (x : Run Fr) (src : List (Fr × Fr)) (c : ℕ), x.IsBn k short → x.Legal → x.legacy = legacy → x.mode = mode →
    x.STEP = STEP → x.step = step → src.length = max 1 ((c + K - 1) / K) →
    HashTable.empty.streamInputs src c K = .ok x.table → src.length < x.calcs →
    ∃ L', x.load = .ok L' ∧ ∀ post g, x.Honest L' post g → x.Accepted k short L' post g ∧
      ∃ s, x.EnabledAfter g s ∧ ∀ i < src.length,
        x.col g 0 (s + i + 1) = Spec.spongeHash (Spec.onTriples permBn) ((c * Base.domainSpec legacy : ℕ) : Fr)
          (src.flatMap fun w => [w.1, w.2]) ∧
        x.col g 5 (s + i + 1) = if i = 0 then 1 else 0

/-- A run of its own with one message. -/
private theorem stream_run (k : ChipKind) (short legacy : Bool) (mode : LoadMode) {STEP step : ℕ} (hS : STEP < 2 ^ 64)
    (hst : step < 2 ^ 64) {src : List (Fr × Fr)} {c K : ℕ} {t : HashTable Fr}
    (ht : HashTable.empty.streamInputs src c K = .ok t) (htc : ∀ d ∈ t.controls, d < 2 ^ 64) (hn : src.length + 1 < 2 ^ 64) :
    ∃ x : Run Fr, x.IsBn k short ∧ x.Legal ∧ x.legacy = legacy ∧ x.mode = mode ∧ x.STEP = STEP ∧ x.step = step ∧
      x.table = t ∧ x.calcs = src.length + 1 ∧ x.before.ops = [] := by
  obtain ⟨ch, hch, -⟩ := bnChip_lawful k
  refine ⟨{ demoRun ch short legacy mode 0 with STEP := STEP, step := step, table := t, calcs := src.length + 1 },
    ⟨hch, rfl⟩, ⟨fun i => i.isLt, fun i j h => Fin.ext h, by simp [demoRun], hS, hst, hn, htc⟩, rfl, rfl, rfl, rfl, rfl, rfl, rfl⟩

/-- C77: the circuit serves all messages built with step `K` iff all three steps are equal. -/
theorem C77_steps (k : ChipKind) (short legacy : Bool) (mode : LoadMode) {STEP step K : ℕ} (hS : STEP < 2 ^ 64)
    (hst : step < 2 ^ 64) (hK : 0 < K) (hK' : K < 2 ^ 63) :
    ServesStep k short legacy mode STEP step K ↔ STEP = K ∧ step = K := by
  constructor
  · intro h
    have hle : K ≤ STEP := by
      by_contra hlt
      have ht : HashTable.empty.streamInputs [((0, 0) : Fr × Fr)] K K = .ok ⟨[(0, 0)], [K], [none], [none]⟩ := by
        simp [streamInputs, streamInputsWithCheck, successorsTake, HashTable.empty, resize]
      obtain ⟨x, hbn, hx, hl, hm, e1, e2, e3, e4, hb⟩ := stream_run k short legacy mode hS hst ht (by simp; omega) (by simp)
      obtain ⟨L', hL, hacc⟩ := h x _ _ hbn hx hl hm e1 e2 (by
        rw [show K + K - 1 = K * 1 + (K - 1) by omega, Nat.mul_add_div hK, Nat.div_eq_of_lt (by omega)]; simp)
        (e3 ▸ ht) (by omega)
      obtain ⟨g, hg⟩ := Run.exists_honest (x := x) (L' := L') hb
      refine C32_rejected (k := k) (short := short) hbn hx (Or.inl hL) hg (Or.inl ⟨0, ?_, ?_, Or.inr ?_⟩) (hacc [] g hg).1.sat
      · rw [e4]; simp
      · rw [e3, e1]; simp [rowCtl]; omega
      · rw [e3]; simp [rowCtl]
    have hge : STEP ≤ K := by
      by_contra hlt
      have hser : successorsTake (nextControl K) 2 (some (K + 1)) = [K + 1, 1] := by
        simp [successorsTake, nextControl]
      have ht : HashTable.empty.streamInputs [((0, 0) : Fr × Fr), (0, 0)] (K + 1) K =
          .ok ⟨[(0, 0), (0, 0)], [K + 1, 1], [none, none], [none, none]⟩ := by
        simp [streamInputs, streamInputsWithCheck, hser, HashTable.empty, resize]
      have hlen : [((0, 0) : Fr × Fr), (0, 0)].length = max 1 ((K + 1 + K - 1) / K) := by
        rw [show K + 1 + K - 1 = K * 2 by omega, Nat.mul_div_cancel_left _ hK]; simp
      obtain ⟨x, hbn, hx, hl, hm, e1, e2, e3, e4, hb⟩ := stream_run k short legacy mode hS hst ht (by simp; omega) (by simp)
      obtain ⟨L', hL, hacc⟩ := h x _ _ hbn hx hl hm e1 e2 hlen (e3 ▸ ht) (by omega)
      obtain ⟨L₁, hL₁, hspl⟩ := C77_split hbn hx hK hlen (by omega) (e3 ▸ ht) (by omega)
      obtain rfl : L' = L₁ := Except.ok.inj (hL.symm.trans hL₁)
      obtain ⟨g, hg⟩ := Run.exists_honest (x := x) (L' := L') hb
      obtain ⟨-, s, hen, h1⟩ := hacc [] g hg
      obtain ⟨hac, s₁, hen₁, h2⟩ := hspl [] g hg
      obtain rfl : s₁ = s := hen₁.unique hac.laid.usable_le hen (by omega)
      have a1 := (h1 1 (by simp)).2
      have a2 := (h2 1 (by simp)).1
      rw [a2, if_neg (by norm_num)] at a1
      exact one_ne_zero a1
    obtain rfl : STEP = K := by omega
    refine ⟨rfl, ?_⟩
    have hser : successorsTake (nextControl STEP) 2 (some (2 * STEP)) = [2 * STEP, STEP] := by
      simp only [successorsTake, nextControl]
      rw [if_pos (by omega)]
      simp only [successorsTake]
      rw [show 2 * STEP - STEP = STEP by omega]
    have ht : HashTable.empty.streamInputs [((0, 0) : Fr × Fr), (0, 0)] (2 * STEP) STEP =
        .ok ⟨[(0, 0), (0, 0)], [2 * STEP, STEP], [none, none], [none, none]⟩ := by
      simp [streamInputs, streamInputsWithCheck, hser, HashTable.empty, resize]
    have hlen : [((0, 0) : Fr × Fr), (0, 0)].length = max 1 ((2 * STEP + STEP - 1) / STEP) := by
      rw [show 2 * STEP + STEP - 1 = STEP * 2 + (STEP - 1) by omega, Nat.mul_add_div hK, Nat.div_eq_of_lt (by omega)]
      simp
    obtain ⟨x, hbn, hx, hl, hm, e1, e2, e3, e4, hb⟩ := stream_run k short legacy mode hS hst ht (by simp; omega) (by simp)
    obtain ⟨L', hL, hacc⟩ := h x _ _ hbn hx hl hm e1 e2 hlen (e3 ▸ ht) (by omega)
    obtain ⟨g, hg⟩ := Run.exists_honest (x := x) (L' := L') hb
    have := (C32_only_complete (hacc [] g hg).1 hg).next 0 (by rw [e4]; simp) (by rw [e3, e1]; simp [rowCtl]; omega)
    rw [e3, e2] at this
    simp [rowCtl] at this
    omega
  · rintro ⟨rfl, rfl⟩ x src c hbn hx hl hm e1 e2 hlen ht hcalcs
    obtain ⟨L', hL, h⟩ := C33_api hbn hx (by omega) (by omega) [.streamInputs src c step]
      (by simp only [runCalls, Call.run, ht]; rfl) (by simp [StepOK, e1]) (by
        simp only [List.flatMap_cons, List.flatMap_nil, List.append_nil, jobs, List.mem_singleton]
        rintro b rfl
        exact ⟨by rw [e1]; exact hlen, fun _ => rfl, fun ck h => by simp at h⟩) (by
        obtain ⟨-, -, e⟩ := streamInputs_ok ht
        rw [e]
        simpa [HashTable.tableSize, HashTable.empty] using hcalcs)
    refine ⟨L', hL, fun post g hg => ?_⟩
    obtain ⟨hac, s, hen, -, hj⟩ := h post g hg
    refine ⟨hac, s, hen, fun i hi => ?_⟩
    obtain ⟨h0, -, -, -, h5⟩ := hj [] ⟨src, c, 0, none⟩ [] rfl i hi (s + i + 1) (by simp; omega)
    refine ⟨?_, h5⟩
    rw [h0, Job.digest, add_zero, hl]
    rfl

-- the default step everywhere, and two mixtures with the step of the tests
example (k : ChipKind) (short legacy : Bool) (mode : LoadMode) : ServesStep k short legacy mode 62 62 62 ∧
    ¬ ServesStep k short legacy mode 62 32 32 ∧ ¬ ServesStep k short legacy mode 32 62 62 := by
  simp [C77_steps]

end Props
