import Verif.Circuit.TableDigest
import Verif.Props.TableSound

/-!
# Loading of the hash table: C31, C32, C34, C35, C36, C37, C41
-/

set_option linter.unusedVariables false

namespace Props
open Halo2 Circuit Circuit.Table Base.Bn256

/-! ## Rows of a table -/

/-- Control, words, domain and check of row `j` of a table; missing entries count as zero. -/
def rowCtl (t : HashTable Fr) (j : ℕ) : ℕ := t.controls.getD j 0
def rowWords (t : HashTable Fr) (j : ℕ) : Fr × Fr := t.inputs.getD j (0, 0)
def rowDom (t : HashTable Fr) (j : ℕ) : Fr := (t.domain.getD j none).getD 0
def rowCk (t : HashTable Fr) (j : ℕ) : Option Fr := t.checks.getD j none

theorem rowCtl_eq (t : HashTable Fr) (j : ℕ) : rowCtl t j = ctl (rowAt t) j := by
  simp [rowCtl, ctl, rowAt, List.getD_eq_getElem?_getD]
theorem rowWords_eq (t : HashTable Fr) (j : ℕ) : rowWords t j = (rowAt t j).inp.getD (0, 0) := by
  simp [rowWords, rowAt, List.getD_eq_getElem?_getD]
theorem rowDom_eq (t : HashTable Fr) (j : ℕ) : rowDom t j = (rowAt t j).domain.getD 0 := by
  simp only [rowDom, rowAt, List.getD_eq_getElem?_getD]
  cases t.domain[j]? <;> rfl
theorem rowCk_eq (t : HashTable Fr) (j : ℕ) : rowCk t j = (rowAt t j).check := by
  simp only [rowCk, rowAt, List.getD_eq_getElem?_getD]
  cases t.checks[j]? <;> rfl

/-- Rows `a, ..., a + m` (counted from 0) are the first rows of a block: row `a` is the first row of the
table or follows a row whose control does not exceed `STEP`, and the controls of all rows but the last
one exceed `STEP`. -/
def Prefix (STEP : ℕ) (t : HashTable Fr) (a m : ℕ) : Prop :=
  (a = 0 ∨ rowCtl t (a - 1) ≤ STEP) ∧ ∀ i < m, STEP < rowCtl t (a + i)

/-- Digest of the rows `a, ..., a + m`: the sponge is started with the control of row `a` times
`2^64` (1 in the `legacy` build) and absorbs the domain of row `a` and the words of all rows. -/
noncomputable def prefixDigest (legacy : Bool) (t : HashTable Fr) (a m : ℕ) : Fr :=
  Spec.rowsDigest (Spec.onTriples permBn) ((rowCtl t a * Base.domainSpec legacy : ℕ) : Fr)
    ((rowDom t a, rowWords t a) :: (List.range m).map fun i => (0, rowWords t (a + i + 1)))

/-- The checks of the first `n` rows agree with the digests of the block up to their row. -/
def ChecksMatch (legacy : Bool) (STEP : ℕ) (t : HashTable Fr) (n : ℕ) : Prop :=
  ∀ a m, a + m < n → Prefix STEP t a m → ∀ ck, rowCk t (a + m) = some ck → ck = prefixDigest legacy t a m

theorem prefix_iff (STEP : ℕ) (t : HashTable Fr) (a m : ℕ) : Prefix STEP t a m ↔
    (a = 0 ∨ ctl (rowAt t) (a - 1) ≤ STEP) ∧ ∀ i < m, STEP < ctl (rowAt t) (a + i) := by
  simp only [Prefix, rowCtl_eq]

theorem prefixDigest_eq (legacy : Bool) (t : HashTable Fr) (a m : ℕ) (h : rowCtl t a < 2 ^ 64) :
    prefixDigest legacy t a m = Spec.rowsDigest (Spec.onTriples specPerm)
      (specFlag legacy (ctl (rowAt t) a)) (absorbed (rowAt t) a m) := by
  rw [← rowCtl_eq, specFlag_small h]
  unfold prefixDigest absorbed
  simp only [rowWords_eq, rowDom_eq]
  rfl

theorem rowCtl_lt {x : Run Fr} (h : x.Legal) (j : ℕ) : rowCtl x.table j < 2 ^ 64 := by
  rw [rowCtl_eq]; exact Run.ctl_lt h j

theorem checksMatch_iff {x : Run Fr} (h : x.Legal) : ChecksMatch x.legacy x.STEP x.table x.calcs ↔
    AllChecks x.legacy x.STEP specPerm (rowData x.table x.calcs) := by
  rw [rowData_eq, allChecks_digest]
  simp only [ChecksMatch, prefix_iff, rowCk_eq]
  constructor
  · intro h' a m h1 h2 h3 ck hck
    rw [h' a m h1 ⟨h2, h3⟩ ck hck, prefixDigest_eq _ _ _ _ (rowCtl_lt h a)]
  · intro h' a m h1 h2 ck hck
    rw [h' a m h1 h2.1 h2.2 ck hck, prefixDigest_eq _ _ _ _ (rowCtl_lt h a)]

/-- The vectors of the table are not longer than `calcs`; only the serial mode asks for this. -/
def FitsCalcs (x : Run Fr) : Prop :=
  x.mode = .serial → x.table.inputs.length ≤ x.calcs ∧ x.table.controls.length ≤ x.calcs

theorem fitsCalcs_iff (x : Run Fr) : FitsCalcs x ↔ Capacity x.table x.calcs x.mode := by
  unfold FitsCalcs
  cases x.mode with
  | serial => simp [Capacity]
  | parallel => simp [Capacity]

/-! ## C37, C41: when `load` panics -/

/-- **C41.** `load` succeeds iff the capacity check passes (serial mode only) and every check equals the
digest of its block up to its row; if the capacity check passes and some check differs, it panics with
a check mismatch. For the last row of a block with zero domain, head control `c` and fewer than `2^63`
rows, the digest is `hash_msg(words of the block, Some(c·SPEC))`; for a block of one row with control 0
it is `hash_with_domain(words, domain)`. -/
theorem C41_checks {x : Run Fr} {k : ChipKind} {short : Bool} (hbn : x.IsBn k short) (hx : x.Legal) :
    ((∃ L', x.load = .ok L') ↔ FitsCalcs x ∧ ChecksMatch x.legacy x.STEP x.table x.calcs) ∧
    (FitsCalcs x → ¬ ChecksMatch x.legacy x.STEP x.table x.calcs → x.load = .error .checkMismatch) ∧
    (∀ a m, rowDom x.table a = 0 → 2 * (m + 1) < 2 ^ 64 →
      hashMsgFr short x.legacy ((List.range (m + 1)).flatMap fun i =>
        [(rowWords x.table (a + i)).1, (rowWords x.table (a + i)).2])
        (some (rowCtl x.table a * Base.domainSpec x.legacy)) = .ok (prefixDigest x.legacy x.table a m)) ∧
    (∀ a, rowCtl x.table a = 0 →
      hashWithDomainFr short ![(rowWords x.table a).1, (rowWords x.table a).2] (rowDom x.table a) =
        .ok (prefixDigest x.legacy x.table a 0)) := by
  obtain ⟨⟨lw, -⟩, hn⟩ := hbn.lawful
  obtain ⟨h1, h2, -⟩ := Run.load_iff lw hx hn
  rw [← checksMatch_iff hx, ← fitsCalcs_iff] at h1
  refine ⟨h1, fun hc hk => ?_, fun a m hd hm => ?_, fun a h0 => ?_⟩
  · cases hl : x.load with
    | ok L' => exact absurd (h1.mp ⟨L', hl⟩).2 hk
    | error e =>
      rcases h2 e hl with ⟨-, h⟩ | ⟨rfl, -⟩
      · rw [← fitsCalcs_iff] at h; exact absurd hc h
      · rfl
  · have hne : (List.range (m + 1)).flatMap (fun i =>
        [(rowWords x.table (a + i)).1, (rowWords x.table (a + i)).2]) ≠ [] := by
      rw [List.range_succ]
      simp
    have hlen : ((List.range (m + 1)).flatMap (fun i =>
        [(rowWords x.table (a + i)).1, (rowWords x.table (a + i)).2])).length = 2 * (m + 1) := by
      generalize m + 1 = n
      induction n with
      | zero => rfl
      | succ n ih =>
        rw [List.range_succ, List.flatMap_append, List.length_append, ih]
        simp; ring
    rw [(C04_C05_bn254 short x.legacy).2 _ _ hne (by rw [hlen]; exact hm), Option.getD_some]
    refine congrArg Except.ok ?_
    have e : ((rowDom x.table a, rowWords x.table a) :: (List.range m).map fun i =>
        ((0 : Fr), rowWords x.table (a + i + 1))) = (List.range' 0 (m + 1)).map fun i =>
          (0, (rowWords x.table (a + i)).1, (rowWords x.table (a + i)).2) := by
      rw [← List.range_eq_range', List.range_succ_eq_map, List.map_cons, List.map_map, hd]
      rfl
    rw [prefixDigest, e, Spec.rowsDigest, absorbRows_zero _ (fun i => rowWords x.table (a + i)), Spec.spongeHash,
      List.range_eq_range']
  · refine ((C04_C05_bn254 short x.legacy).1 _ _ _).trans (congrArg Except.ok ?_)
    simp only [prefixDigest, h0, List.range_zero, List.map_nil, Spec.rowsDigest, Spec.absorbRows,
      Spec.onTriples, zero_add, Nat.zero_mul, Nat.cast_zero]

-- one row with domain 7 and check `c`: `load` succeeds iff `c` is the hash of the row
example (k : ChipKind) (short legacy : Bool) (mode : LoadMode) (c : Fr) :
    ∃ x : Run Fr, x.IsBn k short ∧ x.Legal ∧ x.table = ⟨[(1, 2)], [0], [some 7], [some c]⟩ ∧
      ((∃ L', x.load = .ok L') ↔ hashWithDomainFr short ![1, 2] 7 = .ok c) := by
  obtain ⟨ch, hch, -⟩ := bnChip_lawful k
  obtain ⟨x, hxe⟩ : ∃ x, x = (demoRun ch short legacy mode 0).reload ⟨[(1, 2)], [0], [some 7], [some c]⟩ mode :=
    ⟨_, rfl⟩
  have hbn : x.IsBn k short := by rw [hxe]; exact ⟨hch, rfl⟩
  have hx : x.Legal := by
    obtain ⟨h1, h2, h3, h4, h5, h6, -⟩ := demo_legal ch short legacy mode 0
    rw [hxe]
    exact ⟨h1, h2, h3, h4, h5, h6, by simp [Run.reload]⟩
  have ht : x.table = ⟨[(1, 2)], [0], [some 7], [some c]⟩ := by rw [hxe]; rfl
  have hcalcs : x.calcs = 6 := by rw [hxe]; rfl
  refine ⟨x, hbn, hx, ht, ?_⟩
  obtain ⟨h1, -, -, h4⟩ := C41_checks hbn hx
  have h4 := h4 0 (by rw [ht]; rfl)
  have e : hashWithDomainFr short ![1, 2] 7 = .ok (prefixDigest x.legacy x.table 0 0) := by
    rw [ht] at h4 ⊢; exact h4
  rw [h1, e]
  constructor
  · rintro ⟨-, hc⟩
    rw [← hc 0 0 (by omega) ⟨Or.inl rfl, fun i h => by omega⟩ c (by rw [ht]; rfl)]
  · intro h
    injection h with h
    refine ⟨fun _ => by rw [ht, hcalcs]; exact ⟨by norm_num, by norm_num⟩, fun a m hlt hp ck hck => ?_⟩
    rw [ht] at hck
    have h0 : a + m = 0 := by
      by_contra hne
      obtain ⟨n, hn⟩ : ∃ n, a + m = n + 1 := ⟨a + m - 1, by omega⟩
      rw [hn] at hck
      simp [rowCk] at hck
    obtain ⟨rfl, rfl⟩ : a = 0 ∧ m = 0 := by omega
    rw [h]
    simp [rowCk] at hck
    exact hck.symm

/-- The table without the rows from `n` on. -/
def truncate (t : HashTable Fr) (n : ℕ) : HashTable Fr :=
  ⟨t.inputs.take n, t.controls.take n, t.domain.take n, t.checks.take n⟩

/-- **C37.** Serial `load` panics because of its capacity iff `calcs` is smaller than the number of inputs
or controls, and this comes before the checks; otherwise it panics iff a check is wrong. Parallel `load`
never panics because of its capacity: whatever the table, it does exactly what it does for the table
without the rows beyond `calcs`. -/
theorem C37_capacity {x : Run Fr} {k : ChipKind} {short : Bool} (hbn : x.IsBn k short) (hx : x.Legal) :
    (x.mode = .serial →
      (x.load = .error .calcsTooSmall ↔
        x.calcs < x.table.inputs.length ∨ x.calcs < x.table.controls.length) ∧
      ((∃ e, x.load = .error e) ↔ x.calcs < x.table.inputs.length ∨ x.calcs < x.table.controls.length ∨
        ¬ ChecksMatch x.legacy x.STEP x.table x.calcs)) ∧
    (∀ threads, x.mode = .parallel threads →
      x.load = (x.reload (truncate x.table x.calcs) x.mode).load ∧
      ((∃ e, x.load = .error e) ↔ ¬ ChecksMatch x.legacy x.STEP x.table x.calcs)) := by
  obtain ⟨⟨lw, -⟩, hn⟩ := hbn.lawful
  obtain ⟨h1, h2, -⟩ := Run.load_iff lw hx hn
  rw [← checksMatch_iff hx, ← fitsCalcs_iff] at h1
  have herr : (∃ e, x.load = .error e) ↔ ¬ ∃ L', x.load = .ok L' := by
    cases x.load <;> simp
  refine ⟨fun hm => ⟨⟨fun he => ?_, fun hlt => ?_⟩, ?_⟩, fun threads hm => ⟨?_, ?_⟩⟩
  · rcases h2 _ he with ⟨-, h⟩ | ⟨h, -⟩
    · rw [hm] at h
      simp only [Capacity] at h
      omega
    · cases h
  · cases hl : x.load with
    | ok L' =>
      have := (h1.mp ⟨L', hl⟩).1 hm
      omega
    | error e =>
      rcases h2 e hl with ⟨rfl, -⟩ | ⟨-, h⟩
      · rfl
      · rw [hm] at h
        simp only [Capacity] at h
        omega
  · rw [herr, h1]
    simp only [FitsCalcs, hm]
    constructor
    · intro h
      by_contra hc
      push Not at hc
      exact h ⟨fun _ => ⟨hc.1, hc.2.1⟩, hc.2.2⟩
    · rintro h ⟨h3, h4⟩
      obtain ⟨h5, h6⟩ := h3 trivial
      rcases h with h | h | h
      · omega
      · omega
      · exact h h4
  · have hd : rowData (truncate x.table x.calcs) x.calcs = rowData x.table x.calcs := by
      rw [rowData_eq, rowData_eq]
      refine List.map_congr_left fun i hi => ?_
      rw [List.mem_range] at hi
      simp only [rowAt, truncate, List.getElem?_take, hi, if_true]
    unfold Run.load Run.reload Run.configured
    simp only [hm, load, assignParallel, hd]
  · rw [herr, h1]
    simp only [FitsCalcs, hm]
    simp

-- a table of 7 rows with `calcs = 6`: refused in serial mode, truncated in parallel mode
example (k : ChipKind) (short legacy : Bool) (mode : LoadMode) :
    ∃ x : Run Fr, x.IsBn k short ∧ x.Legal ∧ x.mode = mode ∧ x.calcs < x.table.inputs.length := by
  obtain ⟨ch, hch, -⟩ := bnChip_lawful k
  refine ⟨(demoRun ch short legacy mode 0).reload ⟨List.replicate 7 (1, 2), [], [], []⟩ mode, ⟨hch, rfl⟩, ?_, rfl, ?_⟩
  · obtain ⟨h1, h2, h3, h4, h5, h6, -⟩ := demo_legal ch short legacy mode 0
    exact ⟨h1, h2, h3, h4, h5, h6, by simp [Run.reload]⟩
  · simp [Run.reload, demoRun]

/-! ## C31, C32: which honest witnesses are accepted -/

/-- The rows of the table form complete blocks: a row whose control exceeds `STEP` is followed by a row
whose control is smaller by `step` but not zero and whose domain is zero; and the last row is empty. -/
structure Complete (STEP step : ℕ) (t : HashTable Fr) (calcs : ℕ) : Prop where
  next : ∀ j, j + 1 < calcs → STEP < rowCtl t j →
    rowCtl t (j + 1) ≠ 0 ∧ rowCtl t (j + 1) + step = rowCtl t j ∧ rowDom t (j + 1) = 0
  last : ∀ j, j + 1 = calcs → rowWords t j = (0, 0) ∧ rowCtl t j = 0

theorem complete_iff (STEP step : ℕ) (t : HashTable Fr) (calcs : ℕ) :
    Complete STEP step t calcs ↔ WellFormed STEP step (rowAt t) calcs := by
  constructor
  · rintro ⟨h1, h2⟩
    simp only [rowCtl_eq, rowDom_eq, rowWords_eq] at h1 h2
    exact ⟨h1, h2⟩
  · rintro ⟨h1, h2⟩
    refine ⟨?_, ?_⟩
    · simpa only [rowCtl_eq, rowDom_eq, rowWords_eq] using h1
    · simpa only [rowCtl_eq, rowDom_eq, rowWords_eq] using h2

/-- **C31.** If the table fits, its checks match and its rows form complete blocks, then `load` succeeds
and every grid that carries its witness (with any values on the rows beyond the usable ones, inside any
circuit that leaves the columns of the hash table alone) meets all gates, lookups and copy constraints. -/
theorem C31_complete {x : Run Fr} {k : ChipKind} {short : Bool} (hbn : x.IsBn k short) (hx : x.Legal)
    (hfit : FitsCalcs x) (hck : ChecksMatch x.legacy x.STEP x.table x.calcs)
    (hw : Complete x.STEP x.step x.table x.calcs) :
    ∃ L', x.load = .ok L' ∧ ∀ post g, x.Honest L' post g → x.Accepted k short L' post g := by
  obtain ⟨L', hL⟩ := (C41_checks hbn hx).1.mpr ⟨hfit, hck⟩
  obtain ⟨⟨lw, -⟩, hn⟩ := hbn.lawful
  refine ⟨L', hL, fun post g hg => ⟨hbn, hx, Or.inl hL, hg.toLaid, ?_⟩⟩
  obtain ⟨s, -, -, -, hiff⟩ := Run.honest_iff lw fr_big hx hn (Or.inl hL) hg
  exact hiff.mpr ((complete_iff _ _ _ _).mp hw)

/-- **C32.** If a grid that carries the witness of `load` is accepted, then the rows form complete blocks.
So a table that ends inside a block, a table whose last row is not empty, and a domain on a
continuation row are rejected. -/
theorem C32_only_complete {x : Run Fr} {k : ChipKind} {short : Bool} {L' : Layouter Fr}
    {post : List (Op Fr)} {g : Grid Fr} (h : x.Accepted k short L' post g) (hh : x.Honest L' post g) :
    Complete x.STEP x.step x.table x.calcs := by
  obtain ⟨⟨lw, -⟩, hn⟩ := h.bn.lawful
  obtain ⟨s, -, -, -, hiff⟩ := Run.honest_iff lw fr_big h.legal hn h.loaded hh
  exact (complete_iff _ _ _ _).mpr (hiff.mp h.sat)

/-- C32 for the three kinds of wrong tables. -/
theorem C32_rejected {x : Run Fr} {k : ChipKind} {short : Bool} {L' : Layouter Fr}
    {post : List (Op Fr)} {g : Grid Fr} (hbn : x.IsBn k short) (hx : x.Legal) (hL : x.Loads L')
    (hh : x.Honest L' post g)
    (hbad : (∃ j, j + 1 < x.calcs ∧ x.STEP < rowCtl x.table j ∧
        (rowCtl x.table (j + 1) + x.step ≠ rowCtl x.table j ∨ rowCtl x.table (j + 1) = 0)) ∨
      (∃ j, j + 1 < x.calcs ∧ x.STEP < rowCtl x.table j ∧ rowDom x.table (j + 1) ≠ 0) ∨
      (0 < x.calcs ∧ (rowWords x.table (x.calcs - 1) ≠ (0, 0) ∨ rowCtl x.table (x.calcs - 1) ≠ 0))) :
    ¬ x.Satisfies L' g := by
  intro hs
  obtain ⟨h1, h2⟩ := C32_only_complete (k := k) (short := short) ⟨hbn, hx, hL, hh.toLaid, hs⟩ hh
  rcases hbad with ⟨j, hj, hgt, h⟩ | ⟨j, hj, hgt, h⟩ | ⟨h0, h⟩
  · obtain ⟨e1, e2, -⟩ := h1 j hj hgt
    rcases h with h | h
    · exact h e2
    · exact e1 h
  · exact h (h1 j hj hgt).2.2
  · obtain ⟨e1, e2⟩ := h2 (x.calcs - 1) (by omega)
    rcases h with h | h
    · exact h e1
    · exact h e2

-- the demo table meets all hypotheses of C31
example (k : ChipKind) (short legacy : Bool) (mode : LoadMode) :
    ∃ x : Run Fr, x.IsBn k short ∧ x.Legal ∧ FitsCalcs x ∧ ChecksMatch x.legacy x.STEP x.table x.calcs ∧
      Complete x.STEP x.step x.table x.calcs ∧ x.table.controls = [0, 150, 88, 26] := by
  obtain ⟨ch, hch, -⟩ := bnChip_lawful k
  refine ⟨demoRun ch short legacy mode 0, ⟨hch, rfl⟩, demo_legal ch short legacy mode 0, ?_, ?_, ?_, rfl⟩
  · intro _; simp [demoRun, demoTable]
  · intro a m _ _ ck h; simp [demoRun, demoTable, rowCk] at h
  · exact (complete_iff _ _ _ _).mpr (demo_wellFormed 0)

-- and its witness is accepted, the case of C32
example (k : ChipKind) (short legacy : Bool) (mode : LoadMode) :
    ∃ (x : Run Fr) (L' : Layouter Fr) (g : Grid Fr), x.Accepted k short L' [] g ∧ x.Honest L' [] g ∧
      x.calcs = 6 := by
  obtain ⟨x, L', g, h, hh, -, hn, -⟩ := demo_blocks k short legacy mode
  exact ⟨x, L', g, h, hh, hn⟩

-- a stream of 150 units cut off after two of its three rows
example (k : ChipKind) (short legacy : Bool) (mode : LoadMode) :
    ∃ (x : Run Fr) (L' : Layouter Fr) (g : Grid Fr), x.IsBn k short ∧ x.Legal ∧ x.load = .ok L' ∧
      x.Honest L' [] g ∧ x.table.controls = [150, 88] ∧ ¬ x.Satisfies L' g := by
  obtain ⟨ch, hch, -⟩ := bnChip_lawful k
  obtain ⟨x, hxe⟩ : ∃ x, x = (demoRun ch short legacy mode 0).reload ⟨[(1, 2), (3, 4)], [150, 88], [], []⟩ mode :=
    ⟨_, rfl⟩
  have hbn : x.IsBn k short := by rw [hxe]; exact ⟨hch, rfl⟩
  have hx : x.Legal := by
    obtain ⟨h1, h2, h3, h4, h5, h6, -⟩ := demo_legal ch short legacy mode 0
    rw [hxe]
    exact ⟨h1, h2, h3, h4, h5, h6, by simp [Run.reload]⟩
  obtain ⟨L', hL⟩ := (C41_checks hbn hx).1.mpr ⟨by intro _; rw [hxe]; simp [Run.reload, demoRun],
    by intro a m _ _ ck h; rw [hxe] at h; simp [Run.reload, rowCk] at h⟩
  obtain ⟨g, hg⟩ := Run.exists_honest (x := x) (L' := L') (by rw [hxe]; rfl)
  refine ⟨x, L', g, hbn, hx, hL, hg, by rw [hxe]; rfl, C32_rejected hbn hx (Or.inl hL) hg (Or.inl ⟨1, ?_, ?_, Or.inr ?_⟩)⟩
  · rw [hxe]; show 1 + 1 < 6; norm_num
  · rw [hxe]; show 62 < 88; norm_num
  · rw [hxe]; rfl

/-! ## C34, C35: independence of mode, threads and table -/

/-- **C34.** With a table that fits, both modes succeed or both panic, for every number of threads; and if
all columns of the hash table are free from the same row on (for instance because the hash table is
the first thing in the circuit), they lay down the same cells: every advice and fixed cell, every
selector, every copy constraint, also together with whatever comes before and after; the logs of
operations are even equal when `calcs > 0`. The assumption on the columns is not needed between two
thread counts. -/
theorem C34_modes {x : Run Fr} {k : ChipKind} {short : Bool} (hbn : x.IsBn k short) (hx : x.Legal)
    (hfit : x.table.inputs.length ≤ x.calcs ∧ x.table.controls.length ≤ x.calcs) (m : LoadMode) :
    ((∃ L, x.load = .ok L) ↔ ∃ L', (x.reload x.table m).load = .ok L') ∧
    ∀ L L', x.load = .ok L → (x.reload x.table m).load = .ok L' → x.mode.isSerial = m.isSerial ∨ x.Level →
      (0 < x.calcs → L.ops = L'.ops) ∧
      ∀ post, SameCircuit (L.ops ++ post) (L'.ops ++ post) ∧
        ∀ c r, finalAdvice (L.ops ++ post) c r = finalAdvice (L'.ops ++ post) c r := by
  have hx' : (x.reload x.table m).Legal := ⟨hx.1, hx.2, hx.3, hx.4, hx.5, hx.6, hx.7⟩
  refine ⟨?_, fun L L' hL hL' hm => ?_⟩
  · rw [(C41_checks hbn hx).1, (C41_checks (x := x.reload x.table m) hbn hx').1]
    exact and_congr ⟨fun _ _ => hfit, fun _ _ => hfit⟩ Iff.rfl
  · obtain ⟨⟨lw, -⟩, hn⟩ := hbn.lawful
    obtain ⟨s, s', ho, ho'⟩ := Run.ops_reload lw hx hx' hn hL hL' hm
    refine ⟨fun h0 => ?_, fun post => ?_⟩
    · rw [ho, ho', (Run.ops_mode lw m s s' [] []).1 h0]
    · obtain ⟨-, h1, h2⟩ := Run.ops_mode lw m s s' x.before.ops post
      rw [ho, ho', List.append_assoc, List.append_assoc]
      exact ⟨h1.symm, fun c r => (h2 c r).symm⟩

/-- **C35.** What `load` contributes to the circuit - fixed columns (with the range table), selectors, copy
constraints - does not depend on table, mode and number of threads, under the same assumption on the
columns when serial is compared with parallel; so an assignment is accepted with the one iff it is
accepted with the other. An empty table always loads, so the keys can be made with it. -/
theorem C35_shape {x : Run Fr} {k : ChipKind} {short : Bool} {L : Layouter Fr} (hbn : x.IsBn k short)
    (hx : x.Legal) (hL : x.load = .ok L) :
    (∀ t m, x.mode.isSerial = m.isSerial ∨ x.Level → (x.reload t m).Legal →
      ∀ L', (x.reload t m).load = .ok L' →
      (∀ post, SameCircuit (L.ops ++ post) (L'.ops ++ post)) ∧
      (x.reload t m).newGates = x.newGates ∧ (x.reload t m).newLookups = x.newLookups ∧
      ∀ post g, x.Accepted k short L post g ↔ (x.reload t m).Accepted k short L' post g) ∧
    ∀ m, (x.reload .empty m).Legal ∧ ∃ L', (x.reload .empty m).load = .ok L' := by
  obtain ⟨⟨lw, -⟩, hn⟩ := hbn.lawful
  refine ⟨fun t m hm hx' L' hL' => ?_, fun m => ?_⟩
  · obtain ⟨s, s', ho, ho'⟩ := Run.ops_reload lw hx hx' hn hL hL' hm
    refine ⟨fun post => ?_, rfl, rfl, fun post g => ⟨fun h => ?_, fun h => ?_⟩⟩
    · rw [ho, ho', List.append_assoc, List.append_assoc]
      exact Run.ops_shape' lw t m s s' x.before.ops post
    · exact ⟨hbn, hx', Or.inl hL', Run.laid_reload lw ho ho' h.laid, Run.satisfies_reload lw ho ho' h.sat⟩
    · exact ⟨hbn, hx, Or.inl hL, Run.laid_reload (x := x.reload t m) (t := x.table) (m := x.mode) lw ho' ho h.laid,
        Run.satisfies_reload (x := x.reload t m) (t := x.table) (m := x.mode) lw ho' ho h.sat⟩
  · have hx' : (x.reload .empty m).Legal := ⟨hx.1, hx.2, hx.3, hx.4, hx.5, hx.6, by
      simp [Run.reload, HashTable.empty]⟩
    refine ⟨hx', (C41_checks (x := x.reload .empty m) hbn hx').1.mpr ⟨fun _ => ?_, ?_⟩⟩
    · simp [Run.reload, HashTable.empty]
    · intro a j _ _ ck h
      simp [Run.reload, HashTable.empty, rowCk] at h

/-- The assumption on the columns in C34 and C35 is needed between serial and parallel mode: the parallel
mode does not show the column `q_enable` to the floor planner, so if an earlier region used that column
up to row 5, serial loading starts at row 5 and parallel loading at row 0. -/
theorem C35_mode_matters (k : ChipKind) (short legacy : Bool) (threads : ℕ) :
    ∃ (x : Run Fr) (L L' : Layouter Fr), x.IsBn k short ∧ x.Legal ∧ x.legacy = legacy ∧ x.mode = .serial ∧
      x.load = .ok L ∧ (x.reload x.table (.parallel threads)).load = .ok L' ∧ ¬ SameCircuit L.ops L'.ops := by
  obtain ⟨ch, hch, -⟩ := bnChip_lawful k
  obtain ⟨x, hxe⟩ : ∃ x, x = { demoRun ch short legacy .serial 0 with
    before := ⟨fun | .fixed 0 => 5 | _ => 0, none, []⟩ } := ⟨_, rfl⟩
  have hbn : x.IsBn k short := by rw [hxe]; exact ⟨hch, rfl⟩
  have hx : x.Legal := by
    obtain ⟨h1, h2, h3, h4, h5, h6, h7⟩ := demo_legal ch short legacy .serial 0
    rw [hxe]
    exact ⟨h1, h2, h3, h4, h5, h6, h7⟩
  have hx' : (x.reload x.table (.parallel threads)).Legal := ⟨hx.1, hx.2, hx.3, hx.4, hx.5, hx.6, hx.7⟩
  have hfit : x.table.inputs.length ≤ x.calcs ∧ x.table.controls.length ≤ x.calcs := by
    rw [hxe]; simp [demoRun, demoTable]
  have hck : ChecksMatch x.legacy x.STEP x.table x.calcs := by
    intro a m _ _ ck h
    rw [hxe] at h
    simp [demoRun, demoTable, rowCk] at h
  obtain ⟨L, hL⟩ := (C41_checks hbn hx).1.mpr ⟨fun _ => hfit, hck⟩
  obtain ⟨L', hL'⟩ := (C34_modes hbn hx hfit (.parallel threads)).1.mp ⟨L, hL⟩
  refine ⟨x, L, L', hbn, hx, by rw [hxe]; rfl, by rw [hxe]; rfl, hL, hL', fun hs => ?_⟩
  obtain ⟨⟨lw, -⟩, hn⟩ := hbn.lawful
  obtain ⟨s, s', ho, -, ⟨h1, -⟩, -⟩ := (Run.load_iff lw hx hn).2.2 L hL
  obtain ⟨s₂, s₂', ho₂, -, ⟨-, h2⟩, -⟩ :=
    (Run.load_iff (x := x.reload x.table (.parallel threads)) lw hx' hn).2.2 L' hL'
  have hb : x.before.ops = [] := by rw [hxe]
  have e5 : x.before.colEnd (.fixed x.qEnable) = 5 := by rw [hxe]; rfl
  have hs5 : 5 ≤ s := by
    rw [← e5]
    exact h1 _ ⟨rfl, fun _ => ⟨by rw [hxe]; rfl, by rw [hxe]; exact Nat.succ_pos 5⟩⟩
  have hs0 : s₂ = 0 := by
    obtain ⟨c, ⟨hc, hq⟩, h2⟩ := h2
    rw [← h2]
    have hq' : c ≠ .fixed x.qEnable := fun h => by cases (hq h).1
    have hq0 : x.qEnable = 0 := by rw [hxe]; rfl
    have hbe : (x.reload x.table (.parallel threads)).before = ⟨fun | .fixed 0 => 5 | _ => 0, none, []⟩ := by
      rw [hxe]; rfl
    rw [hbe]
    match c with
    | .fixed 0 => exact absurd (by rw [hq0]) hq'
    | .fixed (n + 1) => rfl
    | .advice _ => rfl
    | .selector _ => rfl
  subst hs0
  have hsel := hs.selector x.cs.numSelectors 0
  rw [ho, ho₂] at hsel
  have hb' : (x.reload x.table (.parallel threads)).before.ops = [] := hb
  rw [hb, hb', List.nil_append, List.nil_append] at hsel
  have l1 := (load_selector x.legacy x.STEP specPerm lw x.cs.numAdvice x.cs.numFixed x.cs.numSelectors
    x.qEnable x.hashTable x.step (rowAt x.table) x.calcs x.mode s s' 0)
  have l2 := (load_selector x.legacy x.STEP specPerm lw x.cs.numAdvice x.cs.numFixed x.cs.numSelectors
    x.qEnable x.hashTable x.step (rowAt x.table) x.calcs (.parallel threads) 0 s₂' 0).mpr (Or.inl rfl)
  have := l1.mp (hsel.trans l2)
  omega

-- the demo run starts from an empty layouter, loads in every mode, and has rows
example (k : ChipKind) (short legacy : Bool) (mode : LoadMode) :
    ∃ (x : Run Fr) (L : Layouter Fr), x.IsBn k short ∧ x.Legal ∧ x.load = .ok L ∧ x.Level ∧ x.mode = mode ∧
      x.table.inputs.length = 4 ∧ x.table.controls.length = 4 ∧ x.calcs = 6 := by
  obtain ⟨ch, L', g, hch, h0, h1, -⟩ := demo k short legacy mode 0
  exact ⟨_, L', h1.bn, h1.legal, h0, Run.Fresh.level ⟨fun _ _ => rfl, fun _ _ => rfl, fun _ _ => rfl⟩,
    rfl, rfl, rfl, rfl⟩

/-! ## C36: chunks -/

/-- **C36.** The split of the rows for the parallel mode concatenates back to the rows, has no empty chunk,
and every chunk but the last has at least `minLen` rows and ends with a row whose control is at most
`STEP` (the end of a block). With `minLen = calcs / threads + 1`, as `load` chooses it, there are at most
`threads` chunks. -/
theorem C36_chunks {F : Type} [Field F] [DecidableEq F] (STEP : ℕ) (data : List (RowData F)) (minLen : ℕ) :
    (chunks STEP data minLen).flatten = data ∧
    (∀ c ∈ chunks STEP data minLen, c ≠ []) ∧
    (∀ c ∈ (chunks STEP data minLen).dropLast, minLen ≤ c.length ∧
      ∃ row, c.getLast? = some row ∧ row.control.getD 0 ≤ STEP) ∧
    (∀ threads, 0 < threads → minLen = data.length / threads + 1 →
      (chunks STEP data minLen).length ≤ threads) := by
  have h1 : (chunks STEP data minLen).flatten = data := by
    rw [chunks_eq, chunksFrom_flatten]; rfl
  have h3 : ∀ c ∈ (chunks STEP data minLen).dropLast, Closed STEP minLen c := by
    rw [chunks_eq]; exact chunksFrom_closed STEP minLen [] data
  refine ⟨h1, by rw [chunks_eq]; exact chunksFrom_ne STEP minLen [] data, h3, fun threads ht hm => ?_⟩
  generalize chunks STEP data minLen = cs at h1 h3
  have hsum : cs.dropLast.length * minLen ≤ data.length := by
    have : ∀ l : List (List (RowData F)), (∀ c ∈ l, Closed STEP minLen c) →
        l.length * minLen ≤ l.flatten.length := by
      intro l hl
      induction l with
      | nil => simp
      | cons c l ih =>
        have h1 := (hl c (by simp)).1
        have h2 := ih fun c hc => hl c (by simp [hc])
        rw [List.length_cons, List.flatten_cons, List.length_append, Nat.add_mul, Nat.one_mul]
        omega
    refine (this _ h3).trans ?_
    rw [← h1]
    exact (List.Sublist.flatten (List.dropLast_sublist cs)).length_le
  have : cs.dropLast.length < threads := by
    by_contra hge
    have h5 : threads * minLen ≤ cs.dropLast.length * minLen := Nat.mul_le_mul_right _ (by omega)
    have h6 := Nat.lt_mul_div_succ data.length ht
    rw [hm] at h5
    rw [hm] at hsum
    omega
  rw [List.length_dropLast] at this
  omega

-- rows with controls 0, 45, 13, 7 and two rows at least per chunk
example : (chunks (F := ℚ) 32 ([0, 45, 13, 7].map fun c => ⟨none, some c, none, none⟩) 2).map
    (fun c => c.map fun r => r.control) = [[some 0, some 45, some 13], [some 7]] := rfl

end Props
