import Verif.Circuit.TableShape
import Verif.Props.TableDemo
import Verif.Props.Bn254
import Mathlib.Algebra.Order.Floor.Div

/-!
# Soundness of the hash table circuit: C26, C27, C28, C29, C30, C47

`Run.Accepted` (Circuit/TableRun.lean) is an arbitrary advice assignment that meets all constraints of
the hash table inside an arbitrary larger circuit, with either permutation chip, serial or parallel
loading and any thread count.
-/

set_option linter.unusedVariables false

namespace Props
open Halo2 Circuit Circuit.Table Base.Bn256

/-- Textbook Poseidon over `Fr` with the published constants. -/
noncomputable abbrev permBn : (Fin 3 → Fr) → Fin 3 → Fr :=
  Spec.poseidon (fun x => x ^ 5) (Matrix.of mds) 4 57 (fun i => roundConstants.getD i 0)

/-- Rows `a, ..., a + m` form a block that ends before the last enabled row: the head flag is 1 on row
`a`, 0 on the following rows of the block, 1 on the row after the block. -/
structure Block (x : Run Fr) (g : Grid Fr) (s a m : ℕ) : Prop where
  first : s < a
  last : a + m < s + x.calcs
  head : x.col g 5 a = 1
  cont : ∀ i, 0 < i → i ≤ m → x.col g 5 (a + i) = 0
  next : x.col g 5 (a + m + 1) = 1

/-- An accepted run of either chip in every build and mode with a block of one row (MPT, domain 7) and a
block of three rows (150 bytes), used as the concrete case of the theorems below. -/
theorem demo_blocks (k : ChipKind) (short legacy : Bool) (mode : LoadMode) :
    ∃ x L' g, x.Accepted k short L' [] g ∧ x.Honest L' [] g ∧ x.EnabledAfter g 0 ∧ x.calcs = 6 ∧ x.step = 62 ∧
      x.STEP = 62 ∧ x.legacy = legacy ∧ x.mode = mode ∧ Block x g 0 1 0 ∧ Block x g 0 2 2 ∧ x.col g 3 1 = 0 ∧
      x.col g 4 1 = 7 ∧ x.col g 3 2 = ((150 * Base.domainSpec legacy : ℕ) : Fr) ∧
      ∀ i ≤ 2, x.col g 4 (2 + i) = 0 := by
  obtain ⟨ch, L', g, -, -, h1, h2, h3, h4⟩ := demo k short legacy mode 0
  refine ⟨_, L', g, h1, h2, h3, rfl, rfl, rfl, rfl, rfl, ?_, ?_, ?_, ?_, ?_, ?_⟩
  · exact ⟨by norm_num, by norm_num [demoRun], (h4 0 (by norm_num)).1, fun i h h' => by omega,
      (h4 1 (by norm_num)).1⟩
  · refine ⟨by norm_num, by norm_num [demoRun], (h4 1 (by norm_num)).1, fun i h h' => ?_, (h4 4 (by norm_num)).1⟩
    obtain rfl | rfl : i = 1 ∨ i = 2 := by omega
    · exact (h4 2 (by norm_num)).1
    · exact (h4 3 (by norm_num)).1
  · rw [(h4 0 (by norm_num)).2.1]; simp
  · exact (h4 0 (by norm_num)).2.2
  · exact (h4 1 (by norm_num)).2.1
  · intro i h
    obtain rfl | rfl | rfl : i = 0 ∨ i = 1 ∨ i = 2 := by omega
    · exact (h4 1 (by norm_num)).2.2
    · exact (h4 2 (by norm_num)).2.2
    · exact (h4 3 (by norm_num)).2.2

/-- The rows of a block: domain and two message words. -/
def blockOf (x : Run Fr) (g : Grid Fr) (a m : ℕ) : List (Fr × Fr × Fr) :=
  (List.range (m + 1)).map fun i => (x.col g 4 (a + i), x.col g 1 (a + i), x.col g 2 (a + i))

/-- The message words of a block. -/
def wordsOf (x : Run Fr) (g : Grid Fr) (a m : ℕ) : List Fr :=
  (List.range (m + 1)).flatMap fun i => [x.col g 1 (a + i), x.col g 2 (a + i)]

theorem Accepted.rows {x : Run Fr} {k : ChipKind} {short : Bool} {L' : Layouter Fr} {post : List (Op Fr)}
    {g : Grid Fr} (h : x.Accepted k short L' post g) :
    ∃ s, x.EnabledAfter g s ∧ (x.load = .ok L' → x.Fresh → s = 0) ∧
      Rows x.legacy x.STEP permBn (view x.cs.numAdvice x.hashTable g) (specFlag x.legacy x.step) s x.calcs := by
  obtain ⟨⟨lw, -⟩, hn⟩ := h.bn.lawful
  exact Run.rows lw h.legal hn h.loaded h.laid h.sat

/-- Rows with zero domains are absorbed as message words two by two. -/
theorem absorbRows_zero {F : Type} [Field F] (π : F × F × F → F × F × F) (ws : ℕ → F × F) (n b : ℕ)
    (st : F × F × F) :
    Spec.absorbRows π st ((List.range' b n).map fun i => (0, (ws i).1, (ws i).2)) =
      Spec.absorbPairs π st ((List.range' b n).flatMap fun i => [(ws i).1, (ws i).2]) := by
  induction n generalizing b st with
  | zero => obtain ⟨c, x, y⟩ := st; rfl
  | succ n ih =>
    obtain ⟨c, x, y⟩ := st
    simp only [List.range'_succ, List.map_cons, List.flatMap_cons, Spec.absorbRows, List.cons_append,
      List.nil_append, Spec.absorbPairs, ih, add_zero]

theorem length_wordsOf (x : Run Fr) (g : Grid Fr) (a m : ℕ) :
    (wordsOf x g a m).length = 2 * (m + 1) := by
  unfold wordsOf
  generalize m + 1 = n
  induction n with
  | zero => rfl
  | succ n ih =>
    rw [List.range_succ, List.flatMap_append, List.length_append, ih]
    simp; ring

/-- Digest of a block with zero domains, in terms of the crate's `hash_msg`. -/
theorem rowsDigest_hashMsg (short legacy : Bool) (x : Run Fr) (g : Grid Fr) (a m c : ℕ)
    (hlen : 2 * (m + 1) < 2 ^ 64) (hd : ∀ i ≤ m, x.col g 4 (a + i) = 0) :
    hashMsgFr short legacy (wordsOf x g a m) (some c) =
      .ok (Spec.rowsDigest (Spec.onTriples permBn) (c : Fr) (blockOf x g a m)) := by
  have hne : wordsOf x g a m ≠ [] := by
    intro h
    have := length_wordsOf x g a m
    rw [h] at this
    simp at this
  rw [(C04_C05_bn254 short legacy).2 _ _ hne (by rw [length_wordsOf]; exact hlen), Option.getD_some]
  have hb : blockOf x g a m = (List.range' 0 (m + 1)).map fun i =>
      (0, (x.col g 1 (a + i), x.col g 2 (a + i)).1, (x.col g 1 (a + i), x.col g 2 (a + i)).2) := by
    unfold blockOf
    rw [List.range_eq_range']
    refine List.map_congr_left fun i hi => ?_
    rw [List.mem_range'_1] at hi
    rw [hd i (by omega)]
  rw [Spec.rowsDigest, hb, absorbRows_zero, Spec.spongeHash]
  unfold wordsOf
  rw [List.range_eq_range']

/-- **C26.** In every accepted assignment, all rows of a block carry the digest of the block: the sponge
over its words and domains, started with the control of its head in the capacity word. If the domains
of the block are zero and the head control is the number `c`, the digest is `hash_msg(words, Some(c))`. -/
theorem C26_block_digest {x : Run Fr} {k : ChipKind} {short : Bool} {L' : Layouter Fr}
    {post : List (Op Fr)} {g : Grid Fr} (h : x.Accepted k short L' post g) :
    ∃ s, x.EnabledAfter g s ∧ ∀ a m, Block x g s a m →
      (∀ i ≤ m, x.col g 0 (a + i) =
        Spec.rowsDigest (Spec.onTriples permBn) (x.col g 3 a) (blockOf x g a m)) ∧
      ∀ c : ℕ, x.col g 3 a = (c : Fr) → (∀ i ≤ m, x.col g 4 (a + i) = 0) → 2 * (m + 1) < 2 ^ 64 →
        ∀ i ≤ m, hashMsgFr short x.legacy (wordsOf x g a m) (some c) = .ok (x.col g 0 (a + i)) := by
  obtain ⟨s, hen, -, R⟩ := Accepted.rows h
  refine ⟨s, hen, fun a m hb => ?_⟩
  obtain ⟨a', rfl⟩ : ∃ a', a = s + a' + 1 := ⟨a - s - 1, by have := hb.first; omega⟩
  have hlast := hb.last
  have key : ∀ i ≤ m, x.col g 0 (s + a' + 1 + i) =
      Spec.rowsDigest (Spec.onTriples permBn) (x.col g 3 (s + a' + 1)) (blockOf x g (s + a' + 1) m) := by
    intro i hi
    have := R.digest a' m (by omega) hb.head
      (fun j h1 h2 => by
        have := hb.cont (j - a') (by omega) (by omega)
        rw [show s + a' + 1 + (j - a') = s + j + 1 by omega] at this
        exact this)
      (by
        have := hb.next
        rw [show s + a' + 1 + m + 1 = s + (a' + m + 1) + 1 by omega] at this
        exact this) i hi
    rw [show s + (a' + i) + 1 = s + a' + 1 + i by omega] at this
    exact this
  refine ⟨key, fun c hc hd hlen i hi => ?_⟩
  rw [rowsDigest_hashMsg short x.legacy x g _ m c hlen hd, key i hi, hc]

-- a block of three rows with zero domains and head control `150·SPEC`
example (k : ChipKind) (short legacy : Bool) (mode : LoadMode) :
    ∃ (x : Run Fr) (L' : Layouter Fr) (g : Grid Fr), x.Accepted k short L' [] g ∧ Block x g 0 2 2 ∧
      x.col g 3 2 = ((150 * Base.domainSpec legacy : ℕ) : Fr) ∧ ∀ i ≤ 2, x.col g 4 (2 + i) = 0 := by
  obtain ⟨x, L', g, h, -, -, -, -, -, -, -, -, hb, -, -, hc, hd⟩ := demo_blocks k short legacy mode
  exact ⟨x, L', g, h, hb, hc, hd⟩

/-- **C27.** In every accepted assignment, an enabled row before the last one whose control is 0 is a
block by itself and its column 0 is `hash_with_domain([col1, col2], domain)`. -/
theorem C27_mpt_rows {x : Run Fr} {k : ChipKind} {short : Bool} {L' : Layouter Fr}
    {post : List (Op Fr)} {g : Grid Fr} (h : x.Accepted k short L' post g) :
    ∃ s, x.EnabledAfter g s ∧ ∀ a, s < a → a < s + x.calcs → x.col g 3 a = 0 →
      x.col g 5 a = 1 ∧ x.col g 5 (a + 1) = 1 ∧
      hashWithDomainFr short ![x.col g 1 a, x.col g 2 a] (x.col g 4 a) = .ok (x.col g 0 a) := by
  obtain ⟨s, hen, -, R⟩ := Accepted.rows h
  refine ⟨s, hen, fun a h1 h2 h0 => ?_⟩
  obtain ⟨a', rfl⟩ : ∃ a', a = s + a' + 1 := ⟨a - s - 1, by omega⟩
  have hh : x.col g 5 (s + a' + 1) = 1 := by
    rcases R.flag a' (by omega) with ⟨-, e⟩ | ⟨-, e⟩
    · exact e
    · exact absurd h0 (R.contRow a' (by omega) e).2.1
  have hn : x.col g 5 (s + a' + 1 + 1) = 1 :=
    R.zeroCtrl fr_big rfl h.legal.step_lt h.legal.STEP_lt h.legal.calcs_lt (a' + 1) (by omega) h0
  refine ⟨hh, hn, ?_⟩
  have hd := R.digest a' 0 (by omega) hh (fun j h1 h2 => by omega) hn 0 le_rfl
  refine ((C04_C05_bn254 short x.legacy).1 _ _ _).trans (congrArg Except.ok ?_)
  have h0' : (view x.cs.numAdvice x.hashTable g).ctrl (s + a' + 1) = 0 := h0
  simp only [blockRows, List.range_succ, List.range_zero, List.nil_append, List.map_cons, List.map_nil,
    Spec.rowsDigest, Spec.absorbRows, Spec.onTriples, h0', zero_add, Nat.add_zero] at hd
  exact hd.symm

-- row 1 has control 0 and domain 7
example (k : ChipKind) (short legacy : Bool) (mode : LoadMode) :
    ∃ (x : Run Fr) (L' : Layouter Fr) (g : Grid Fr), x.Accepted k short L' [] g ∧ x.EnabledAfter g 0 ∧
      0 < 1 ∧ 1 < 0 + x.calcs ∧ x.col g 3 1 = 0 ∧ x.col g 4 1 = 7 := by
  obtain ⟨x, L', g, h, -, he, hn, -, -, -, -, -, -, h0, h7, -, -⟩ := demo_blocks k short legacy mode
  exact ⟨x, L', g, h, he, by norm_num, by omega, h0, h7⟩

/-- **C28.** In every accepted assignment: the head flags of enabled rows are 0 or 1; the first and the
last enabled row are heads; every enabled row before the last one lies in a block; the controls of a
block count down in steps of `step` to a last control `i ≤ STEP` (not 0 if the block has several rows),
as numbers below the modulus; and if `STEP ≤ step` the head control determines the number of rows. -/
theorem C28_controls {x : Run Fr} {k : ChipKind} {short : Bool} {L' : Layouter Fr}
    {post : List (Op Fr)} {g : Grid Fr} (h : x.Accepted k short L' post g) :
    ∃ s, x.EnabledAfter g s ∧
      (∀ a, s < a → a ≤ s + x.calcs → x.col g 5 a = 0 ∨ x.col g 5 a = 1) ∧
      (0 < x.calcs → x.col g 5 (s + 1) = 1 ∧ x.col g 5 (s + x.calcs) = 1) ∧
      (∀ b, s < b → b < s + x.calcs → ∃ a m, Block x g s a m ∧ a ≤ b ∧ b ≤ a + m) ∧
      (∀ a m, Block x g s a m → ∃ i ≤ x.STEP, (0 < m → 0 < i) ∧
        ∀ j ≤ m, x.col g 3 (a + j) = (((i + (m - j) * x.step) * Base.domainSpec x.legacy : ℕ) : Fr) ∧
          (i + (m - j) * x.step) * Base.domainSpec x.legacy < r) ∧
      (x.STEP ≤ x.step → ∀ a m a' m', Block x g s a m → Block x g s a' m' →
        x.col g 3 a = x.col g 3 a' → m = m') := by
  obtain ⟨s, hen, -, R⟩ := Accepted.rows h
  have hl := h.legal
  have hd : Base.domainSpec x.legacy ≤ 2 ^ 64 := by unfold Base.domainSpec; split <;> omega
  have hdp : 0 < Base.domainSpec x.legacy := by unfold Base.domainSpec; split <;> omega
  have hbound : ∀ i m, i ≤ x.STEP → m ≤ x.calcs →
      (i + m * x.step) * Base.domainSpec x.legacy < 2 ^ 200 := by
    intro i m h1 h2
    have e : m * x.step ≤ 2 ^ 64 * 2 ^ 64 :=
      Nat.mul_le_mul (by have := hl.calcs_lt; omega) (by have := hl.step_lt; omega)
    have : (i + m * x.step) * Base.domainSpec x.legacy ≤ 2 ^ 129 * 2 ^ 64 :=
      Nat.mul_le_mul (by have := hl.STEP_lt; omega) hd
    omega
  have hctl : ∀ a m, Block x g s a m → ∃ i ≤ x.STEP, (0 < m → 0 < i) ∧
        ∀ j ≤ m, x.col g 3 (a + j) = (((i + (m - j) * x.step) * Base.domainSpec x.legacy : ℕ) : Fr) ∧
          (i + (m - j) * x.step) * Base.domainSpec x.legacy < r := by
    intro a m hb
    obtain ⟨a', rfl⟩ : ∃ a', a = s + a' := ⟨a - s, by have := hb.first; omega⟩
    have hlast := hb.last
    obtain ⟨i, hi, hne, hc⟩ := R.controls a' (a' + m) (by omega) (by omega)
      (by have := hb.next; rw [show s + a' + m + 1 = s + (a' + m) + 1 by omega] at this; exact this)
      (fun j h1 h2 => by
        have := hb.cont (j - a') (by omega) (by omega)
        rw [show s + a' + (j - a') = s + j by omega] at this
        exact this)
    refine ⟨i, hi, fun hm => ?_, fun j hj => ⟨?_, ?_⟩⟩
    · rcases Nat.eq_zero_or_pos i with rfl | h'
      · refine absurd ?_ (hne (by omega))
        rw [specFlag_small (by norm_num)]; simp
      · exact h'
    · have := hc (a' + j) (by omega) (by omega)
      rw [specFlag_small (by have := hl.STEP_lt; omega), specFlag_small hl.step_lt] at this
      rw [show s + (a' + j) = s + a' + j by omega, show a' + m - (a' + j) = m - j by omega] at this
      refine Eq.trans this ?_
      push_cast
      ring
    · exact lt_trans (hbound i (m - j) hi (by omega)) (by norm_num [r])
  refine ⟨s, hen, ?_, ?_, ?_, hctl, ?_⟩
  · intro a h1 h2
    obtain ⟨a', rfl⟩ : ∃ a', a = s + a' + 1 := ⟨a - s - 1, by omega⟩
    rcases R.flag a' (by omega) with ⟨-, e⟩ | ⟨-, e⟩
    · exact Or.inr e
    · exact Or.inl e
  · intro h0
    exact ⟨R.firstHead fr_big rfl hl.step_lt hl.STEP_lt hl.calcs_lt h0, R.lastHead h0⟩
  · intro b h1 h2
    -- last head at or before row `b`
    have h01 := R.firstHead fr_big rfl hl.step_lt hl.STEP_lt hl.calcs_lt (by omega)
    have hback : ∀ d, ∃ a, s < a ∧ a ≤ s + 1 + d ∧ (s + 1 + d < s + x.calcs → x.col g 5 a = 1 ∧
        ∀ j, a < j → j ≤ s + 1 + d → x.col g 5 j = 0) := by
      intro d
      induction d with
      | zero => exact ⟨s + 1, by omega, by omega, fun _ => ⟨h01, fun j h1 h2 => by omega⟩⟩
      | succ d ih =>
        obtain ⟨a, ha1, ha2, ha3⟩ := ih
        by_cases hlt : s + 1 + (d + 1) < s + x.calcs
        · rcases R.flag (d + 1) (by omega) with ⟨-, e⟩ | ⟨-, e⟩
          · exact ⟨s + 1 + (d + 1), by omega, by omega, fun _ => ⟨by
              rw [show s + 1 + (d + 1) = s + (d + 1) + 1 by omega]; exact e, fun j h1 h2 => by omega⟩⟩
          · refine ⟨a, ha1, by omega, fun _ => ⟨(ha3 (by omega)).1, fun j h1 h2 => ?_⟩⟩
            rcases Nat.eq_or_lt_of_le h2 with rfl | h2
            · rw [show s + 1 + (d + 1) = s + (d + 1) + 1 by omega]; exact e
            · exact (ha3 (by omega)).2 j h1 (by omega)
        · exact ⟨a, ha1, by omega, fun h => absurd h hlt⟩
    obtain ⟨a, ha1, ha2, ha3⟩ := hback (b - s - 1)
    rw [show s + 1 + (b - s - 1) = b by omega] at ha2 ha3
    obtain ⟨ha3, ha4⟩ := ha3 h2
    obtain ⟨c, hc1, hc2, hc3, hc4⟩ := R.next (b - s) (by omega)
    refine ⟨a, s + c - a, ⟨ha1, by omega, ha3, fun i hi1 hi2 => ?_, ?_⟩, ha2, by omega⟩
    · by_cases hle : a + i ≤ b
      · exact ha4 _ (by omega) hle
      · have := hc4 (a + i - s) (by omega) (by omega)
        rw [show s + (a + i - s) = a + i by omega] at this
        exact this
    · rw [show a + (s + c - a) + 1 = s + c + 1 by omega]
      exact hc3
  · intro hstep a m a' m' hb hb' heq
    obtain ⟨i, hi, hpos, hc⟩ := hctl a m hb
    obtain ⟨i', hi', hpos', hc'⟩ := hctl a' m' hb'
    have e := (hc 0 (by omega)).1
    have e' := (hc' 0 (by omega)).1
    simp only [Nat.add_zero, Nat.sub_zero] at e e'
    rw [e, e'] at heq
    have hl1 := hb.last
    have hl2 := hb'.last
    have hf1 := hb.first
    have hf2 := hb'.first
    have := cast_inj fr_big (hbound i m hi (by omega)) (hbound i' m' hi' (by omega)) heq
    have := Nat.eq_of_mul_eq_mul_right hdp this
    -- `i + m * step = i' + m' * step` with `i, i' ≤ STEP ≤ step`
    have aux : ∀ i m i' m', i ≤ x.STEP → i' ≤ x.STEP → (0 < m → 0 < i) → (0 < m' → 0 < i') →
        i + m * x.step = i' + m' * x.step → ¬ m < m' := by
      intro i m i' m' h1 h2 h3 h4 h5 hlt
      have h6 : (m + 1) * x.step ≤ m' * x.step := Nat.mul_le_mul_right _ hlt
      have h7 := h4 (by omega)
      rw [Nat.add_mul, Nat.one_mul] at h6
      omega
    have n1 := aux i m i' m' hi hi' hpos hpos' this
    have n2 := aux i' m' i m hi' hi hpos' hpos this.symm
    omega

-- blocks of one and of three rows, `STEP ≤ step`
example (k : ChipKind) (short legacy : Bool) (mode : LoadMode) :
    ∃ (x : Run Fr) (L' : Layouter Fr) (g : Grid Fr), x.Accepted k short L' [] g ∧ x.STEP ≤ x.step ∧
      Block x g 0 1 0 ∧ Block x g 0 2 2 := by
  obtain ⟨x, L', g, h, -, he, hn, h1, h2, -, -, hb, hb', -⟩ := demo_blocks k short legacy mode
  exact ⟨x, L', g, h, by omega, hb, hb'⟩

/-- **C29.** Take accepted assignments of two runs (same build features and steps, `STEP ≤ step`;
everything else - chip, build, loading mode, table, surrounding circuit - may differ) and a block in
each. If the blocks agree on the head control and, on the rows of the first one, on words and domains,
then they have the same number of rows and the same digest. -/
theorem C29_functional {x y : Run Fr} {k k' : ChipKind} {short short' : Bool} {L L' : Layouter Fr}
    {post post' : List (Op Fr)} {g g' : Grid Fr} (h : x.Accepted k short L post g)
    (h' : y.Accepted k' short' L' post' g') (hlegacy : x.legacy = y.legacy) (hSTEP : x.STEP = y.STEP)
    (hstep : x.step = y.step) (hle : x.STEP ≤ x.step) :
    ∃ s s', x.EnabledAfter g s ∧ y.EnabledAfter g' s' ∧
      ∀ a m a' m', Block x g s a m → Block y g' s' a' m' → x.col g 3 a = y.col g' 3 a' →
        (∀ i ≤ m, x.col g 1 (a + i) = y.col g' 1 (a' + i) ∧ x.col g 2 (a + i) = y.col g' 2 (a' + i) ∧
          x.col g 4 (a + i) = y.col g' 4 (a' + i)) →
        m = m' ∧ ∀ i ≤ m, x.col g 0 (a + i) = y.col g' 0 (a' + i) := by
  obtain ⟨s, hen, -, -, -, hctl, -⟩ := C28_controls h
  obtain ⟨s', hen', -, -, -, hctl', -⟩ := C28_controls h'
  obtain ⟨s₂, hen₂, hdig⟩ := C26_block_digest h
  obtain ⟨s₂', hen₂', hdig'⟩ := C26_block_digest h'
  refine ⟨s, s', hen, hen', fun a m a' m' hb hb' hc hw => ?_⟩
  have hs : s₂ = s := hen₂.unique h.laid.usable_le hen (by have := hb.first; have := hb.last; omega)
  have hs' : s₂' = s' := hen₂'.unique h'.laid.usable_le hen' (by have := hb'.first; have := hb'.last; omega)
  subst hs hs'
  have hl := h.legal
  have hl' := h'.legal
  have hd : Base.domainSpec x.legacy ≤ 2 ^ 64 := by unfold Base.domainSpec; split <;> omega
  have hdp : 0 < Base.domainSpec x.legacy := by unfold Base.domainSpec; split <;> omega
  have hbound : ∀ i m, i ≤ x.STEP → m ≤ 2 ^ 64 →
      (i + m * x.step) * Base.domainSpec x.legacy < 2 ^ 200 := by
    intro i m h1 h2
    have e : m * x.step ≤ 2 ^ 64 * 2 ^ 64 := Nat.mul_le_mul h2 (by have := hl.step_lt; omega)
    have : (i + m * x.step) * Base.domainSpec x.legacy ≤ 2 ^ 129 * 2 ^ 64 :=
      Nat.mul_le_mul (by have := hl.STEP_lt; omega) hd
    omega
  have hm : m = m' := by
    obtain ⟨i, hi, hpos, hcc⟩ := hctl a m hb
    obtain ⟨i', hi', hpos', hcc'⟩ := hctl' a' m' hb'
    have e := (hcc 0 (by omega)).1
    have e' := (hcc' 0 (by omega)).1
    simp only [Nat.add_zero, Nat.sub_zero] at e e'
    rw [e, e', ← hlegacy, ← hstep] at hc
    rw [← hSTEP] at hi'
    have b1 := hb.last
    have b2 := hb'.last
    have b3 := hl.calcs_lt
    have b4 := hl'.calcs_lt
    have b5 := hb.first
    have b6 := hb'.first
    have := cast_inj fr_big (hbound i m hi (by omega)) (hbound i' m' hi' (by omega)) hc
    have := Nat.eq_of_mul_eq_mul_right hdp this
    have aux : ∀ i m i' m', i ≤ x.STEP → i' ≤ x.STEP → (0 < m → 0 < i) → (0 < m' → 0 < i') →
        i + m * x.step = i' + m' * x.step → ¬ m < m' := by
      intro i m i' m' h1 h2 h3 h4 h5 hlt
      have h6 : (m + 1) * x.step ≤ m' * x.step := Nat.mul_le_mul_right _ hlt
      have h7 := h4 (by omega)
      rw [Nat.add_mul, Nat.one_mul] at h6
      omega
    have n1 := aux i m i' m' hi hi' hpos hpos' this
    have n2 := aux i' m' i m hi' hi hpos' hpos this.symm
    omega
  subst hm
  refine ⟨rfl, fun i hi => ?_⟩
  rw [(hdig a m hb).1 i hi, (hdig' a' m hb').1 i hi, hc]
  congr 1
  unfold blockOf
  refine List.map_congr_left fun j hj => ?_
  rw [List.mem_range] at hj
  obtain ⟨h1, h2, h3⟩ := hw j (by omega)
  rw [h1, h2, h3]

-- the two chips with different modes, on blocks of three rows with the same head control
example (legacy : Bool) :
    ∃ (x y : Run Fr) (L L' : Layouter Fr) (g g' : Grid Fr), x.Accepted .septidon true L [] g ∧
      y.Accepted (.pow5 true) false L' [] g' ∧ x.mode = .serial ∧ y.mode = .parallel 4 ∧ x.legacy = y.legacy ∧
      x.STEP = y.STEP ∧ x.step = y.step ∧ x.STEP ≤ x.step ∧ Block x g 0 2 2 ∧ Block y g' 0 2 2 ∧
      x.col g 3 2 = y.col g' 3 2 := by
  obtain ⟨x, L, g, h, -, he, hn, h1, h2, h3, h4, -, hb, -, -, hc, -⟩ :=
    demo_blocks .septidon true legacy .serial
  obtain ⟨y, L', g', h', -, he', hn', h1', h2', h3', h4', -, hb', -, -, hc', -⟩ :=
    demo_blocks (.pow5 true) false legacy (.parallel 4)
  exact ⟨x, y, L, L', g, g', h, h', h4, h4', h3.trans h3'.symm, h2.trans h2'.symm, h1.trans h1'.symm,
    by omega, hb, hb', hc.trans hc'.symm⟩

/-- **C30, first part.** In every accepted assignment, the row before the first enabled row (which is not
enabled itself) and the last enabled row have zero message words and zero control, and the last enabled
row is a head. -/
theorem C30_custom_rows {x : Run Fr} {k : ChipKind} {short : Bool} {L' : Layouter Fr}
    {post : List (Op Fr)} {g : Grid Fr} (h : x.Accepted k short L' post g) :
    ∃ s, x.EnabledAfter g s ∧ g.fixed x.qEnable s = 0 ∧
      (∀ a, a = s ∨ a = s + x.calcs → x.col g 1 a = 0 ∧ x.col g 2 a = 0 ∧ x.col g 3 a = 0) ∧
      (0 < x.calcs → x.col g 5 (s + x.calcs) = 1) := by
  obtain ⟨s, hen, -, R⟩ := Accepted.rows h
  refine ⟨s, hen, ?_, ?_, fun h0 => R.lastHead h0⟩
  · have := hen.1
    have := h.laid.usable_le
    rw [hen.2 s (by omega), if_neg (by omega)]
  · rintro a (rfl | rfl)
    · exact ⟨R.first.w0, R.first.w1, R.first.ctrl⟩
    · exact ⟨R.last.w0, R.last.w1, R.last.ctrl⟩

example (k : ChipKind) (short legacy : Bool) (mode : LoadMode) :
    ∃ (x : Run Fr) (L' : Layouter Fr) (g : Grid Fr), x.Accepted k short L' [] g ∧ x.calcs = 6 := by
  obtain ⟨x, L', g, h, -, he, hn, -⟩ := demo_blocks k short legacy mode
  exact ⟨x, L', g, h, hn⟩

/-- **C30, second part.** The digest and the domain of the last enabled row are unconstrained. In every
accepted assignment the digest on that row may be replaced by any value; and for every laid-out grid
(any surrounding circuit that does not write to the advice columns of the hash table, any table) and all
values `d`, `e` there is an accepted assignment with the same fixed columns, selectors and foreign
advice columns that has digest `d` and domain `e` on that row. -/
theorem C30_last_row_free {x : Run Fr} {k : ChipKind} {short : Bool} (h0 : 0 < x.calcs) :
    (∀ L' post g s, x.Accepted k short L' post g → x.EnabledAfter g s → ∀ d,
      x.Accepted k short L' post (x.setDigest g (s + x.calcs) d)) ∧
    (∀ L' post g s, x.IsBn k short → x.Legal → x.Loads L' → x.Laid L' post g →
      x.EnabledAfter g s →
      (∀ c r v, Op.advice c r v ∈ x.before.ops ++ post → ¬ x.AdviceCol c) → ∀ d e : Fr, ∃ g',
        x.Accepted k short L' post g' ∧ g'.n = g.n ∧ g'.usable = g.usable ∧ g'.fixed = g.fixed ∧
        g'.selector = g.selector ∧ (∀ c, ¬ x.AdviceCol c → g'.advice c = g.advice c) ∧
        x.col g' 0 (s + x.calcs) = d ∧ x.col g' 4 (s + x.calcs) = e) := by
  refine ⟨fun L' post g s h hen d => ?_, fun L' post g s hbn hlegal hload hlaid hen hq d e => ?_⟩
  · obtain ⟨⟨lw, -⟩, hn⟩ := h.bn.lawful
    obtain ⟨h1, h2⟩ := Run.satisfies_setDigest lw h.legal hn h.loaded h.laid h.sat hen h0 d
    exact ⟨h.bn, h.legal, h.loaded, h1, h2⟩
  · obtain ⟨⟨lw, -⟩, hn⟩ := hbn.lawful
    obtain ⟨t, ht⟩ : ∃ t : HashTable Fr, t = ⟨[], [], List.replicate (x.calcs - 1) none ++ [some e], []⟩ :=
      ⟨_, rfl⟩
    obtain ⟨y, hy⟩ : ∃ y, y = x.reload t x.mode := ⟨_, rfl⟩
    have hlegal' : (x.reload t x.mode).Legal :=
      ⟨hlegal.cols, hlegal.inj, hlegal.enable, hlegal.STEP_lt, hlegal.step_lt, hlegal.calcs_lt, by
        intro c hc; rw [ht] at hc; simp [Run.reload] at hc⟩
    have hcap : Capacity t x.calcs x.mode := by
      rw [ht]
      cases x.mode with
      | serial => simp [Capacity]
      | parallel => trivial
    have hck : AllChecks x.legacy x.STEP specPerm (rowData t x.calcs) := by
      rw [rowData_eq, allChecks_iff]
      intro j hj ck h
      rw [ht] at h
      simp [rowAt] at h
    obtain ⟨L₂, s₁, s', hload₂, ho, ho₂⟩ := hload.reload lw hlegal hlegal' hn hcap hck
    have hlaid₂ := Run.laid_reload lw ho ho₂ hlaid
    have hon := Run.honest_fill hlaid₂ hq
    obtain ⟨g₁, hg₁⟩ : ∃ g₁, g₁ = (x.reload t x.mode).fillAdvice L₂ post g := ⟨_, rfl⟩
    rw [← hg₁] at hon
    obtain ⟨s₂, hen₂, -, hv, hiff⟩ := Run.honest_iff (x := x.reload t x.mode) lw fr_big hlegal' hn hload₂ hon
    have hwf : WellFormed x.STEP x.step (rowAt t) x.calcs := by
      refine ⟨fun j hj hgt => ?_, fun j hj => ?_⟩
      · rw [ht] at hgt; simp [ctl, rowAt] at hgt
      · rw [ht]; simp [ctl, rowAt]
    have hen₁ : (x.reload t x.mode).EnabledAfter g₁ s := by
      rw [hg₁]; exact hen
    obtain rfl : s₂ = s := hen₂.unique hon.usable_le hen₁ h0
    obtain ⟨hl₃, hs₃⟩ := Run.satisfies_setDigest (x := x.reload t x.mode) lw hlegal' hn hload₂ hon.toLaid
      (hiff.mpr hwf) hen₂ h0 d
    obtain ⟨g₃, hg₃⟩ : ∃ g₃, g₃ = (x.reload t x.mode).setDigest g₁ (s₂ + x.calcs) d := ⟨_, rfl⟩
    have hl₃' : (x.reload t x.mode).Laid L₂ post g₃ := by rw [hg₃]; exact hl₃
    have hs₃' : (x.reload t x.mode).Satisfies L₂ g₃ := by rw [hg₃]; exact hs₃
    have hl₄ := Run.laid_reload (x := x.reload t x.mode) (t := x.table) (m := x.mode) lw ho₂ ho hl₃'
    have hs₄ := Run.satisfies_reload (x := x.reload t x.mode) (t := x.table) (m := x.mode) lw ho₂ ho hs₃'
    have hcol0 : x.hashTable 4 ≠ x.hashTable 0 := fun h => by have := hlegal.inj h; revert this; decide
    refine ⟨g₃, ⟨hbn, hlegal, hload, hl₄, hs₄⟩, by rw [hg₃, hg₁]; rfl, by rw [hg₃, hg₁]; rfl,
      by rw [hg₃, hg₁]; rfl, by rw [hg₃, hg₁]; rfl, ?_, ?_, ?_⟩
    · intro c hc
      have hc0 : c ≠ x.hashTable 0 := fun h => hc (Or.inl ⟨0, h⟩)
      rw [hg₃, hg₁]
      funext r
      simp only [Run.setDigest, Run.fillAdvice]
      rw [if_neg (fun h => hc0 h.1)]
      exact if_neg hc
    · rw [hg₃]
      exact if_pos ⟨rfl, rfl⟩
    · have hd := hv.dom (x.calcs - 1) (show x.calcs - 1 < x.calcs by omega)
      rw [Nat.sub_add_cancel h0] at hd
      have e1 : x.col g₃ 4 (s₂ + x.calcs) = g₁.advice (x.hashTable 4) (s₂ + x.calcs) := by
        rw [hg₃]
        exact if_neg (fun h => hcol0 h.1)
      rw [e1]
      refine Eq.trans hd ?_
      simp only [Run.reload, rowAt, ht]
      rw [List.getElem?_append_right (by simp)]
      simp

-- the last row with digest 11 and domain 13
example (k : ChipKind) (short legacy : Bool) (mode : LoadMode) :
    ∃ (x : Run Fr) (L' : Layouter Fr) (g : Grid Fr), x.Accepted k short L' [] g ∧ x.EnabledAfter g 0 ∧
      x.col g 0 (0 + x.calcs) = 11 ∧ x.col g 4 (0 + x.calcs) = 13 := by
  obtain ⟨x, L', g, h, hh, he, hn, -⟩ := demo_blocks k short legacy mode
  obtain ⟨g', h', hgn, hu, hf, -, -, h1, h2⟩ := (C30_last_row_free (x := x) (by omega)).2 L' [] g 0 h.bn h.legal
    h.loaded h.laid he hh.quietAdvice 11 13
  obtain ⟨s, hen, -⟩ := C30_custom_rows h'
  refine ⟨x, L', g', h', ?_, h1, h2⟩
  refine ⟨by rw [hu]; exact he.1, ?_⟩
  rw [hf]
  intro r hr
  exact he.2 r (by omega)

/-- **C47.** Take an accepted assignment of a run with `step = STEP > 0` and an enabled row `a`, not the
last one, with head flag 1 and control `L·SPEC` (`SPEC = 2^64`, or 1 in the `legacy` build). Then the row
heads a block of exactly `max 1 ⌈L / STEP⌉` rows; if the domains of the block are zero then the digest in
column 0 is `hash_msg(words of the block, Some(L·SPEC))`; and if `L = 0` it is
`hash_with_domain([w0, w1], domain)`. -/
theorem C47_lookup {x : Run Fr} {k : ChipKind} {short : Bool} {L' : Layouter Fr}
    {post : List (Op Fr)} {g : Grid Fr} (h : x.Accepted k short L' post g) (hstep : x.step = x.STEP)
    (hpos : 0 < x.STEP) :
    ∃ s, x.EnabledAfter g s ∧ ∀ a L : ℕ, L < 2 ^ 64 → s < a → a < s + x.calcs → x.col g 5 a = 1 →
      x.col g 3 a = ((L * Base.domainSpec x.legacy : ℕ) : Fr) →
      ∃ m, Block x g s a m ∧ m + 1 = max 1 (L ⌈/⌉ x.STEP) ∧
        ((∀ i ≤ m, x.col g 4 (a + i) = 0) → 2 * (m + 1) < 2 ^ 64 →
          hashMsgFr short x.legacy (wordsOf x g a m) (some (L * Base.domainSpec x.legacy)) =
            .ok (x.col g 0 a)) ∧
        (L = 0 → hashWithDomainFr short ![x.col g 1 a, x.col g 2 a] (x.col g 4 a) = .ok (x.col g 0 a)) := by
  obtain ⟨s, hen, -, -, hcov, hctl, -⟩ := C28_controls h
  obtain ⟨s₂, hen₂, hdig⟩ := C26_block_digest h
  obtain ⟨s₃, hen₃, hmpt⟩ := C27_mpt_rows h
  refine ⟨s, hen, fun a L hL h1 h2 hh hc => ?_⟩
  have hs : s₂ = s := hen₂.unique h.laid.usable_le hen (by omega)
  have hs' : s₃ = s := hen₃.unique h.laid.usable_le hen (by omega)
  subst hs hs'
  have hl := h.legal
  have hdp : 0 < Base.domainSpec x.legacy := by unfold Base.domainSpec; split <;> omega
  have hd : Base.domainSpec x.legacy ≤ 2 ^ 64 := by unfold Base.domainSpec; split <;> omega
  obtain ⟨a', m, hb, ha1, ha2⟩ := hcov a h1 h2
  have haa : a' = a := by
    by_contra hne
    have := hb.cont (a - a') (by omega) (by omega)
    rw [show a' + (a - a') = a by omega, hh] at this
    exact one_ne_zero this
  subst haa
  obtain ⟨i, hi, hpos', hcc⟩ := hctl a' m hb
  have e := (hcc 0 (by omega)).1
  simp only [Nat.add_zero, Nat.sub_zero] at e
  rw [e] at hc
  have b1 := hb.last
  have hbound : (i + m * x.step) * Base.domainSpec x.legacy < 2 ^ 200 := by
    have e : m * x.step ≤ 2 ^ 64 * 2 ^ 64 :=
      Nat.mul_le_mul (by have := hl.calcs_lt; omega) (by have := hl.step_lt; omega)
    have : (i + m * x.step) * Base.domainSpec x.legacy ≤ 2 ^ 129 * 2 ^ 64 :=
      Nat.mul_le_mul (by have := hl.STEP_lt; omega) hd
    omega
  have hLb : L * Base.domainSpec x.legacy < 2 ^ 200 :=
    lt_of_le_of_lt (Nat.mul_le_mul (by omega : L ≤ 2 ^ 64) hd) (by norm_num)
  have hLe := Nat.eq_of_mul_eq_mul_right hdp (cast_inj fr_big hbound hLb hc)
  refine ⟨m, hb, ?_, ?_, ?_⟩
  · rw [hstep] at hLe
    rw [Nat.ceilDiv_eq_add_pred_div]
    rcases Nat.eq_zero_or_pos m with rfl | hm
    · rw [max_eq_left]
      have : (L + x.STEP - 1) / x.STEP < 2 := by
        rw [Nat.div_lt_iff_lt_mul hpos]; omega
      omega
    · have hi0 := hpos' hm
      have : (L + x.STEP - 1) / x.STEP = m + 1 := by
        rw [Nat.div_eq_iff hpos, ← hLe, Nat.add_mul, Nat.one_mul]
        constructor <;> omega
      rw [this]
      omega
  · intro hd0 hlen
    exact (hdig a' m hb).2 _ (by rw [e, hLe]) hd0 hlen 0 (by omega)
  · rintro rfl
    exact (hmpt a' h1 h2 (by rw [e, hLe]; simp)).2.2

-- `L = 150` heads a block of `⌈150/62⌉ = 3` rows, `L = 0` a block of one row
example (k : ChipKind) (short legacy : Bool) (mode : LoadMode) :
    ∃ (x : Run Fr) (L' : Layouter Fr) (g : Grid Fr), x.Accepted k short L' [] g ∧ x.step = x.STEP ∧ 0 < x.STEP ∧
      x.EnabledAfter g 0 ∧ x.col g 5 2 = 1 ∧ x.col g 3 2 = ((150 * Base.domainSpec x.legacy : ℕ) : Fr) ∧
      max 1 (150 ⌈/⌉ x.STEP) = 3 ∧ x.col g 5 1 = 1 ∧
      x.col g 3 1 = ((0 * Base.domainSpec x.legacy : ℕ) : Fr) := by
  obtain ⟨x, L', g, h, -, he, hn, h1, h2, h3, -, hb, hb', h0, -, hc, -⟩ := demo_blocks k short legacy mode
  exact ⟨x, L', g, h, by omega, by omega, he, hb'.head, by rw [hc, h3],
    by rw [h2, Nat.ceilDiv_eq_add_pred_div]; norm_num, hb.head, by rw [h0]; simp⟩

end Props
