import Verif.Circuit.HashCircuit
import Verif.Circuit.MockChip
import Verif.Circuit.SeptidonBn

/-!
# The test circuit of the Septidon chip

Models `TestCircuit` of `/repo/poseidon-circuit/src/poseidon/septidon/tests.rs` lines 21-66. The initial state and the
expected final state, constants there, are parameters. The test compares the printed form of the final state with a
string; the model compares the words (halo2curves prints a word as its 64 hexadecimal digits).
-/

set_option linter.unusedVariables false
set_option linter.unusedSectionVars false

open Halo2 Circuit.TestCircuit

namespace Circuit.Septidon
variable {F : Type} [Field F] [DecidableEq F]

/-- The loop of `synthesize`, septidon/tests.rs:44-63: each iteration assigns one region with `assign_permutation`
(septidon_chip.rs:116-122) and compares the returned state. `unwrap_value` (line 58) does not panic: the words are
known, also for key generation, as `without_witnesses` (lines 29-31) returns the circuit itself. -/
def testRegions (m : Base.Mds F 3) (rc : ℕ → Fin 3 → F) (c : Config) (initial expect : Fin 3 → F) :
    ℕ → Layouter F → Except Panic (Layouter F)
  | 0, L => .ok L
  | n + 1, L => do
    let (final, L) ← L.assignRegion fun start => .ok (assignPermutation m rc c start initial 0)
    if final = expect then testRegions m rc c initial expect n L else .error .testMismatch

/-- `configure` and `synthesize` of `TestCircuit`, septidon/tests.rs:33-66. `SeptidonChip::configure` is the inherent
function (septidon_chip.rs:37-89): unlike `PermuteChip::configure` it enables equality on no column. -/
def testCircuit (m : Base.Mds F 3) (rc : ℕ → Fin 3 → F) (initial expect : Fin 3 → F) (height : ℕ) :
    Except Panic (CS F × Layouter F) := do
  let (c, cs) := configureChip m rc emptyCS
  let L ← testRegions m rc c initial expect (height / 8) (freshLayouter none)
  return (cs, L)

/-- The final state the test expects of the initial state `0, 1, 2`, septidon/tests.rs:61. -/
def testExpect : Fin 3 → Base.Bn256.Fr :=
  ![((0x115cc0f5e7d690413df64c6b9662e9cf2a3617f2743245519e19607a4417189a : ℕ) : Base.Bn256.Fr),
    ((0x0fca49b798923ab0239de1c9e7a4a9a2210312b6a2f616d18b5a87f9b628ae29 : ℕ) : Base.Bn256.Fr),
    ((0x0e7ae82e40091e63cbd4f16a6d16310b3729d4b6e138fcf54110e2867045a30c : ℕ) : Base.Bn256.Fr)]

/-! ## The configuration -/

theorem configureChip_eq (m : Base.Mds F 3) (rc : ℕ → Fin 3 → F) :
    configureChip m rc emptyCS = (config 0 0, ⟨13, 11, 0, gates m rc (config 0 0), [], []⟩) := rfl

/-! ## The regions -/

section
variable (m : Base.Mds F 3) (rc : ℕ → Fin 3 → F) (hc : Compact rc) (x : Fin 3 → F)
include hc

theorem assign_cols (s : ℕ) (c : RCol) :
    c ∈ Layouter.shapeCols (assignPermutation m rc (config 0 0) s x 0).ops ↔ ChipCol 0 0 c := by
  rw [← permuteBody_cols 0 0 m rc hc (fun k => ⟨⟨.advice 0, 0⟩, x k⟩) s c, Layouter.mem_shapeCols, Layouter.mem_shapeCols]
  constructor
  · rintro ⟨o, ho, e⟩
    exact ⟨o, (mem_permuteBody 0 0 m rc hc _ s o).mpr (Or.inl ((mem_assignPermutation 0 0 m rc x s 0 hc o).mp ho)), e⟩
  · rintro ⟨o, ho, e⟩
    rcases (mem_permuteBody 0 0 m rc hc _ s o).mp ho with h | ⟨k, rfl⟩
    · exact ⟨o, (mem_assignPermutation 0 0 m rc x s 0 hc o).mpr h, e⟩
    · cases e

theorem assign_rows : Layouter.shapeRows (assignPermutation m rc (config 0 0) 0 x 0).ops = 8 := by
  apply Layouter.shapeRows_eq
  · intro o ho
    rw [mem_assignPermutation 0 0 m rc x 0 0 hc] at ho
    rcases ho.shape with ⟨c', r, v, rfl, _, _, h1, h2⟩ | ⟨c', r, v, rfl, _, _, h1, h2⟩ <;>
      simp only [Op.bottom] <;> omega
  · exact ⟨_, (mem_assignPermutation 0 0 m rc x 0 0 hc _).mpr .mark, rfl⟩

/-- The operations of `n` regions from row `s` on. -/
def testOps (m : Base.Mds F 3) (rc : ℕ → Fin 3 → F) (x : Fin 3 → F) : ℕ → ℕ → List (Op F)
  | 0, _ => []
  | n + 1, s => (assignPermutation m rc (config 0 0) s x 0).ops ++ testOps m rc x n (s + 8)

omit hc in
theorem mem_testOps (o : Op F) : ∀ n s, o ∈ testOps m rc x n s ↔
    ∃ i < n, o ∈ (assignPermutation m rc (config 0 0) (s + 8 * i) x 0).ops
  | 0, s => by simp [testOps]
  | n + 1, s => by
    rw [testOps, List.mem_append, mem_testOps o n]
    constructor
    · rintro (h | ⟨i, hi, h⟩)
      · exact ⟨0, by omega, h⟩
      · exact ⟨i + 1, by omega, by rwa [show s + 8 * (i + 1) = s + 8 + 8 * i by ring]⟩
    · rintro ⟨i, hi, h⟩
      cases i with
      | zero => exact Or.inl h
      | succ i => exact Or.inr ⟨i, by omega, by rwa [show s + 8 + 8 * i = s + 8 * (i + 1) by ring]⟩

theorem testRegions_step (expect : Fin 3 → F) (n : ℕ) (L : Layouter F) (s : ℕ) (hL : ∀ c, ChipCol 0 0 c → L.colEnd c = s) :
    ∃ L', L'.ops = L.ops ++ (assignPermutation m rc (config 0 0) s x 0).ops ∧
      (∀ c, ChipCol 0 0 c → L'.colEnd c = s + 8) ∧
      testRegions m rc (config 0 0) x expect (n + 1) L =
        if perm m rc x = expect then testRegions m rc (config 0 0) x expect n L' else .error .testMismatch := by
  have hno : ∀ s c v, Op.constant c v ∉ (assignPermutation m rc (config 0 0) s x 0).ops := by
    intro s c v h
    rw [mem_assignPermutation 0 0 m rc x s 0 hc] at h
    rcases h.shape with ⟨_, _, _, h, _⟩ | ⟨_, _, _, h, _⟩ <;> cases h
  have hcols := assign_cols m rc hc x 0
  have hstart : L.startOf (assignPermutation m rc (config 0 0) 0 x 0).ops = s := by
    obtain ⟨c, h1, h2⟩ := L.startOf_mem (List.ne_nil_of_mem ((hcols (.fixed 0)).mpr (Or.inr ⟨0, by omega, rfl⟩)))
    rw [← h2, hL c ((hcols c).mp h1)]
  have h := L.assignRegion_ok _ hno
  rw [hstart, assignPermutation_val 0 0 m rc x s 0 hc] at h
  obtain ⟨L1, h1, h2⟩ : ∃ L1 : Layouter F, (L.assignRegion fun s => Except.ok
      (assignPermutation m rc (config 0 0) s x 0)) = .ok (perm m rc x, L1) ∧
      L1.ops = L.ops ++ (assignPermutation m rc (config 0 0) s x 0).ops ∧
      ∀ c, ChipCol 0 0 c → L1.colEnd c = s + 8 := by
    refine ⟨_, h, rfl, fun c hcc => ?_⟩
    simp only [(hcols c).mpr hcc, if_true, assign_rows m rc hc x]
  refine ⟨L1, h2.1, h2.2, ?_⟩
  rw [testRegions, h1]
  rfl

/-- The regions follow one another; the first difference from the expected state ends the synthesis. -/
theorem testRegions_eq (expect : Fin 3 → F) : ∀ (n : ℕ) (L : Layouter F) (s : ℕ),
    (∀ c, ChipCol 0 0 c → L.colEnd c = s) →
    if n = 0 ∨ perm m rc x = expect then
      ∃ L', testRegions m rc (config 0 0) x expect n L = .ok L' ∧ L'.ops = L.ops ++ testOps m rc x n s
    else testRegions m rc (config 0 0) x expect n L = .error .testMismatch
  | 0, L, s, hL => by rw [if_pos (Or.inl rfl)]; exact ⟨L, rfl, by simp [testOps]⟩
  | n + 1, L, s, hL => by
    obtain ⟨L1, o1, l1, e1⟩ := testRegions_step m rc hc x expect n L s hL
    by_cases he : perm m rc x = expect
    · rw [if_pos (Or.inr he), e1, if_pos he]
      have := testRegions_eq expect n L1 (s + 8) l1
      rw [if_pos (Or.inr he)] at this
      obtain ⟨L2, e2, o2⟩ := this
      exact ⟨L2, e2, by rw [o2, o1, List.append_assoc]; rfl⟩
    · rw [if_neg (by simpa using he), e1, if_neg he]

/-! ## The cells -/

/-- The log differs from that of `permute` on words with these values by copies only. -/
theorem testOps_final (n : ℕ) :
    let ps := placeAt (List.replicate n fun k : Fin 3 => (⟨⟨.advice 0, 0⟩, x k⟩ : ACell F)) (stack 8 0)
    Apart ps ∧ (∀ c r, finalFixed (testOps m rc x n 0) c r = finalFixed (placedOps 0 0 m rc ps) c r) ∧
    (∀ c r, finalAdvice (testOps m rc x n 0) c r = finalAdvice (placedOps 0 0 m rc ps) c r) ∧
    ∀ u, Fits (testOps m rc x n 0) u ↔ Fits (placedOps 0 0 m rc ps) u := by
  intro ps
  have hap : Apart ps := placeAt_apart 8 _ _ (RowsApart.stack 8 _ 0)
  have hq : ∀ q ∈ ps, (fun k => (q.1 k).value) = x ∧ ∃ i < n, q.2 = 8 * i := by
    intro q hq
    obtain ⟨h1, i, h2, h3⟩ := placeAt_mem _ _ q hq
    rw [List.length_replicate] at h2
    rw [List.eq_of_mem_replicate h1]
    exact ⟨rfl, i, h2, by rw [h3]; simp [stack]⟩
  have hi : ∀ i < n, ∃ q ∈ ps, q.2 = 8 * i := by
    intro i hi
    obtain ⟨q, h1, h2⟩ := placeAt_get (List.replicate n fun k : Fin 3 => (⟨⟨.advice 0, 0⟩, x k⟩ : ACell F)) (stack 8 0) i
      (by rwa [List.length_replicate])
    exact ⟨q, h1, by rw [h2]; simp [stack]⟩
  have hm : ∀ o, o ∈ testOps m rc x n 0 ↔ ∃ q ∈ ps, BlockOp 0 0 m rc (fun k => (q.1 k).value) q.2 o := by
    intro o
    rw [mem_testOps]
    constructor
    · rintro ⟨i, h1, h2⟩
      obtain ⟨q, h3, h4⟩ := hi i h1
      rw [mem_assignPermutation 0 0 m rc x _ 0 hc] at h2
      exact ⟨q, h3, by rw [(hq q h3).1, h4]; simpa using h2⟩
    · rintro ⟨q, h1, h2⟩
      obtain ⟨h3, i, h4, h5⟩ := hq q h1
      rw [h3, h5] at h2
      exact ⟨i, h4, (mem_assignPermutation 0 0 m rc x _ 0 hc o).mpr (by simpa using h2)⟩
  have hsub : ∀ o ∈ testOps m rc x n 0, o ∈ placedOps 0 0 m rc ps := fun o ho =>
    (mem_placedOps 0 0 m rc hc ps o).mpr (by
      obtain ⟨q, h1, h2⟩ := (hm o).mp ho
      exact ⟨q, h1, Or.inl h2⟩)
  have hback : ∀ o ∈ placedOps 0 0 m rc ps, o ∈ testOps m rc x n 0 ∨ ∃ c d, o = .copy c d := by
    intro o ho
    obtain ⟨q, h1, h2 | ⟨k, rfl⟩⟩ := (mem_placedOps 0 0 m rc hc ps o).mp ho
    · exact Or.inl ((hm o).mpr ⟨q, h1, h2⟩)
    · exact Or.inr ⟨_, _, rfl⟩
  refine ⟨hap, fun c r => ?_, fun c r => ?_, fun u => ⟨fun h o ho => ?_, fun h o ho => h o (hsub o ho)⟩⟩
  · by_cases h : ∃ q ∈ ps, ∃ v, BlockOp 0 0 m rc (fun k => (q.1 k).value) q.2 (.fixed c r v)
    · obtain ⟨q, h1, v, h2⟩ := h
      have e := final_fixed 0 0 m rc hc ps hap q h1 c r v h2
      rw [e]
      refine finalFixed_eq ⟨_, (hm _).mpr ⟨q, h1, h2⟩, Or.inl rfl⟩ fun o ho v' hw => ?_
      obtain ⟨q', h1', h2'⟩ := (hm o).mp ho
      rcases hw with rfl | ⟨r', _, rfl⟩
      · rw [← e, final_fixed 0 0 m rc hc ps hap q' h1' c r v' h2']
      · rcases h2'.shape with ⟨_, _, _, e, _⟩ | ⟨_, _, _, e, _⟩ <;> cases e
    · have hz : ∀ o ∈ testOps m rc x n 0, ∀ v', ¬ o.FixedWrite c r v' := by
        intro o ho v' hw
        obtain ⟨q', h1', h2'⟩ := (hm o).mp ho
        rcases hw with rfl | ⟨r', _, rfl⟩
        · exact h ⟨q', h1', v', h2'⟩
        · rcases h2'.shape with ⟨_, _, _, e, _⟩ | ⟨_, _, _, e, _⟩ <;> cases e
      rw [finalFixed_zero hz, finalFixed_zero]
      intro o ho v' hw
      rcases hback o ho with h' | ⟨_, _, rfl⟩
      · exact hz o h' v' hw
      · rcases hw with h | ⟨_, _, h⟩ <;> cases h
  · by_cases h : ∃ q ∈ ps, ∃ v, BlockOp 0 0 m rc (fun k => (q.1 k).value) q.2 (.advice c r v)
    · obtain ⟨q, h1, v, h2⟩ := h
      have e := final_advice 0 0 m rc hc ps hap q h1 c r v h2
      rw [e]
      refine finalAdvice_eq ((hm _).mpr ⟨q, h1, h2⟩) fun v' ho => ?_
      obtain ⟨q', h1', h2'⟩ := (hm _).mp ho
      rw [← e, final_advice 0 0 m rc hc ps hap q' h1' c r v' h2']
    · have hz : ∀ v, Op.advice c r v ∉ testOps m rc x n 0 := by
        intro v ho
        obtain ⟨q', h1', h2'⟩ := (hm _).mp ho
        exact h ⟨q', h1', v, h2'⟩
      rw [finalAdvice_zero hz, finalAdvice_zero]
      intro v ho
      rcases hback _ ho with h' | ⟨_, _, h'⟩
      · exact hz v h'
      · cases h'
  · rcases hback o ho with h' | ⟨_, _, rfl⟩
    · exact h o h'
    · exact Nat.zero_le _

theorem fits_testOps (n u : ℕ) : Fits (testOps m rc x n 0) u ↔ 8 * n ≤ u := by
  constructor
  · intro h
    cases n with
    | zero => omega
    | succ n =>
      have := h _ ((mem_testOps m rc x _ (n + 1) 0).mpr ⟨n, by omega, (mem_assignPermutation 0 0 m rc x _ 0 hc _).mpr .mark⟩)
      simp only [Op.bottom] at this
      omega
  · intro h o ho
    obtain ⟨i, hi, ho⟩ := (mem_testOps m rc x o n 0).mp ho
    rw [mem_assignPermutation 0 0 m rc x _ 0 hc] at ho
    rcases ho.shape with ⟨c', r, v, rfl, _, _, h1, h2⟩ | ⟨c', r, v, rfl, _, _, h1, h2⟩ <;>
      simp only [Op.bottom] <;> omega

end

end Circuit.Septidon
