import Verif.Halo2.Threads
import Mathlib.Data.List.Forall2

/-!
# The permutation-chip interface

Models the traits `PermuteChip` / `PoseidonInstructions`,
`/repo/poseidon-circuit/src/poseidon.rs` lines 35-84, and states what a correct implementation is.
-/

set_option linter.unusedVariables false
set_option linter.unusedSectionVars false

open Halo2

namespace Circuit

variable {F : Type} [Field F] {T : ℕ}

/-- `State<Self::Word, T>`: cells holding a state. -/
abbrev Words (F : Type) (T : ℕ) := Fin T → ACell F

/-- Default `permute_batch`: permute the states one after the other, poseidon.rs:74-83. -/
def mapPermute (permute : Layouter F → Words F T → Except Panic (Words F T × Layouter F)) :
    Layouter F → List (Words F T) → Except Panic (List (Words F T) × Layouter F)
  | L, [] => .ok ([], L)
  | L, s :: rest => do
    let (o, L) ← permute L s
    let (os, L) ← mapPermute permute L rest
    return (o :: os, L)

/-- `trait PermuteChip`, poseidon.rs:35-84: `configure`, `permute` and `permute_batch` (whose result
may be computed by several threads; `permuteBatch` takes `available_parallelism()` as argument).
`permuteBatchBy` is the same with the operations of the threads in the order of a scheduler.
`construct` only wraps the configuration. -/
structure Chip (F : Type) [Field F] (T : ℕ) where
  Config : Type
  configure : StateM (CS F) Config
  permute : Config → Layouter F → Words F T → Except Panic (Words F T × Layouter F)
  permuteBatch : Config → ℕ → Layouter F → List (Words F T) →
    Except Panic (List (Words F T) × Layouter F)
  permuteBatchBy : Scheduler F → Config → ℕ → Layouter F → List (Words F T) →
    Except Panic (List (Words F T) × Layouter F)

/-- The cells of a list of words have the values they carry. -/
def Carries (g : Grid F) (ws : List (Words F T)) : Prop :=
  ∀ w ∈ ws, ∀ k, g.cell (w k).cell = (w k).value

/-- The cells of a list of words. -/
def cells (ws : List (Words F T)) : List (Fin T → Cell) := ws.map fun w k => (w k).cell

/-! ## Placement of regions -/

/-- The words with the start rows of their regions: the region of number `i` starts at row `p i`. -/
def placeAt : List (Words F T) → (ℕ → ℕ) → List (Words F T × ℕ)
  | [], _ => []
  | w :: ws, p => (w, p 0) :: placeAt ws fun i => p (i + 1)

/-- Regions of `h` rows one right below the other, from row `s` on. -/
def stack (h s : ℕ) : ℕ → ℕ := fun i => s + h * i

/-- The first `n` regions, of `h` rows each, have no row in common. -/
def RowsApart (h n : ℕ) (p : ℕ → ℕ) : Prop :=
  ∀ i j, i < j → j < n → p i + h ≤ p j ∨ p j + h ≤ p i

theorem RowsApart.tail {h n : ℕ} {p : ℕ → ℕ} (hp : RowsApart h (n + 1) p) :
    RowsApart h n fun i => p (i + 1) :=
  fun i j hij hj => hp (i + 1) (j + 1) (by omega) (by omega)

theorem RowsApart.stack (h n s : ℕ) : RowsApart h n (stack h s) := by
  intro i j hij _
  left
  have : h * (i + 1) ≤ h * j := Nat.mul_le_mul_left h hij
  simp only [Circuit.stack]
  rw [Nat.mul_add] at this
  omega

theorem stack_zero (h s : ℕ) : stack h s 0 = s := by simp [stack]

theorem stack_succ (h s : ℕ) : (fun i => stack h s (i + 1)) = stack h (s + h) := by
  funext i
  simp only [stack, Nat.mul_add]
  omega

theorem stack_bounds {h s n r : ℕ} (hr : ∃ i < n, stack h s i ≤ r ∧ r < stack h s i + h) :
    s ≤ r ∧ r < s + h * n := by
  obtain ⟨i, hi, h1, h2⟩ := hr
  have : h * (i + 1) ≤ h * n := Nat.mul_le_mul_left h hi
  simp only [stack] at h1 h2
  rw [Nat.mul_add] at this
  omega

theorem placeAt_stack (h : ℕ) (w : Words F T) (ws : List (Words F T)) (s : ℕ) :
    placeAt (w :: ws) (stack h s) = (w, s) :: placeAt ws (stack h (s + h)) := by
  rw [placeAt, stack_zero, stack_succ]

theorem placeAt_mem : ∀ (ws : List (Words F T)) (p : ℕ → ℕ), ∀ q ∈ placeAt ws p,
    q.1 ∈ ws ∧ ∃ i < ws.length, q.2 = p i
  | [], p, q, h => by simp [placeAt] at h
  | w :: ws, p, q, h => by
    rcases List.mem_cons.mp h with rfl | h
    · exact ⟨by simp, 0, by simp, rfl⟩
    · obtain ⟨h1, i, h2, h3⟩ := placeAt_mem ws _ q h
      exact ⟨List.mem_cons_of_mem _ h1, i + 1, by simpa using h2, h3⟩

theorem placeAt_length : ∀ (ws : List (Words F T)) (p : ℕ → ℕ), (placeAt ws p).length = ws.length
  | [], p => rfl
  | w :: ws, p => by simp only [placeAt, List.length_cons, placeAt_length ws]

theorem placeAt_get : ∀ (ws : List (Words F T)) (p : ℕ → ℕ) (i : ℕ), i < ws.length →
    ∃ q ∈ placeAt ws p, q.2 = p i
  | [], p, i, h => by simp at h
  | w :: ws, p, 0, h => ⟨(w, p 0), by simp [placeAt], rfl⟩
  | w :: ws, p, i + 1, h => by
    obtain ⟨q, hq, e⟩ := placeAt_get ws (fun i => p (i + 1)) i (by simpa using h)
    exact ⟨q, List.mem_cons_of_mem _ hq, e⟩

theorem placeAt_apart (h : ℕ) : ∀ (ws : List (Words F T)) (p : ℕ → ℕ), RowsApart h ws.length p →
    (placeAt ws p).Pairwise fun q q' => q.2 + h ≤ q'.2 ∨ q'.2 + h ≤ q.2
  | [], p, hp => List.Pairwise.nil
  | w :: ws, p, hp => by
    refine List.pairwise_cons.mpr ⟨fun q hq => ?_, placeAt_apart h ws _ hp.tail⟩
    obtain ⟨-, i, hi, e⟩ := placeAt_mem ws _ q hq
    rw [e]
    exact hp 0 (i + 1) (by omega) (by simpa using hi)

/-- A relation between the words and what is computed from them, region by region. -/
theorem forall₂_placeAt (R : Words F T → Words F T → Prop) (o : Words F T × ℕ → Words F T) :
    ∀ (ws : List (Words F T)) (p : ℕ → ℕ), (∀ q ∈ placeAt ws p, R q.1 (o q)) →
      List.Forall₂ R ws ((placeAt ws p).map o)
  | [], p, h => List.Forall₂.nil
  | w :: ws, p, h => List.Forall₂.cons (h (w, p 0) (by simp [placeAt]))
      (forall₂_placeAt R o ws _ fun q hq => h q (by simp [placeAt, hq]))

/-- A function of the regions that only depends on the cells of the words. -/
theorem flatMap_placeAt {β : Type} (o : Words F T × ℕ → List β)
    (ho : ∀ w w' s, (∀ k, (w k).cell = (w' k).cell) → o (w, s) = o (w', s)) :
    ∀ (ws ws' : List (Words F T)) (p : ℕ → ℕ), cells ws = cells ws' →
      (placeAt ws p).flatMap o = (placeAt ws' p).flatMap o
  | [], [], p, h => rfl
  | [], _ :: _, p, h => by simp [cells] at h
  | _ :: _, [], p, h => by simp [cells] at h
  | w :: ws, w' :: ws', p, h => by
    simp only [cells, List.map_cons, List.cons.injEq] at h
    simp only [placeAt, List.flatMap_cons]
    rw [ho w w' (p 0) fun k => congrFun h.1 k, flatMap_placeAt o ho ws ws' _ h.2]

/-- A column or selector among the `nA`, `nF`, `nS` ones from `a`, `f`, `σ` on. -/
def OwnCol (nA nF nS a f σ : ℕ) (k : RCol) : Prop :=
  (∃ i < nA, k = .advice (a + i)) ∨ (∃ i < nF, k = .fixed (f + i)) ∨ ∃ i < nS, k = .selector (σ + i)

/-- What the users of a chip need from it: for any constraint system it is added to, and any list of
states, in any grid that respects the fixed columns, selectors and copy constraints laid down by the
chip, the gates of the chip force the returned cells to hold `π` of the given cells; and the honest
cells satisfy the gates. `a`, `f`, `σ` are the numbers of advice columns, fixed columns and selectors
that exist before the chip is configured. -/
structure Chip.Lawful (ch : Chip F T) (π : (Fin T → F) → Fin T → F) where
  /-- numbers of columns and selectors of the chip -/
  nA : ℕ
  nF : ℕ
  nS : ℕ
  /-- rows per permutation -/
  height : ℕ
  cfg : ℕ → ℕ → ℕ → ch.Config
  gates : ℕ → ℕ → ℕ → List (Gate F)
  eqs : ℕ → ℕ → ℕ → List Col
  /-- what the chip writes and returns for permutations whose regions start at the given rows -/
  ops : ℕ → ℕ → ℕ → List (Words F T) → (ℕ → ℕ) → List (Op F)
  outs : ℕ → ℕ → ℕ → List (Words F T) → (ℕ → ℕ) → List (Words F T)
  ops_nil : ∀ a f σ p, ops a f σ [] p = []
  ops_cons : ∀ a f σ w ws p, ops a f σ (w :: ws) p =
    ops a f σ [w] (fun _ => p 0) ++ ops a f σ ws fun i => p (i + 1)
  outs_nil : ∀ a f σ p, outs a f σ [] p = []
  outs_cons : ∀ a f σ w ws p, outs a f σ (w :: ws) p =
    outs a f σ [w] (fun _ => p 0) ++ outs a f σ ws fun i => p (i + 1)
  configure_eq : ∀ cs : CS F, ch.configure cs =
    (cfg cs.numAdvice cs.numFixed cs.numSelectors,
      { numAdvice := cs.numAdvice + nA
        numFixed := cs.numFixed + nF
        numSelectors := cs.numSelectors + nS
        gates := cs.gates ++ gates cs.numAdvice cs.numFixed cs.numSelectors
        lookups := cs.lookups
        equality := cs.equality ++ eqs cs.numAdvice cs.numFixed cs.numSelectors })
  /-- the gates query only columns and selectors of the chip -/
  within : ∀ a f σ, ∀ p ∈ gates a f σ, ∀ e ∈ p.polys, e.Within (fun c => a ≤ c ∧ c < a + nA)
    (fun c => f ≤ c ∧ c < f + nF) (fun c => σ ≤ c ∧ c < σ + nS)
  /-- equality is enabled on columns of the chip only -/
  eqs_own : ∀ a f σ, ∀ c ∈ eqs a f σ,
    (∃ i, c = .advice i ∧ a ≤ i ∧ i < a + nA) ∨ ∃ i, c = .fixed i ∧ f ≤ i ∧ i < f + nF
  /-- the columns whose first free rows decide on the start row, in either mode -/
  keySerial : ℕ → ℕ → ℕ → RCol → Prop
  keyBatch : ℕ → ℕ → ℕ → RCol → Prop
  key_own : ∀ a f σ k, keySerial a f σ k ∨ keyBatch a f σ k → OwnCol nA nF nS a f σ k
  serial : ∀ a f σ (L : Layouter F) (ws : List (Words F T)), ∃ s L',
    mapPermute (ch.permute (cfg a f σ)) L ws = .ok (outs a f σ ws (stack height s), L') ∧
    L'.ops = L.ops ++ ops a f σ ws (stack height s) ∧
    ((∀ i < nA, L.colEnd (.advice (a + i)) = 0) → (∀ i < nF, L.colEnd (.fixed (f + i)) = 0) →
      (∀ i < nS, L.colEnd (.selector (σ + i)) = 0) → s = 0) ∧
    (ws ≠ [] → Top L.colEnd (keySerial a f σ) s) ∧
    ∀ k, ¬ OwnCol nA nF nS a f σ k → L'.colEnd k = L.colEnd k
  batch : ∀ a f σ (L : Layouter F) (threads : ℕ) (ws : List (Words F T)), ∃ s L',
    ch.permuteBatch (cfg a f σ) threads L ws = .ok (outs a f σ ws (stack height s), L') ∧
    L'.ops = L.ops ++ ops a f σ ws (stack height s) ∧
    ((∀ i < nA, L.colEnd (.advice (a + i)) = 0) → (∀ i < nF, L.colEnd (.fixed (f + i)) = 0) →
      (∀ i < nS, L.colEnd (.selector (σ + i)) = 0) → s = 0) ∧
    (ws ≠ [] → Top L.colEnd (keyBatch a f σ) s) ∧
    ∀ k, ¬ OwnCol nA nF nS a f σ k → L'.colEnd k = L.colEnd k
  /-- the chip writes only to its own columns, to the rows of its regions, and copies the given cells to
  equality-enabled columns of its own -/
  shape : ∀ a f σ ws p, ∀ op ∈ ops a f σ ws p,
    (∃ c r v, op = .advice c r v ∧ a ≤ c ∧ c < a + nA ∧ ∃ i < ws.length, p i ≤ r ∧ r < p i + height) ∨
    (∃ c r v, op = .fixed c r v ∧ f ≤ c ∧ c < f + nF ∧ ∃ i < ws.length, p i ≤ r ∧ r < p i + height) ∨
    (∃ c r, op = .selector c r ∧ σ ≤ c ∧ c < σ + nS ∧ ∃ i < ws.length, p i ≤ r ∧ r < p i + height) ∨
    (∃ c r w k, op = .copy ⟨c, r⟩ (w k).cell ∧ w ∈ ws ∧ c ∈ eqs a f σ)
  /-- the last row of every region is written -/
  reach : ∀ a f σ ws p, ∀ i < ws.length, ∃ op ∈ ops a f σ ws p, op.bottom = p i + height
  outs_eq : ∀ a f σ ws p, ∀ o ∈ outs a f σ ws p, ∀ k, (o k).cell.col ∈ eqs a f σ
  /-- fixed cells, selectors, copies and returned cells do not depend on the values -/
  outs_cells : ∀ a f σ ws ws' p, cells ws = cells ws' →
    cells (outs a f σ ws p) = cells (outs a f σ ws' p)
  ops_erase : ∀ a f σ ws ws' p, cells ws = cells ws' →
    (ops a f σ ws p).map Op.erase = (ops a f σ ws' p).map Op.erase
  values : ∀ a f σ ws p, List.Forall₂ (fun w o => ∀ k, (o k).value = π (fun k => (w k).value) k) ws
    (outs a f σ ws p)
  sound : ∀ a f σ ws p (g : Grid F), RowsApart height ws.length p → Fits (ops a f σ ws p) g.n →
    (∀ c, f ≤ c → c < f + nF → ∀ r < g.n, g.fixed c r = finalFixed (ops a f σ ws p) c r) →
    (∀ c, σ ≤ c → c < σ + nS → ∀ r < g.n, g.selector c r = finalSelector (ops a f σ ws p) c r) →
    CopiesHold g (ops a f σ ws p) → (∀ q ∈ gates a f σ, q.Holds g) →
    List.Forall₂ (fun w o => ∀ k, g.cell (o k).cell = π (fun k => g.cell (w k).cell) k) ws
      (outs a f σ ws p)
  complete : ∀ a f σ ws p (g : Grid F), RowsApart height ws.length p →
    g.usable ≤ g.n → Fits (ops a f σ ws p) g.usable →
    (∀ c, f ≤ c → c < f + nF → ∀ r < g.n, g.fixed c r = finalFixed (ops a f σ ws p) c r) →
    (∀ c, σ ≤ c → c < σ + nS → ∀ r < g.n, g.selector c r = finalSelector (ops a f σ ws p) c r) →
    (∀ c, a ≤ c → c < a + nA → ∀ r < g.usable, g.advice c r = finalAdvice (ops a f σ ws p) c r) →
    (∀ q ∈ gates a f σ, q.Holds g) ∧ Carries g (outs a f σ ws p) ∧
      (Carries g ws → CopiesHold g (ops a f σ ws p))

end Circuit
