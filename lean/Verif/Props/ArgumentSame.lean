import Verif.Props.ArgumentTable

/-!
# One key for all tables

`vk_validity` in `/repo/poseidon-circuit/tests/hash_proving.rs`, lines 82-111, compares the keys made with two tables;
`proof_and_verify`, lines 114-177, verifies a proof with a key made from an empty table.
-/

set_option linter.unusedSectionVars false

namespace Halo2
variable {F : Type} [Field F]

/-- The operations a key depends on, besides the selectors. -/
def keyOps (ops : List (Op F)) : List (Op F) := ops.filter fun o => match o with
  | .advice _ _ _ => false
  | .selector _ _ => false
  | _ => true

theorem keyFixed_keyOps (ops : List (Op F)) (u c r : ℕ) : keyFixed (keyOps ops) u c r = keyFixed ops u c r := by
  unfold keyFixed
  generalize (0 : F) = z
  induction ops generalizing z with
  | nil => rfl
  | cons o ops ih =>
    unfold keyOps at ih ⊢
    cases o <;> simp only [List.filter_cons, Bool.false_eq_true, if_false, if_true, List.foldl_cons, ih]

theorem assemble_keyOps (cols : List Col) (n u : ℕ) (ops : List (Op F)) (s : Assembly (Fin cols.length × Fin n)) :
    assemble cols n u (keyOps ops) s = assemble cols n u ops s := by
  induction ops generalizing s with
  | nil => rfl
  | cons o ops ih =>
    unfold keyOps at ih ⊢
    cases o <;> simp only [List.filter_cons, Bool.false_eq_true, if_false, if_true, assemble, ih]

theorem keyOps_shape (ops : List (Op F)) : keyOps (shape ops) = keyOps ops := by
  unfold keyOps shape
  rw [List.filter_filter]
  congr 1
  funext o
  cases o <;> rfl

theorem keyOps_append (a b : List (Op F)) : keyOps (a ++ b) = keyOps a ++ keyOps b := List.filter_append ..

/-- What a key depends on. -/
theorem keygen_congr {cs : CS F} {ws : List (Wide F)} {a b : List (Op F)} (h1 : ∀ u, Fits a u ↔ Fits b u) (h2 : keyOps a = keyOps b)
    (h3 : ∀ c r, finalSelector a c r = finalSelector b c r) (n : ℕ) (ω δ : F) :
    keygenWith cs ws a n ω δ = keygenWith cs ws b n ω δ := by
  have e1 : keyFixed a = keyFixed b := by
    funext u c r
    rw [← keyFixed_keyOps a, ← keyFixed_keyOps b, h2]
  have e2 : finalSelector a = finalSelector b := by
    funext c r
    exact h3 c r
  have e3 : ∀ u, assemble (permCols cs.equality) n u a (Assembly.new _) =
      assemble (permCols cs.equality) n u b (Assembly.new _) := by
    intro u
    rw [← assemble_keyOps _ _ _ a, ← assemble_keyOps _ _ _ b, h2]
  unfold keygenWith
  simp only
  rw [e1, e2, e3]
  by_cases h : n < cs.blindingWith ws + 1 + 1 + 1 ∨ ¬ Fits a (n - (cs.blindingWith ws + 1))
  · rw [if_pos h, if_pos (by rwa [h1] at h)]
  · rw [if_neg h, if_neg (by rwa [h1] at h)]

end Halo2

namespace Circuit
open Halo2 Table

theorem Run.keyOps_reload {F : Type} [Field F] [DecidableEq F] {x : Run F} {π : (Fin 3 → F) → Fin 3 → F}
    (lw : x.ch.Lawful π) (t : HashTable F) (m : LoadMode) (s : ℕ) (s' : ℕ → ℕ) :
    keyOps (Run.ops lw s s') = keyOps (Run.ops (x := x.reload t m) lw s s') := by
  have htail : ∀ m, keyOps (tailOps (F := F) x.cs.numSelectors s x.calcs m) = [] := by
    intro m
    refine List.filter_eq_nil_iff.mpr fun o ho => ?_
    rw [mem_tailOps _ _ _ _ _ ho]
    simp
  have key : ∀ tail tail' : List (Op F), keyOps tail = [] → keyOps tail' = [] →
      keyOps (loadOps x.legacy x.STEP π lw x.cs.numAdvice x.cs.numFixed x.cs.numSelectors x.qEnable x.hashTable x.step
        ((List.range x.calcs).map (rowAt t)) tail s s') =
      keyOps (loadOps x.legacy x.STEP π lw x.cs.numAdvice x.cs.numFixed x.cs.numSelectors x.qEnable x.hashTable x.step
        ((List.range x.calcs).map (rowAt t)) tail' s s') := by
    intro tail tail' h h'
    unfold loadOps
    simp only [keyOps_append, h, h']
  unfold Run.ops
  refine Eq.trans ?_ (key _ _ (htail x.mode) (htail m))
  rw [← keyOps_shape, shape_loadOps _ _ _ lw _ _ _ _ _ _ (rowAt x.table) (rowAt t), keyOps_shape]

end Circuit

namespace Props
open Halo2 Circuit Circuit.Table Base.Bn256

/-- **C91.** Whatever is in the table, and whether and how it is loaded in parallel, key generation has the same result:
the same key or the same error, also with other things in the circuit. (Between serial and parallel loading the columns
must be free from the same row on.) -/
theorem C91_key {x : Run Fr} {k : ChipKind} {short : Bool} (hbn : x.IsBn k short) (hx : x.Legal) {L : Layouter Fr}
    (hL : x.load = .ok L) {t : HashTable Fr} {m : LoadMode} (hm : x.mode.isSerial = m.isSerial ∨ x.Level)
    (hx' : (x.reload t m).Legal) {L' : Layouter Fr} (hL' : (x.reload t m).load = .ok L') (post : List (Op Fr))
    (cs : CS Fr) (ws : List (Wide Fr)) (n : ℕ) (ω δ : Fr) :
    keygenWith cs ws (L.ops ++ post) n ω δ = keygenWith cs ws (L'.ops ++ post) n ω δ := by
  obtain ⟨⟨lw, -⟩, hn⟩ := hbn.lawful
  obtain ⟨s, s', ho, ho'⟩ := Run.ops_reload lw hx hx' hn hL hL' hm
  have hfa : ∀ (a b : List (Op Fr)) (u : ℕ), Fits (a ++ b) u ↔ Fits a u ∧ Fits b u := by
    intro a b u
    unfold Fits
    simp only [List.mem_append, or_imp, forall_and]
  refine keygen_congr (fun u => ?_) ?_ (fun c r => ?_) n ω δ
  · rw [ho, ho', hfa, hfa, hfa, hfa]
    refine and_congr_left fun _ => and_congr_right fun _ => ⟨Run.ops_fits lw t m s s' u, fun h => ?_⟩
    exact Run.ops_fits (x := x.reload t m) lw x.table x.mode s s' u h
  · rw [ho, ho', keyOps_append, keyOps_append, keyOps_append, keyOps_append, Run.keyOps_reload lw t m]
  · rw [ho, ho', List.append_assoc, List.append_assoc]
    exact (Run.ops_shape' lw t m s s' x.before.ops post).selector c r

/-- The keys of the test circuits, made with the empty table of `without_witnesses` and of the verifier, in any mode,
are those made with the table to be proven. -/
theorem C91_tests {k : ChipKind} {ch : Chip Fr 3} (hch : bnChip k = .ok ch) (short legacy : Bool) (mode mode' : LoadMode)
    {STEP : ℕ} {t : HashTable Fr} {calcs : ℕ} (hS : STEP < 2 ^ 64) (hc : calcs < 2 ^ 64)
    (ht : ∀ c ∈ t.controls, c < 2 ^ 64) {x : Run Fr} (hx : x = testRun ch short legacy mode STEP t calcs)
    {L : Layouter Fr} (hL : x.load = .ok L) {y : Run Fr} (hy : y = testRun ch short legacy mode' STEP .empty calcs) :
    ∃ L', y.load = .ok L' ∧ ∀ n ω δ, keygen y.configured.2 L'.ops n ω δ = keygen x.configured.2 L.ops n ω δ := by
  have hlegal : x.Legal := by
    rw [hx]
    exact ⟨fun i => i.isLt, fun i j h => Fin.ext h, by simp [testRun], hS, hS, hc, ht⟩
  have hbn : x.IsBn k short := by rw [hx]; exact ⟨hch, rfl⟩
  have e : y = x.reload .empty mode' := by rw [hx, hy]; rfl
  obtain ⟨hl', L', hL'⟩ := (C35_shape hbn hlegal hL).2 mode'
  have hlev : x.Level := by
    refine ⟨0, ?_⟩
    rw [hx]
    exact ⟨fun _ _ => rfl, fun _ _ => rfl, fun _ _ => rfl⟩
  refine ⟨L', by rw [e]; exact hL', fun n ω δ => ?_⟩
  have := C91_key hbn hlegal hL (Or.inr hlev) hl' hL' [] x.configured.2 [] n ω δ
  rw [List.append_nil, List.append_nil] at this
  rw [e]
  exact this.symm

/-- A key is made for one number of calculations only. -/
theorem C91_calcs {k : ChipKind} {ch : Chip Fr 3} (hch : bnChip k = .ok ch) (short legacy : Bool) {mode mode' : LoadMode}
    {STEP : ℕ} {t t' : HashTable Fr} {calcs calcs' : ℕ} (hS : STEP < 2 ^ 64) (hc : calcs < 2 ^ 64) (hc' : calcs' < 2 ^ 64)
    (ht : ∀ c ∈ t.controls, c < 2 ^ 64) (ht' : ∀ c ∈ t'.controls, c < 2 ^ 64) {x y : Run Fr}
    (hx : x = testRun ch short legacy mode STEP t calcs) (hy : y = testRun ch short legacy mode' STEP t' calcs')
    {L L' : Layouter Fr} (hL : x.load = .ok L) (hL' : y.load = .ok L') {n : ℕ} {ω δ : Fr} {K : Key Fr}
    (hK : keygen x.configured.2 L.ops n ω δ = .ok K) (hK' : keygen y.configured.2 L'.ops n ω δ = .ok K) :
    calcs = calcs' := by
  have key : ∀ {mode : LoadMode} {t : HashTable Fr} {calcs : ℕ}, calcs < 2 ^ 64 → (∀ c ∈ t.controls, c < 2 ^ 64) →
      ∀ {x : Run Fr}, x = testRun ch short legacy mode STEP t calcs → ∀ {L : Layouter Fr}, x.load = .ok L →
      keygen x.configured.2 L.ops n ω δ = .ok K → ∀ r, K.selector 0 r = true ↔ r = 0 ∨ r = calcs := by
    intro mode t calcs hc ht x hx L hL hK r
    have hlegal : x.Legal := by
      rw [hx]
      exact ⟨fun i => i.isLt, fun i j h => Fin.ext h, by simp [testRun], hS, hS, hc, ht⟩
    have hbn : x.IsBn k short := by rw [hx]; exact ⟨hch, rfl⟩
    obtain ⟨⟨lw, -⟩, hn⟩ := hbn.lawful
    obtain ⟨s, s', ho, hfr, -⟩ := (Run.load_iff lw hlegal hn).2.2 L hL
    obtain ⟨rfl, -⟩ := hfr (by rw [hx]; exact ⟨fun _ _ => rfl, fun _ _ => rfl, fun _ _ => rfl⟩)
    have eb : x.before.ops = [] := by rw [hx]; rfl
    have e0 : x.cs.numSelectors = 0 := by rw [hx]; rfl
    have ec : x.calcs = calcs := by rw [hx]; rfl
    have hsel : K.selector = finalSelector L.ops := by
      obtain ⟨-, -, A, -, rfl⟩ := keygen_ok hK
      rfl
    have := load_selector x.legacy x.STEP specPerm lw x.cs.numAdvice x.cs.numFixed x.cs.numSelectors x.qEnable x.hashTable
      x.step (rowAt x.table) x.calcs x.mode 0 s' r
    rw [hsel, ho, eb, List.nil_append]
    unfold Run.ops
    rw [e0, ec] at this ⊢
    rw [this, Nat.zero_add]
  have h1 := key hc ht hx hL hK
  have h2 := key hc' ht' hy hL' hK'
  have a1 := (h1 calcs).symm.trans (h2 calcs)
  have a2 := (h1 calcs').symm.trans (h2 calcs')
  simp only [or_true, true_iff, iff_true] at a1 a2
  omega

-- `vk_validity` (hash_proving.rs:82-111) on `2^8` rows: the keys exist and are equal
example {b : Bool} (short legacy : Bool) (mode : LoadMode) {ch : Chip Fr 3} (hch : bnChip (.pow5 b) = .ok ch)
    {x y : Run Fr} (hx : x = testRun ch short legacy mode 62 ⟨[(1, 2), (0, 1)], [], [], []⟩ 3)
    (hy : y = testRun ch short legacy mode 62 .empty 3) :
    ∃ L L', x.load = .ok L ∧ y.load = .ok L' ∧ ∃ K, keygen x.configured.2 L.ops (2 ^ 8) (omega 8) delta = .ok K ∧
      keygen y.configured.2 L'.ops (2 ^ 8) (omega 8) delta = .ok K := by
  have hlegal : x.Legal := by
    rw [hx]
    exact ⟨fun i => i.isLt, fun i j h => Fin.ext h, by simp [testRun], by simp [testRun], by simp [testRun],
      by simp [testRun], by simp [testRun]⟩
  have hbn : x.IsBn (.pow5 b) short := by rw [hx]; exact ⟨hch, rfl⟩
  obtain ⟨L, hL⟩ := (C41_checks hbn hlegal).1.mpr (by
    rw [hx]
    exact ⟨fun _ => by simp [testRun], by intro a m _ _ ck h; simp [testRun, rowCk] at h⟩)
  obtain ⟨L', hL', h⟩ := C91_tests hch short legacy mode mode (by norm_num) (by norm_num) (by simp) hx hL hy
  obtain ⟨K, hK⟩ := (C88_tests hch short legacy mode (by norm_num) (by norm_num) (by simp) (kk := 8) (by norm_num) hx
    hL).1.mpr ⟨by norm_num, by norm_num, by simp [ChipKind.rows]⟩
  exact ⟨L, L', hL, hL', K, hK, (h _ _ _).trans hK⟩

end Props
