import Verif.Circuit.SeptidonTest
import Verif.Base.Bn256Eval
import Verif.Props.Blinding

/-!
# The test circuit of the Septidon chip: C81
-/

set_option linter.unusedVariables false
set_option linter.unusedSectionVars false

namespace Props
open Halo2 Circuit Circuit.Septidon Circuit.TestCircuit

section
variable {F : Type} [Field F] [DecidableEq F]

/-- **C81, outcome.** With fewer than 8 rows the circuit is empty. Otherwise the synthesis succeeds exactly if the
textbook permutation of the initial state is the expected state; any other expectation is a panic. -/
theorem C81_outcome (m : Base.Mds F 3) (rc : ℕ → Fin 3 → F) (hc : ∀ r, 4 ≤ r → r < 61 → ∀ k, k ≠ 0 → rc r k = 0)
    (x y : Fin 3 → F) (height : ℕ) :
    ((∃ out, testCircuit m rc x y height = .ok out) ↔
      height < 8 ∨ Spec.poseidon (fun v => v ^ 5) (Matrix.of m) 4 57 rc x = y) ∧
    (testCircuit m rc x y height = .error .testMismatch ↔
      8 ≤ height ∧ Spec.poseidon (fun v => v ^ 5) (Matrix.of m) 4 57 rc x ≠ y) := by
  have h := testRegions_eq m rc hc x y (height / 8) (freshLayouter none) 0 fun _ _ => rfl
  have e : Spec.poseidon (fun v => v ^ 5) (Matrix.of m) 4 57 rc x = perm m rc x := rfl
  have h8 : height / 8 = 0 ↔ height < 8 := by omega
  rw [e]
  unfold testCircuit
  rw [configureChip_eq]
  by_cases hcond : height / 8 = 0 ∨ perm m rc x = y
  · rw [if_pos hcond] at h
    obtain ⟨L', e1, -⟩ := h
    simp only [e1, bind, Except.bind, pure, Except.pure, reduceCtorEq, false_iff]
    rw [h8] at hcond
    exact ⟨⟨fun _ => hcond, fun _ => ⟨_, rfl⟩⟩, fun ⟨h1, h2⟩ => by
      rcases hcond with h | h
      · omega
      · exact h2 h⟩
  · rw [if_neg hcond] at h
    simp only [h, bind, Except.bind, reduceCtorEq, exists_false, false_iff, true_iff]
    rw [h8] at hcond
    push Not at hcond
    exact ⟨by rintro (h | h); exacts [absurd h (by omega), hcond.2 h], hcond⟩

/-- **C81, circuit.** What a synthesis that succeeds puts into the circuit: it takes `8 ⌊height / 8⌋` rows, no copies and
no tables.
The honest assignment satisfies every gate on all rows that the mock prover looks at, not just on row 0, and has the
initial and the final state in the cells of every permutation. Conversely, whatever the advice, gates that hold on all
rows make the final state of each permutation the textbook permutation of its initial state. -/
theorem C81_circuit (m : Base.Mds F 3) (rc : ℕ → Fin 3 → F) (hc : ∀ r, 4 ≤ r → r < 61 → ∀ k, k ≠ 0 → rc r k = 0)
    (x y : Fin 3 → F) (height : ℕ) (cs : CS F) (L : Layouter F) (hrun : testCircuit m rc x y height = .ok (cs, L)) :
    cs.equality = [] ∧ cs.lookups = [] ∧ (∀ k, cs.usableRows k = 2 ^ k - 6) ∧ cs.minimumRows = 8 ∧
    (∀ u, Fits L.ops u ↔ 8 * (height / 8) ≤ u) ∧ ((∀ a b, Op.copy a b ∉ L.ops) ∧ ∀ c r v, Op.fill c r v ∉ L.ops) ∧
    (∀ g : Grid F, HonestFor g L.ops Set.univ Set.univ Set.univ → 8 * (height / 8) ≤ g.usable →
      (∀ rows, g.usable ≤ rows → rows ≤ g.n → ∀ p ∈ cs.gates, p.Mock g rows) ∧ (∀ p ∈ cs.gates, p.Holds g) ∧
      ∀ i < height / 8, ∀ k : Fin 3, g.advice k (8 * i) = x k ∧ g.advice 12 (8 * i + 5 + k) = y k) ∧
    (∀ g : Grid F, (∀ c, ∀ r < g.n, g.fixed c r = finalFixed L.ops c r) → 8 * (height / 8) ≤ g.n →
      (∀ p ∈ cs.gates, p.Holds g) → ∀ i < height / 8, ∀ k : Fin 3, g.advice 12 (8 * i + 5 + k) =
        Spec.poseidon (fun v => v ^ 5) (Matrix.of m) 4 57 rc (fun k : Fin 3 => g.advice k (8 * i)) k) := by
  have hout := (C81_outcome m rc hc x y height).1.mp ⟨_, hrun⟩
  have h := testRegions_eq m rc hc x y (height / 8) (freshLayouter none) 0 fun _ _ => rfl
  rw [if_pos (by
    rcases hout with h | h
    · left; omega
    · right; exact h)] at h
  obtain ⟨L', e1, o1⟩ := h
  unfold testCircuit at hrun
  rw [configureChip_eq] at hrun
  simp only [e1, bind, Except.bind, pure, Except.pure, Except.ok.injEq, Prod.mk.injEq] at hrun
  obtain ⟨rfl, rfl⟩ := hrun
  have o1 : L'.ops = testOps m rc x (height / 8) 0 := by rw [o1]; rfl
  obtain ⟨hap, hff, hfa, hfi⟩ := testOps_final m rc hc x (height / 8)
  have hfit := fits_testOps m rc hc x (height / 8)
  have hbl : (CS.mk 13 11 0 (gates m rc (config 0 0)) [] [] : CS F).blindingFactors = 5 := by
    have h := C76_septidon m rc 10
    rw [Septidon.configure_eq] at h
    simp only [CS.usableRows, List.nil_append, Nat.zero_add] at h
    refine CS.blindingFactors_le fun c hcc => le_trans (Finset.card_le_card ?_) (?_ : ((CS.mk 13 11 0
      (gates m rc (config 0 0)) [] [.advice 0, .advice 1, .advice 2, .advice 12, .advice 12, .advice 12] : CS F).rots c).card ≤ 3)
    · intro r hr
      rw [CS.mem_rots] at hr ⊢
      rcases hr with h | ⟨h, -⟩
      · exact Or.inl h
      · cases h
    · have hb : (CS.mk 13 11 0 (gates m rc (config 0 0)) [] [.advice 0, .advice 1, .advice 2, .advice 12, .advice 12,
          .advice 12] : CS F).blindingFactors ≤ 5 := by
        have h : 2 ^ 10 - ((CS.mk 13 11 0 (gates m rc (config 0 0)) [] [.advice 0, .advice 1, .advice 2, .advice 12,
          .advice 12, .advice 12] : CS F).blindingFactors + 1) = 2 ^ 10 - 6 := h
        norm_num at h
        omega
      rw [CS.blindingFactors] at hb
      have := Finset.le_sup (f := (CS.mk 13 11 0 (gates m rc (config 0 0)) [] [.advice 0, .advice 1, .advice 2,
        .advice 12, .advice 12, .advice 12] : CS F).numAdviceQueries) (Finset.mem_range.mpr (show c < 13 from hcc))
      have h2 := le_max_right 3 ((Finset.range 13).sup (CS.mk 13 11 0 (gates m rc (config 0 0)) [] [.advice 0, .advice 1,
        .advice 2, .advice 12, .advice 12, .advice 12] : CS F).numAdviceQueries)
      have h3 := this.trans h2
      simp only at hb
      exact h3.trans (by omega)
  have hpos : ∀ i < height / 8, ∃ q ∈ placeAt (List.replicate (height / 8) fun k : Fin 3 =>
      (⟨⟨.advice 0, 0⟩, x k⟩ : ACell F)) (stack 8 0), q.2 = 8 * i ∧ (fun k => (q.1 k).value) = x := by
    intro i hi
    obtain ⟨q, h1, h2⟩ := placeAt_get (List.replicate (height / 8) fun k : Fin 3 =>
      (⟨⟨.advice 0, 0⟩, x k⟩ : ACell F)) (stack 8 0) i (by rwa [List.length_replicate])
    refine ⟨q, h1, by rw [h2]; simp [stack], ?_⟩
    rw [List.eq_of_mem_replicate (placeAt_mem _ _ q h1).1]
  have hfull : ∀ (g : Grid F) p, fullIn g (config 0 0) p = fun k : Fin 3 => g.advice k p := fun g p =>
    funext fun k => by rw [fullIn_apply, Nat.zero_add]
  refine ⟨rfl, rfl, fun k => by rw [CS.usableRows, hbl], by rw [CS.minimumRows, hbl], by rw [o1]; exact hfit, ?_, ?_, ?_⟩
  · have hshape : ∀ o ∈ L'.ops, (∃ c r v, o = Op.advice c r v) ∨ ∃ c r v, o = Op.fixed c r v := by
      intro o hm
      rw [o1, mem_testOps] at hm
      obtain ⟨i, -, hm⟩ := hm
      rw [mem_assignPermutation 0 0 m rc x _ 0 hc] at hm
      rcases hm.shape with ⟨c, r, v, h, _⟩ | ⟨c, r, v, h, _⟩
      · exact .inl ⟨c, r, v, h⟩
      · exact .inr ⟨c, r, v, h⟩
    refine ⟨fun a b hm => ?_, fun c r v hm => ?_⟩ <;>
      rcases hshape _ hm with ⟨_, _, _, h⟩ | ⟨_, _, _, h⟩ <;> cases h
  · intro g hg hu
    have hfitg := (hfi _).mp ((hfit _).mpr hu)
    have hfix : ∀ c, ∀ r < g.n, g.fixed c r = finalFixed (placedOps 0 0 m rc _) c r := fun c r hr => by
      rw [hg.fixed c trivial r hr, o1, hff]
    obtain ⟨h1, h2⟩ := placed_complete 0 0 m rc hc _ hap g hg.usable_le hfitg (fun c _ _ => hfix c)
      (fun c _ _ r hr => by rw [hg.advice c trivial r hr, o1, hfa])
    have hm := marks_of 0 0 m rc hc _ hap g (fun o ho => (hfitg o ho).trans hg.usable_le) (hfix 0)
    have hun := gates_unpoisoned 0 0 m rc _ hm hg.usable_le fun s hs => by
      obtain ⟨q, hq, rfl⟩ := List.mem_map.mp hs
      exact fits_blocks 0 0 m rc hc _ g.usable hfitg q hq
    refine ⟨fun rows hr1 hr2 p hp => ((hun p hp).mock_iff hr1 hr2).mpr (h1 p hp), h1, fun i hi k => ?_⟩
    obtain ⟨q, hq, e2, e3⟩ := hpos i hi
    obtain ⟨h3, h4⟩ := h2 q hq
    rw [e3, e2] at h3 h4
    rw [hfull] at h3
    refine ⟨congrFun h3 k, ?_⟩
    rcases hout with h | h
    · omega
    · have h : perm m rc x = y := h
      rw [h] at h4
      have := congrFun h4 k
      rw [← this, transIn]
      congr 1
  · intro g hfix hn hgates i hi k
    obtain ⟨q, hq, e2, -⟩ := hpos i hi
    have h := placed_sound 0 0 m rc hc _ hap g ((hfi _).mp ((hfit _).mpr hn))
      (fun c _ _ r hr => by rw [hfix c r hr, o1, hff]) hgates q hq
    rw [e2, hfull] at h
    have := congrFun h k
    rw [transIn] at this
    exact this

end

/-- **C81, BN254.** The test as it stands: with the cached constants, the initial state `0, 1, 2` and the expected state
of line 61, it succeeds for every `k` of at least 3 (smaller `k` make line 11 underflow): the circuit of
`⌊(2^k - 6) / 8⌋` permutations fits the rows, and the mock prover accepts it on every row. Any other expected state makes
it panic as soon as there is one permutation, that is for `k` of at least 4. -/
theorem C81_bn254 : ∃ rc, Base.Bn256.cachedRoundConstants = .ok rc ∧
    (∀ k, 3 ≤ k → ∃ cs L, testCircuit Base.Bn256.mds (table rc) ![0, 1, 2]
        testExpect (2 ^ k - 6) = .ok (cs, L) ∧
      cs.minimumRows ≤ 2 ^ k ∧ Fits L.ops (cs.usableRows k) ∧
      ∀ g, HonestFor g L.ops Set.univ Set.univ Set.univ → g.n = 2 ^ k → g.usable = cs.usableRows k →
        ∀ p ∈ cs.gates, p.Mock g (cs.usableRows k) ∧ p.Mock g (2 ^ k)) ∧
    ∀ (y : Fin 3 → Base.Bn256.Fr), y ≠ testExpect → ∀ k, 4 ≤ k →
      testCircuit Base.Bn256.mds (table rc) ![0, 1, 2] y (2 ^ k - 6) = .error .testMismatch := by
  obtain ⟨rc, h1, -, hc, hp⟩ := bn_table
  have e : Spec.poseidon (fun v => v ^ 5) (Matrix.of Base.Bn256.mds) 4 57 (table rc) ![0, 1, 2] =
      testExpect := by
    have h := Base.Bn256.natPerm_cast 0 1 2
    rw [Base.Bn256.kat_perm_012, ← hp] at h
    simp only [Nat.cast_zero, Nat.cast_one, Nat.cast_ofNat] at h
    exact h
  refine ⟨rc, h1, fun k hk => ?_, fun y hy k hk => ?_⟩
  · obtain ⟨⟨cs, L⟩, hrun⟩ := (C81_outcome Base.Bn256.mds (table rc) hc ![0, 1, 2] _ (2 ^ k - 6)).1.mpr (Or.inr e)
    obtain ⟨-, -, h3, h4, h5, -, h6, -⟩ := C81_circuit Base.Bn256.mds (table rc) hc _ _ _ cs L hrun
    have hle : 8 * ((2 ^ k - 6) / 8) ≤ cs.usableRows k := by rw [h3]; omega
    refine ⟨cs, L, hrun, ?_, (h5 _).mpr hle, fun g hg hn hu p hp => ?_⟩
    · rw [h4]
      calc 8 = 2 ^ 3 := rfl
        _ ≤ 2 ^ k := Nat.pow_le_pow_right (by norm_num) hk
    · obtain ⟨h7, -, -⟩ := h6 g hg (by rw [hu]; exact hle)
      exact ⟨h7 _ (by rw [hu]) (by rw [← hu]; exact hg.usable_le) p hp,
        h7 _ (by rw [← hn]; exact hg.usable_le) (by rw [hn]) p hp⟩
  · refine (C81_outcome Base.Bn256.mds (table rc) hc ![0, 1, 2] y (2 ^ k - 6)).2.mpr ⟨?_, ?_⟩
    · have : 2 ^ 4 ≤ 2 ^ k := Nat.pow_le_pow_right (by norm_num) hk
      omega
    · rw [e]
      exact fun h => hy h.symm

/-! ## Non-vacuity -/

/-- Constants of zero and the identity matrix leave `0, 0, 0` unchanged, and three permutations are placed in the 26
rows of the test. -/
example : ∃ out, testCircuit (F := ℚ) (fun i j => if i = j then 1 else 0) (fun _ _ => 0) 0 0 (2 ^ 5 - 6) = .ok out := by
  refine (C81_outcome _ _ (fun _ _ _ _ _ => rfl) 0 0 (2 ^ 5 - 6)).1.mpr (Or.inr ?_)
  have hM : (Matrix.of fun i j : Fin 3 => if i = j then (1 : ℚ) else 0) = 1 := by
    ext i j; simp [Matrix.one_apply]
  rw [hM]
  unfold Spec.poseidon
  generalize List.range (2 * 4 + 57) = l
  induction l with
  | nil => rfl
  | cons r l ih =>
    rw [List.foldl_cons]
    have : Spec.round (fun v : ℚ => v ^ 5) (1 : Matrix (Fin 3) (Fin 3) ℚ) 4 57 (fun _ _ => 0) r 0 = 0 := by
      unfold Spec.round Spec.fullRound Spec.partialRound
      split_ifs <;> simp <;> rfl
    rw [this]
    exact ih

/-- The grid of the honest assignment exists: the final values themselves. -/
example (ops : List (Op ℚ)) : HonestFor ⟨32, 26, finalAdvice ops, finalFixed ops, finalSelector ops⟩ ops Set.univ Set.univ
    Set.univ := ⟨by norm_num, fun _ _ _ _ => rfl, fun _ _ _ _ => rfl, fun _ _ _ _ => rfl⟩

end Props
