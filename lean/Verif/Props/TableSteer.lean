import Verif.Props.Provable
import Verif.Base.Bn256Eval

/-!
# The domain column of continuation rows: C61

The gates add the domain of every row to the state, not only that of the head row. `load` never writes a
domain on a continuation row, but nothing in the circuit forbids it. A user of the table who does not look up
the domain of the continuation rows gets no guarantee at all.
-/

set_option linter.unusedVariables false

namespace Props
open Halo2 Circuit Circuit.Table Base.Bn256

theorem permBn_surjective : Function.Surjective permBn := by
  obtain ⟨⟨f, hf, hb⟩, -⟩ := C03_bn254_bijective true
  have : f = permBn := by
    funext s
    have h1 := hf s
    rw [permuteFr_eq] at h1
    exact (Except.ok.inj h1).symm
  rw [← this]
  exact hb.surjective

/-- **C61.** Every digest can be proved for every beginning of a message of two rows or more, if the last
row (its domain included) is left to the prover. -/
theorem C61_steered (k : ChipKind) (short legacy : Bool) (mode : LoadMode) {K c : ℕ} (hK : 0 < K)
    (hK' : K < 2 ^ 64) (hc : c < 2 ^ 64) (rows : List (Fr × Fr × Fr)) (hlen : rows.length + 2 < 2 ^ 64)
    (hcount : rows.length + 1 = max 1 ((c + K - 1) / K)) (D : Fr) :
    ∃ dom w₀ w₁, Proves k short legacy mode K c (rows ++ [(dom, w₀, w₁)]) D := by
  obtain ⟨st, hst⟩ : ∃ st, st = Spec.absorbRows (Spec.onTriples permBn)
    (((c * Base.domainSpec legacy : ℕ) : Fr), 0, 0) rows := ⟨_, rfl⟩
  obtain ⟨u, hu⟩ := permBn_surjective ![D, 0, 0]
  obtain ⟨s0, s1, s2⟩ := st
  refine ⟨u 0 - s0, u 1 - s1, u 2 - s2, ?_⟩
  refine (C58_provable k short legacy mode hK hK' hc _ (by simp) (by simp; omega) D).mpr
    ⟨by simpa using hcount, ?_⟩
  rw [Spec.rowsDigest, absorbRows_append, ← hst]
  simp only [Spec.absorbRows, Spec.onTriples, add_sub_cancel]
  have : (![u 0, u 1, u 2] : Fin 3 → Fr) = u := by
    funext i; fin_cases i <;> rfl
  rw [this, hu]
  rfl

/-- The first word of the permutation depends on the first word of its argument. -/
theorem perm_first_word : permBn ![0, 0, 0] 0 ≠ permBn ![1, 0, 0] 0 := by
  have h0 := congrFun (natPerm_cast 0 0 0) 0
  have h1 := congrFun (natPerm_cast 1 0 0) 0
  simp only [Nat.cast_zero, Nat.cast_one] at h0 h1
  have e : (natPerm 0 0 0).1 % r ≠ (natPerm 1 0 0).1 % r := by decide +kernel
  intro h
  have h2 : ((natPerm 0 0 0).1 : Fr) = ((natPerm 1 0 0).1 : Fr) := by
    rw [show ((natPerm 0 0 0).1 : Fr) = toState (natPerm 0 0 0) 0 from rfl, ← h0,
      show ((natPerm 1 0 0).1 : Fr) = toState (natPerm 1 0 0) 0 from rfl, ← h1]
    exact h
  exact e ((ZMod.natCast_eq_natCast_iff' _ _ r).mp h2)

/-- C61, concretely: every pair of words is the beginning of a message of two rows for which the circuit
proves a digest that `hash_msg` does not return, with zero domain on the head row. -/
theorem C61_wrong_digest (k : ChipKind) (short short' legacy : Bool) (mode : LoadMode) {K c : ℕ} (hK : 0 < K)
    (hK' : K < 2 ^ 64) (hc : c < 2 ^ 64) (hcK : K < c) (hc2 : c ≤ 2 * K) (a b : Fr) :
    ∃ dom w₀ w₁ D D', Proves k short legacy mode K c [(0, a, b), (dom, w₀, w₁)] D ∧
      hashMsgFr short' legacy [a, b, w₀, w₁] (some (c * Base.domainSpec legacy)) = .ok D' ∧ D ≠ D' := by
  have hrows : 2 = max 1 ((c + K - 1) / K) := by
    rw [show (c + K - 1) / K = 2 by
      rw [Nat.div_eq_iff hK]; omega]
    rfl
  obtain ⟨C, hC⟩ : ∃ C : Fr, C = ((c * Base.domainSpec legacy : ℕ) : Fr) := ⟨_, rfl⟩
  obtain ⟨s, hs⟩ : ∃ s, s = permBn ![C + 0, 0 + a, 0 + b] := ⟨_, rfl⟩
  obtain ⟨e, he⟩ : ∃ e : Fr, permBn ![e, 0, 0] 0 ≠ permBn ![s 0, 0, 0] 0 := by
    by_cases h : permBn ![0, 0, 0] 0 = permBn ![s 0, 0, 0] 0
    · exact ⟨1, fun h' => perm_first_word (h.trans h'.symm)⟩
    · exact ⟨0, h⟩
  refine ⟨e - s 0, -s 1, -s 2, permBn ![e, 0, 0] 0, permBn ![s 0, 0, 0] 0, ?_, ?_, he⟩
  · refine (C58_provable k short legacy mode hK hK' hc _ (by simp) (by simp) _).mpr ⟨hrows, ?_⟩
    rw [← hC]
    simp only [Spec.rowsDigest, Spec.absorbRows, Spec.onTriples]
    rw [← hs]
    simp only [add_sub_cancel, add_neg_cancel]
  · have := (C58_message k short short' legacy mode hK hK' hc [(a, b), (-s 1, -s 2)] (by simp) (by simp)
      (permBn ![s 0, 0, 0] 0)).mp ((C58_provable k short legacy mode hK hK' hc _ (by simp) (by simp) _).mpr
        ⟨hrows, by
          rw [← hC]
          simp only [List.map_cons, List.map_nil, Spec.rowsDigest, Spec.absorbRows, Spec.onTriples]
          rw [← hs]
          simp only [add_zero, add_neg_cancel]⟩)
    exact this.2

-- 100 bytes at 62 per row: two rows
example : 0 < 62 ∧ 62 < 2 ^ 64 ∧ 100 < 2 ^ 64 ∧ 62 < 100 ∧ 100 ≤ 2 * 62 ∧
    ([(0, 1, 2)] : List (Fr × Fr × Fr)).length + 1 = max 1 ((100 + 62 - 1) / 62) := by
  norm_num

end Props
