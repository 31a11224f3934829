import Verif.Props.Steps

/-!
# Which hash statements the circuit proves: C58
-/

set_option linter.unusedVariables false

namespace Props
open Halo2 Circuit Circuit.Table Base.Bn256

/-- Some accepted assignment (of a circuit with chip `k`, build `short`, `legacy`, loading mode `mode` and
step `K`) exposes a block with head control `c·SPEC`, the given rows (domain, word, word) and digest `d`. -/
def Proves (k : ChipKind) (short legacy : Bool) (mode : LoadMode) (K c : ℕ) (rows : List (Fr × Fr × Fr))
    (d : Fr) : Prop :=
  ProvesWith k short legacy mode K K c rows d

/-- The number of rows of `c` units at `K` units per row. -/
private theorem rows_eq {K c m i : ℕ} (hi : i ≤ K) (hK : 0 < K) (h0 : 0 < m → 0 < i) (hc : c = i + m * K) :
    m + 1 = max 1 ((c + K - 1) / K) := by
  subst hc
  rcases Nat.eq_zero_or_pos i with rfl | hpos
  · have : m = 0 := by
      rcases Nat.eq_zero_or_pos m with h | h
      · exact h
      · exact absurd (h0 h) (by omega)
    subst this
    rw [Nat.zero_mul, Nat.zero_add, Nat.div_eq_of_lt (by omega)]
    rfl
  · have : (i + m * K + K - 1) / K = m + 1 := by
      rw [show i + m * K + K - 1 = (i - 1) + (m + 1) * K by rw [Nat.add_mul]; omega,
        Nat.add_mul_div_right _ _ hK, Nat.div_eq_of_lt (by omega), Nat.zero_add]
    rw [this]
    omega

theorem rows_last {K c m : ℕ} (hK : 0 < K) (hn : m + 1 = max 1 ((c + K - 1) / K)) :
    ∃ i ≤ K, (0 < m → 0 < i) ∧ c = i + m * K := by
  have hdiv := Nat.div_add_mod (c + K - 1) K
  have hmod := Nat.mod_lt (c + K - 1) hK
  obtain ⟨q, hq⟩ : ∃ q, q = (c + K - 1) / K := ⟨_, rfl⟩
  rw [← hq] at hdiv hn
  rw [Nat.mul_comm K q] at hdiv
  rcases Nat.eq_zero_or_pos m with rfl | hm
  · refine ⟨c, ?_, by omega, by omega⟩
    have : q * K ≤ 1 * K := Nat.mul_le_mul_right _ (by omega)
    omega
  · obtain rfl : q = m + 1 := by omega
    rw [Nat.add_mul] at hdiv
    exact ⟨c - m * K, by omega, fun _ => by omega, by omega⟩

/-- **C58.** With step `K > 0` on both sides, the circuit proves "`rows` with control `c` hash to `d`" iff there are exactly `max 1 ⌈c/K⌉` rows and `d` is
the sponge digest. This holds for every chip, build and loading mode. -/
theorem C58_provable (k : ChipKind) (short legacy : Bool) (mode : LoadMode) {K c : ℕ} (hK : 0 < K)
    (hK' : K < 2 ^ 64) (hc : c < 2 ^ 64) (rows : List (Fr × Fr × Fr)) (hne : rows ≠ [])
    (hlen : rows.length + 1 < 2 ^ 64) (d : Fr) :
    Proves k short legacy mode K c rows d ↔
      rows.length = max 1 ((c + K - 1) / K) ∧
        d = Spec.rowsDigest (Spec.onTriples permBn) ((c * Base.domainSpec legacy : ℕ) : Fr) rows := by
  have hpos : 0 < rows.length := List.length_pos_iff.mpr hne
  unfold Proves
  rw [C77_provable k short legacy mode hK' hK' hc rows hne hlen d]
  refine and_congr_left fun _ => ⟨?_, fun hn => ?_⟩
  · rintro ⟨i, hi, hi0, e⟩
    have := rows_eq (m := rows.length - 1) hi hK (fun h => hi0 (by omega)) e
    omega
  · obtain ⟨i, hi, hi0, e⟩ := rows_last (c := c) (m := rows.length - 1) hK (by omega)
    exact ⟨i, hi, fun h => hi0 (by omega), e⟩

-- 150 units at 62 per row: three rows
example : (0 < 62 ∧ 62 < 2 ^ 64 ∧ 150 < 2 ^ 64) ∧
    ([(7, 1, 2), (0, 3, 4), (0, 5, 6)] : List (Fr × Fr × Fr)) ≠ [] ∧
    ([(7, 1, 2), (0, 3, 4), (0, 5, 6)] : List (Fr × Fr × Fr)).length = max 1 ((150 + 62 - 1) / 62) := by
  exact ⟨by norm_num, by simp, rfl⟩

/-- C58 for a message: the circuit proves that the words of `pairs` under control `c` hash to `d` iff
`hash_msg` of the words with capacity `c·SPEC` returns `d` and `pairs` has `max 1 ⌈c/K⌉` entries. -/
theorem C58_message (k : ChipKind) (short short' legacy : Bool) (mode : LoadMode) {K c : ℕ} (hK : 0 < K)
    (hK' : K < 2 ^ 64) (hc : c < 2 ^ 64) (pairs : List (Fr × Fr)) (hne : pairs ≠ [])
    (hlen : 2 * pairs.length < 2 ^ 64) (d : Fr) :
    Proves k short legacy mode K c (pairs.map fun w => (0, w.1, w.2)) d ↔
      pairs.length = max 1 ((c + K - 1) / K) ∧
        hashMsgFr short' legacy (pairs.flatMap fun w => [w.1, w.2]) (some (c * Base.domainSpec legacy)) = .ok d := by
  have hpos : 0 < pairs.length := List.length_pos_iff.mpr hne
  rw [C58_provable k short legacy mode hK hK' hc _ (by simpa using hne) (by rw [List.length_map]; omega) d,
    List.length_map]
  refine and_congr_right fun _ => ?_
  have hflat : ∀ l : List (Fr × Fr), (l.flatMap fun w => [w.1, w.2]).length = 2 * l.length := by
    intro l
    induction l with
    | nil => rfl
    | cons w ws ih => rw [List.flatMap_cons, List.length_append, ih, List.length_cons]; simp; omega
  replace hflat := hflat pairs
  rw [(C04_C05_bn254 short' legacy).2 _ _ (by
    intro h
    rw [h, List.length_nil] at hflat
    omega) (by rw [hflat]; exact hlen), Option.getD_some]
  have habs : ∀ (l : List (Fr × Fr)) (st : Fr × Fr × Fr),
      Spec.absorbRows (Spec.onTriples permBn) st (l.map fun w => (0, w.1, w.2)) =
        Spec.absorbPairs (Spec.onTriples permBn) st (l.flatMap fun w => [w.1, w.2]) := by
    intro l
    induction l with
    | nil => rintro ⟨a, b, c⟩; rfl
    | cons w ws ih =>
      rintro ⟨a, b, c⟩
      simp only [List.map_cons, Spec.absorbRows, List.flatMap_cons, List.cons_append, List.nil_append,
        Spec.absorbPairs, add_zero, ih]
  have : Spec.rowsDigest (Spec.onTriples permBn) ((c * Base.domainSpec legacy : ℕ) : Fr)
      (pairs.map fun w => (0, w.1, w.2)) =
      Spec.spongeHash (Spec.onTriples permBn) ((c * Base.domainSpec legacy : ℕ) : Fr)
        (pairs.flatMap fun w => [w.1, w.2]) := by
    rw [Spec.rowsDigest, habs]
    rfl
  rw [this]
  exact ⟨fun h => by rw [h], fun h => (Except.ok.inj h).symm⟩

/-- C58 for MPT rows: the circuit proves that one row with control 0, domain `dom` and words `a`, `b` has
digest `d` iff `hash_with_domain([a, b], dom)` returns `d`. -/
theorem C58_mpt (k : ChipKind) (short short' legacy : Bool) (mode : LoadMode) {K : ℕ} (hK : 0 < K)
    (hK' : K < 2 ^ 64) (dom a b d : Fr) :
    Proves k short legacy mode K 0 [(dom, a, b)] d ↔ hashWithDomainFr short' ![a, b] dom = .ok d := by
  rw [C58_provable k short legacy mode hK hK' (by norm_num) _ (by simp) (by simp) d]
  have : hashWithDomainFr short' ![a, b] dom = .ok (Spec.rowsDigest (Spec.onTriples permBn)
      ((0 * Base.domainSpec legacy : ℕ) : Fr) [(dom, a, b)]) := by
    refine ((C04_C05_bn254 short' legacy).1 _ _ _).trans (congrArg Except.ok ?_)
    simp only [Spec.rowsDigest, Spec.absorbRows, Spec.onTriples, zero_add, Nat.zero_mul, Nat.cast_zero]
  rw [this]
  constructor
  · rintro ⟨-, h⟩; rw [h]
  · intro h
    refine ⟨?_, (Except.ok.inj h).symm⟩
    rw [Nat.zero_add, Nat.div_eq_of_lt (by omega)]
    rfl

/-- C58 for the example of the README, a message of 19 fields (ten pairs): with step 2 the capacities that
can be proved are 19 and 20, with step 32 they are exactly those from 289 to 320 (the README says 298). -/
theorem C58_readme (k : ChipKind) (short legacy : Bool) (mode : LoadMode) (pairs : List (Fr × Fr))
    (hlen : pairs.length = 10) {c : ℕ} (hc : c < 2 ^ 64) :
    ((∃ d, Proves k short legacy mode 2 c (pairs.map fun w => (0, w.1, w.2)) d) ↔ c = 19 ∨ c = 20) ∧
    ((∃ d, Proves k short legacy mode 32 c (pairs.map fun w => (0, w.1, w.2)) d) ↔ 289 ≤ c ∧ c ≤ 320) := by
  have hne : pairs ≠ [] := by rintro rfl; simp at hlen
  have key : ∀ K, 0 < K → K < 2 ^ 64 →
      ((∃ d, Proves k short legacy mode K c (pairs.map fun w => (0, w.1, w.2)) d) ↔
        10 = max 1 ((c + K - 1) / K)) := by
    intro K hK hK'
    constructor
    · rintro ⟨d, h⟩
      exact hlen ▸ ((C58_message k short short legacy mode hK hK' hc pairs hne (by omega) d).mp h).1
    · intro h
      refine ⟨_, (C58_provable k short legacy mode hK hK' hc _ (by simpa using hne)
        (by rw [List.length_map]; omega) _).mpr ⟨by rw [List.length_map, hlen]; exact h, rfl⟩⟩
  rw [key 2 (by norm_num) (by norm_num), key 32 (by norm_num) (by norm_num)]
  constructor <;> omega

-- nineteen words and a zero
example : ((List.range 10).map fun i => (((2 * i + 1 : ℕ) : Fr), if i = 9 then (0 : Fr) else ((2 * i + 2 : ℕ) : Fr))).length = 10 := rfl

end Props
