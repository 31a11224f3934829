import Verif.Props.Pow5

/-!
# The permutation chips over `bn256::Fr`
-/

set_option linter.unusedVariables false

namespace Circuit
open Halo2 Base.Bn256

/-- The permutation chips used with the hash table: `Pow5Chip<Fr, 3, 2>` (with the compact constants of
`Fr::SpecType`, hash.rs:18, or the raw ones) and `SeptidonChip`. -/
inductive ChipKind where
  | pow5 (compact : Bool)
  | septidon

/-- The chip with the constants of `CachedSpec for Fr`: the compact table is computed once,
p128pow5t3_compact.rs (`Base.Bn256.cachedRoundConstants`); the matrix inverse by `mds_inv`. -/
def bnChip : ChipKind → Except Panic (Chip Fr 3)
  | .pow5 true =>
    match cachedRoundConstants, Base.mdsInv mds with
    | .ok rc, .ok mi => .ok (Pow5.chip (Props.pow5Bn rc mi))
    | .error e, _ => .error e
    | _, .error e => .error e
  | .pow5 false =>
    match Base.mdsInv mds with
    | .ok mi => .ok (Pow5.chip (Props.pow5Bn roundConstants mi))
    | .error e => .error e
  | .septidon =>
    match cachedRoundConstants with
    | .ok rc => .ok (Septidon.chip mds (fun r => rc.getD r 0))
    | .error e => .error e

/-- Rows per permutation. -/
def ChipKind.rows : ChipKind → ℕ
  | .pow5 _ => 38
  | .septidon => 8

theorem bnChip_lawful (k : ChipKind) :
    ∃ ch, bnChip k = .ok ch ∧ Nonempty {lw : ch.Lawful specPerm // lw.height = k.rows} := by
  obtain ⟨rc, h1, h2, h3, h4⟩ := Septidon.bn_table
  have hmi : Base.mdsInv mds = .ok (fun i j => ((Matrix.of mds)⁻¹) i j) := by
    rw [Base.mdsInv_eq, if_neg det_ne_zero]
  have hinv : Matrix.of mds * Matrix.of (fun i j => ((Matrix.of mds)⁻¹) i j) = 1 :=
    Matrix.mul_nonsing_inv _ (by rw [isUnit_iff_ne_zero]; exact det_ne_zero)
  have p2 : Pow5.perm (Props.pow5Bn rc fun i j => ((Matrix.of mds)⁻¹) i j) = specPerm := by
    rw [← h4]
    unfold Pow5.perm Septidon.perm
    have : (Props.pow5Bn rc fun i j => ((Matrix.of mds)⁻¹) i j).rc = Septidon.table rc := rfl
    rw [this]
    have e2 : (Props.pow5Bn rc fun i j => ((Matrix.of mds)⁻¹) i j).mReg = mds := rfl
    have e3 : (Props.pow5Bn rc fun i j => ((Matrix.of mds)⁻¹) i j).fullRounds / 2 = 4 := by
      show (8 : ℕ) / 2 = 4
      norm_num
    have e4 : (Props.pow5Bn rc fun i j => ((Matrix.of mds)⁻¹) i j).partialRounds = 57 := rfl
    rw [e2, e3, e4]
  have sep : ∀ π, Septidon.perm mds (Septidon.table rc) = π →
      Nonempty {lw : (Septidon.chip mds (Septidon.table rc)).Lawful π // lw.height = 8} := by
    rintro _ rfl
    exact ⟨Septidon.lawful mds (Septidon.table rc) h3, rfl⟩
  have pow : ∀ (tbl : List (Base.State Fr 3)) π,
      Pow5.perm (Props.pow5Bn tbl fun i j => ((Matrix.of mds)⁻¹) i j) = π →
      Nonempty {lw : (Pow5.chip (Props.pow5Bn tbl fun i j => ((Matrix.of mds)⁻¹) i j)).Lawful π //
        lw.height = 38} := by
    rintro tbl _ rfl
    refine ⟨Pow5.lawful (Props.pow5Bn tbl fun i j => ((Matrix.of mds)⁻¹) i j) hinv, ?_⟩
    show Pow5.steps _ + 1 = 38
    simp [Pow5.steps, Props.pow5Bn]
  cases k with
  | septidon =>
    refine ⟨Septidon.chip mds (Septidon.table rc), ?_, sep _ h4⟩
    simp only [bnChip, h1]
    rfl
  | pow5 c =>
    cases c with
    | false =>
      refine ⟨Pow5.chip (Props.pow5Bn roundConstants fun i j => ((Matrix.of mds)⁻¹) i j), ?_, pow _ _ rfl⟩
      simp only [bnChip, hmi]
    | true =>
      refine ⟨Pow5.chip (Props.pow5Bn rc fun i j => ((Matrix.of mds)⁻¹) i j), ?_, pow _ _ p2⟩
      simp only [bnChip, h1, hmi]

end Circuit
