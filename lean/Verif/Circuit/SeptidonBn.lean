import Verif.Circuit.SeptidonSound
import Verif.Base.Bn256Lemmas

/-!
# The constants of the Septidon chip over `bn256::Fr`

`septidon/params.rs` lines 9-23 and `CachedConstants`: the chip reads `cached_round_constants()`,
the compact table, and `cached_mds()`.
-/

open Halo2 Base Base.Bn256

namespace Circuit.Septidon

/-- The round constants as a function of the round (the table has 65 entries). -/
def table (rc : List (State Fr 3)) : ℕ → Fin 3 → Fr := fun r => rc.getD r 0

theorem bn_table : ∃ rc, cachedRoundConstants = .ok rc ∧ rc.length = 65 ∧ Compact (table rc) ∧
    perm mds (table rc) = specPerm := by
  obtain ⟨rc, h1, h2, h3, h4⟩ := cached_ok
  refine ⟨rc, h1, h2, ?_, ?_⟩
  · intro r hr1 hr2 k hk
    have hlt : r < rc.length := by omega
    have := h4 r rc[r] hr1 hr2 (List.getElem?_eq_getElem hlt) k hk
    simpa [table, List.getD_eq_getElem?_getD, List.getElem?_eq_getElem hlt] using this
  · funext s
    have := h3 false s
    rw [permute_eq_spec _ _ _ _ (by simp [hashSpec, p128Pow5T3, partialRounds, h2])] at this
    rw [← this]
    rfl

end Circuit.Septidon
