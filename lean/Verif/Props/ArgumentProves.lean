import Verif.Props.ArgumentOracle
import Verif.Props.ArgumentMessage

/-!
# What proofs for a key show
-/

set_option linter.unusedVariables false
set_option linter.unusedSectionVars false

namespace Halo2
open Polynomial

variable {F : Type} [Field F] [Fintype F]

/-- Proofs for the key `K` show `good`. An interactive prover either has committed to an assignment with `good` or
convinces the verifier for at most `K.slack` in `q` of all challenges; and a prover that asks a random oracle for its
challenges and tries `Q` scripts finds a proof for an assignment without `good` for at most `Q * K.slack` in `q` of all
oracles. -/
def Key.Proves (K : Key F) (good : Grid F → Prop) : Prop :=
  (∀ P : Prover F, P.Short K.n →
    good (K.grid P.advice) ∨ Nat.card {c // P.Convinces K c} ≤ K.slack * Fintype.card F ^ 4) ∧
  ∀ (A : Cheat F) (Q : ℕ), Nat.card {t : Fin Q → Challenges F // ∃ e ∈ play A (tape t) Q, e.1.Short K.n ∧
      e.1.Accepts K e.2 ∧ ¬ good (K.grid e.1.advice)} * Fintype.card F ≤ Q * K.slack * Fintype.card F ^ (5 * Q)

theorem Key.Proves.on {K : Key F} {A B : Grid F → Prop} (h : K.Proves A) (hAB : ∀ adv, A (K.grid adv) → B (K.grid adv)) :
    K.Proves B := by
  refine ⟨fun P hP => (h.1 P hP).imp_left (hAB _), fun A Q => le_trans (Nat.mul_le_mul_right _ ?_) (h.2 A Q)⟩
  rw [nat_card_eq_count, nat_card_eq_count]
  refine count_mono ?_
  rintro t ⟨e, he, hs, ha, hb⟩
  exact ⟨e, he, hs, ha, fun hg => hb (hAB _ hg)⟩

theorem Key.Proves.mono {K : Key F} {A B : Grid F → Prop} (h : K.Proves A) (hAB : ∀ g, A g → B g) : K.Proves B :=
  h.on fun adv => hAB _

/-- An honest prover convinces the verifier of an assignment with `good`, for all challenges but `K.loss` in `q`. -/
def Key.Shows (K : Key F) (good : Grid F → Prop) : Prop :=
  ∃ P : Prover F, P.Short K.n ∧ good (K.grid P.advice) ∧
    Fintype.card F ^ 5 ≤ Nat.card {c // P.Convinces K c} + K.loss * Fintype.card F ^ 4

theorem keygen_n {cs : CS F} {ws : List (Wide F)} {ops : List (Op F)} {n : ℕ} {ω δ : F} {K : Key F}
    (hK : keygenWith cs ws ops n ω δ = .ok K) : K.n = n ∧ K.ω = ω := by
  obtain ⟨-, -, s, -, rfl⟩ := keygen_ok hK
  exact ⟨rfl, rfl⟩

theorem proves_with {cs : CS F} {ws : List (Wide F)} {ops : List (Op F)} {n : ℕ} {ω δ : F} {K : Key F}
    (hK : keygenWith cs ws ops n ω δ = .ok K) (hω : IsPrimitiveRoot ω n) (hδ : DistinctNames cs n ω δ)
    {good : Grid F → Prop} (h : ∀ adv : ℕ → F[X], (∀ c, (adv c).degree < n) → cs.Holds (K.grid adv) →
      (∀ w ∈ ws, w.Holds (K.grid adv)) → CopiesHold (K.grid adv) ops → good (K.grid adv)) : K.Proves good := by
  have hn := (keygen_n hK).1
  constructor
  · intro P hP
    rcases Props.C86_sound hK hω hδ (hn ▸ hP) with ⟨h1, h2, h3⟩ | h1
    · exact Or.inl (h _ (hn ▸ hP).advice h1 h2 h3)
    · exact Or.inr h1
  · intro A Q
    refine le_trans (Nat.mul_le_mul_right _ ?_) (Props.C97_sound hK hω hδ A Q)
    rw [nat_card_eq_count, nat_card_eq_count]
    refine count_mono ?_
    rintro t ⟨e, he, hs, ha, hb⟩
    exact ⟨e, he, hn ▸ hs, ha, fun h' => hb (h _ (hn ▸ hs).advice h'.1 h'.2.1 h'.2.2)⟩

theorem proves_of {cs : CS F} {ws : List (Wide F)} {ops : List (Op F)} {n : ℕ} {ω δ : F} {K : Key F}
    (hK : keygenWith cs ws ops n ω δ = .ok K) (hω : IsPrimitiveRoot ω n) (hδ : DistinctNames cs n ω δ)
    {good : Grid F → Prop} (h : ∀ adv, cs.Holds (K.grid adv) → CopiesHold (K.grid adv) ops → good (K.grid adv)) :
    K.Proves good := proves_with hK hω hδ fun adv _ h1 _ h3 => h adv h1 h3

omit [Fintype F] in
/-- The grid of a key has the fixed cells and selectors of the synthesis, in columns that are not filled as tables. -/
theorem key_fixed {cs : CS F} {ws : List (Wide F)} {ops : List (Op F)} {n : ℕ} {ω δ : F} {K : Key F}
    (hK : keygenWith cs ws ops n ω δ = .ok K) (adv : ℕ → F[X]) :
    (K.grid adv).usable ≤ (K.grid adv).n ∧ (K.grid adv).n = n ∧ Fits ops (K.grid adv).usable ∧
      (∀ c, (∀ r v, Op.fill c r v ∉ ops) → ∀ r, (K.grid adv).fixed c r = finalFixed ops c r) ∧
      ∀ s r, (K.grid adv).selector s r = finalSelector ops s r := by
  obtain ⟨hmin, hfits, s, -, rfl⟩ := keygen_ok hK
  exact ⟨Nat.sub_le _ _, rfl, hfits, fun c hc r => Props.keyFixed_eq fun r' v hm => absurd hm (hc r' v), fun s r => rfl⟩

omit [Fintype F] in
theorem key_instance {cs : CS F} {ws : List (Wide F)} {ops : List (Op F)} {n : ℕ} {ω δ : F} {K : Key F}
    (hK : keygenWith cs ws ops n ω δ = .ok K) {cols sels : Set ℕ} (hfill : ∀ c ∈ cols, ∀ r v, Op.fill c r v ∉ ops)
    {adv : ℕ → F[X]} (hcop : CopiesHold (K.grid adv) ops) : InstanceOf (K.grid adv) ops cols sels := by
  obtain ⟨h1, -, -, h2, h3⟩ := key_fixed hK adv
  exact ⟨h1, fun c hc r _ => h2 c (hfill c hc) r, fun s _ r _ => h3 s r, hcop⟩

/-- The prover that assigns what the synthesis does. -/
theorem shows_of {cs : CS F} {ops : List (Op F)} {n : ℕ} {ω δ : F} {K : Key F}
    (hK : keygen cs ops n ω δ = .ok K) (hω : IsPrimitiveRoot ω n) (hfill : ∀ c r v, Op.fill c r v ∉ ops)
    {good : Grid F → Prop}
    (h : ∀ g : Grid F, g.n = K.n → g.usable = K.usable → HonestFor g ops Set.univ Set.univ Set.univ →
      cs.Holds g ∧ CopiesHold g ops)
    (hgood : ∀ g : Grid F, (∀ c, ∀ r < K.usable, g.advice c r = finalAdvice ops c r) → good g) : K.Shows good := by
  obtain ⟨h1, h2, h3, h4, h5⟩ := key_fixed hK fun _ => 0
  obtain ⟨g, hg⟩ : ∃ g : Grid F, g = ⟨K.n, K.usable, finalAdvice ops, K.fixed, K.selector⟩ := ⟨_, rfl⟩
  obtain ⟨g1, g2⟩ := h g (by rw [hg]) (by rw [hg]) ⟨by rw [hg]; exact h1,
    fun c _ r _ => by rw [hg]; exact h4 c (hfill c) r, fun s _ r _ => by rw [hg]; exact h5 s r,
    fun c _ r _ => by rw [hg]⟩
  obtain ⟨P, hP, hadv, hc⟩ := Props.C89_grid hK hω (g := g) (by rw [hg]; exact (keygen_n hK).1) (by rw [hg])
    (by rw [hg]) (by rw [hg]) g1 (by simp) g2
  refine ⟨P, (keygen_n hK).1 ▸ hP, hgood _ fun c r hr => ?_, hc⟩
  have := hadv c r (by
    rw [← (keygen_n hK).1]
    exact lt_of_lt_of_le hr h1)
  change (P.advice c).eval (K.ω ^ r) = _
  rw [(keygen_n hK).2, this, hg]

end Halo2
