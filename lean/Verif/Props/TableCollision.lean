import Verif.Props.Collision
import Verif.Props.TableSound

/-!
# Collisions between hash table blocks, separation of the two modes: C59
-/

set_option linter.unusedVariables false

namespace Props
open Halo2 Circuit Circuit.Table Base.Bn256 Collide

private theorem absorbRows_cons (π : Fr × Fr × Fr → Fr × Fr × Fr) (cap : Fr) (row : Fr × Fr × Fr)
    (rows : List (Fr × Fr × Fr)) (h : ∀ q ∈ rows, q.1 = 0) :
    Spec.absorbRows π (cap, 0, 0) (row :: rows) =
      absorb π (cap + row.1, 0, 0) ((row :: rows).map fun q => q.2) := by
  have key : ∀ (rows : List (Fr × Fr × Fr)) (st : Fr × Fr × Fr), (∀ q ∈ rows, q.1 = 0) →
      Spec.absorbRows π st rows = absorb π st (rows.map fun q => q.2) := by
    intro rows
    induction rows with
    | nil => rintro ⟨c, x, y⟩ -; rfl
    | cons q rows ih =>
      rintro ⟨c, x, y⟩ h
      obtain ⟨d, a, b⟩ := q
      obtain rfl : d = 0 := h (d, a, b) (by simp)
      rw [Spec.absorbRows, add_zero, ih _ fun q hq => h q (by simp [hq])]
      rfl
  obtain ⟨d, a, b⟩ := row
  rw [Spec.absorbRows, key rows _ h]
  rfl

/-- The word pairs of a block. -/
def pairsOf (x : Run Fr) (g : Grid Fr) (a m : ℕ) : List (Fr × Fr) :=
  (List.range (m + 1)).map fun i => (x.col g 1 (a + i), x.col g 2 (a + i))

/-- Digest of a block whose domain is zero after the first row. -/
private theorem digest_pairs (x : Run Fr) (g : Grid Fr) (a m : ℕ) (cap : Fr)
    (h : ∀ i, 0 < i → i ≤ m → x.col g 4 (a + i) = 0) :
    Spec.rowsDigest (Spec.onTriples permBn) cap (blockOf x g a m) =
      (absorb bnTriples (cap + x.col g 4 a, 0, 0) (pairsOf x g a m)).1 := by
  have e : blockOf x g a m = (x.col g 4 a, x.col g 1 a, x.col g 2 a) ::
      (List.range m).map fun i => (x.col g 4 (a + (i + 1)), x.col g 1 (a + (i + 1)), x.col g 2 (a + (i + 1))) := by
    unfold blockOf
    rw [List.range_succ_eq_map, List.map_cons, List.map_map]
    rfl
  have e' : pairsOf x g a m = (blockOf x g a m).map fun q => q.2 := by
    unfold pairsOf blockOf
    rw [List.map_map]
    rfl
  rw [e', Spec.rowsDigest, e, absorbRows_cons]
  · rfl
  · intro q hq
    obtain ⟨i, hi, rfl⟩ := List.mem_map.mp hq
    rw [List.mem_range] at hi
    exact h (i + 1) (by omega) (by omega)

/-- **C59.** Take accepted assignments of two runs over BN254 (any chips, builds, steps, modes, tables) and a
block in each whose domain is zero after the first row. If the digests agree, then the blocks have the same
rows and the same initial capacity (head control plus head domain), or the permutation inputs that the two
blocks evaluate exhibit a weakness of the permutation. -/
theorem C59_table_collision {x y : Run Fr} {k k' : ChipKind} {short short' : Bool} {L L' : Layouter Fr}
    {post post' : List (Op Fr)} {g g' : Grid Fr} (h : x.Accepted k short L post g)
    (h' : y.Accepted k' short' L' post' g') :
    ∃ s s', x.EnabledAfter g s ∧ y.EnabledAfter g' s' ∧
      ∀ a m a' m', Block x g s a m → Block y g' s' a' m' →
        (∀ i, 0 < i → i ≤ m → x.col g 4 (a + i) = 0) → (∀ i, 0 < i → i ≤ m' → y.col g' 4 (a' + i) = 0) →
        x.col g 0 a = y.col g' 0 a' →
        (m = m' ∧ x.col g 3 a + x.col g 4 a = y.col g' 3 a' + y.col g' 4 a' ∧
          ∀ i ≤ m, x.col g 1 (a + i) = y.col g' 1 (a' + i) ∧ x.col g 2 (a + i) = y.col g' 2 (a' + i)) ∨
        Weakness bnTriples (x.col g 3 a + x.col g 4 a) (y.col g' 3 a' + y.col g' 4 a')
          (pairsOf x g a m) (pairsOf y g' a' m') := by
  obtain ⟨s, hen, hdig⟩ := C26_block_digest h
  obtain ⟨s', hen', hdig'⟩ := C26_block_digest h'
  refine ⟨s, s', hen, hen', fun a m a' m' hb hb' hd hd' heq => ?_⟩
  have e := (hdig a m hb).1 0 (Nat.zero_le _)
  have e' := (hdig' a' m' hb').1 0 (Nat.zero_le _)
  rw [Nat.add_zero, digest_pairs _ _ _ _ _ hd] at e
  rw [Nat.add_zero, digest_pairs _ _ _ _ _ hd'] at e'
  rw [e, e'] at heq
  rcases reduction bnTriples _ _ _ _ (by simp [pairsOf]) (by simp [pairsOf]) heq with ⟨h1, h2⟩ | hw
  · have hm : m = m' := by
      have := congrArg List.length h2
      simpa [pairsOf] using this
    subst hm
    refine .inl ⟨rfl, h1, fun i hi => ?_⟩
    have := congrArg (fun l => l[i]?) h2
    simp only [pairsOf, List.getElem?_map, List.getElem?_range (show i < m + 1 by omega), Option.map_some,
      Option.some.injEq, Prod.mk.injEq] at this
    exact this
  · exact .inr hw

-- two blocks of one accepted run
example (k : ChipKind) (short legacy : Bool) (mode : LoadMode) :
    ∃ (x : Run Fr) (L' : Layouter Fr) (g : Grid Fr), x.Accepted k short L' [] g ∧ x.EnabledAfter g 0 ∧
      Block x g 0 2 2 ∧ (∀ i, 0 < i → i ≤ 2 → x.col g 4 (2 + i) = 0) ∧ x.col g 0 2 = x.col g 0 2 := by
  obtain ⟨x, L', g, h, -, he, -, -, -, -, -, -, hb, -, -, -, hd⟩ := demo_blocks k short legacy mode
  exact ⟨x, L', g, h, he, hb, fun i _ hi => hd i hi, rfl⟩

/-- **C59, separation of the modes.** Without `legacy`, an MPT row (control 0) whose domain is a 64-bit
number and a message block (head control not 0, zero domains) with the same digest always exhibit a
weakness of the permutation. -/
theorem C59_modes_separated {x y : Run Fr} {k k' : ChipKind} {short short' : Bool} {L L' : Layouter Fr}
    {post post' : List (Op Fr)} {g g' : Grid Fr} (h : x.Accepted k short L post g)
    (h' : y.Accepted k' short' L' post' g') (hleg : y.legacy = false) :
    ∃ s s', x.EnabledAfter g s ∧ y.EnabledAfter g' s' ∧
      ∀ a m a' m' (D : ℕ), Block x g s a m → Block y g' s' a' m' → x.col g 3 a = 0 → D < 2 ^ 64 →
        x.col g 4 a = (D : Fr) → y.col g' 3 a' ≠ 0 → (∀ i ≤ m', y.col g' 4 (a' + i) = 0) →
        x.col g 0 a = y.col g' 0 a' →
        m = 0 ∧ Weakness bnTriples (D : Fr) (y.col g' 3 a') [(x.col g 1 a, x.col g 2 a)] (pairsOf y g' a' m') := by
  obtain ⟨s, s', hen, hen', hcol⟩ := C59_table_collision h h'
  refine ⟨s, s', hen, hen', fun a m a' m' D hb hb' hc hD hdom hc' hdom' heq => ?_⟩
  have hlt : 0 < x.calcs := by have := hb.first; have := hb.last; omega
  have hlt' : 0 < y.calcs := by have := hb'.first; have := hb'.last; omega
  have hm : m = 0 := by
    obtain ⟨s₂, hen₂, hmpt⟩ := C27_mpt_rows h
    obtain rfl : s₂ = s := hen₂.unique h.laid.usable_le hen hlt
    rcases Nat.eq_zero_or_pos m with h0 | hpos
    · exact h0
    · have h1 := hb.cont 1 (by omega) hpos
      have h2 := (hmpt a hb.first (by have := hb.last; omega) hc).2.1
      rw [h1] at h2
      exact absurd h2 zero_ne_one
  subst hm
  refine ⟨rfl, ?_⟩
  have hz : y.col g' 4 a' = 0 := hdom' 0 (Nat.zero_le _)
  rcases hcol a 0 a' m' hb hb' (fun i h1 h2 => by omega) (fun i _ hi => hdom' i hi) heq with ⟨-, he, -⟩ | hw
  · exfalso
    rw [hc, hdom, hz, zero_add, add_zero] at he
    obtain ⟨s₃, hen₃, -, -, -, hctl, -⟩ := C28_controls h'
    obtain rfl : s₃ = s' := hen₃.unique h'.laid.usable_le hen' hlt'
    obtain ⟨i, -, -, hi⟩ := hctl a' m' hb'
    obtain ⟨e, hr⟩ := hi 0 (Nat.zero_le _)
    rw [Nat.add_zero] at e
    generalize (i + (m' - 0) * y.step) = n at e hr
    rw [hleg] at e hr
    have hn : n ≠ 0 := by
      rintro rfl
      rw [Nat.zero_mul, Nat.cast_zero] at e
      exact hc' e
    rw [e] at he
    have he' := (ZMod.natCast_eq_natCast_iff' _ _ r).mp he
    rw [Nat.mod_eq_of_lt (lt_trans hD (by norm_num [r])), Nat.mod_eq_of_lt hr] at he'
    have : 1 * Base.domainSpec false ≤ n * Base.domainSpec false := Nat.mul_le_mul_right _ (by omega)
    rw [← he'] at this
    simp only [Base.domainSpec] at this
    norm_num at this
    omega
  · rw [hc, hdom, hz, zero_add, add_zero] at hw
    simpa [pairsOf] using hw

-- an MPT row with domain 7 and a message block of three rows
example (k : ChipKind) (short : Bool) (mode : LoadMode) :
    ∃ (x : Run Fr) (L' : Layouter Fr) (g : Grid Fr), x.Accepted k short L' [] g ∧ x.legacy = false ∧
      x.EnabledAfter g 0 ∧ Block x g 0 1 0 ∧ Block x g 0 2 2 ∧ x.col g 3 1 = 0 ∧ x.col g 4 1 = ((7 : ℕ) : Fr) ∧
      x.col g 3 2 ≠ 0 ∧ ∀ i ≤ 2, x.col g 4 (2 + i) = 0 := by
  obtain ⟨x, L', g, h, -, he, -, -, -, hl, -, hb, hb', h3, h4, hc, hd⟩ := demo_blocks k short false mode
  refine ⟨x, L', g, h, hl, he, hb, hb', h3, by rw [h4]; norm_num, ?_, hd⟩
  rw [hc]
  intro h0
  have := fr_big _ (by norm_num [Base.domainSpec]) h0
  norm_num [Base.domainSpec] at this

/-- C59 natively: without `legacy`, equal results of `hash_with_domain` under a 64-bit domain and of
`hash_msg` with the default capacity exhibit a weakness of the permutation; with `legacy` every two-word
message has the hash of an MPT node with domain 2. -/
theorem C59_native (short : Bool) :
    (∀ (a b : Fr) (D : ℕ) (msg : List Fr), D < 2 ^ 64 → msg ≠ [] → msg.length < 2 ^ 64 →
      hashWithDomainFr short ![a, b] (D : Fr) = hashMsgFr short false msg none →
      Weakness bnTriples (D : Fr) ((msg.length * 2 ^ 64 : ℕ) : Fr) [(a, b)] (pairs msg)) ∧
    ∀ a b : Fr, hashWithDomainFr short ![a, b] 2 = hashMsgFr short true [a, b] none := by
  constructor
  · intro a b D msg hD hne hlen heq
    rw [(C04_C05_bn254 short false).1, (C04_C05_bn254 short false).2 msg none hne hlen, Option.getD_none] at heq
    have h := Except.ok.inj heq
    unfold Spec.spongeHash at h
    rw [absorb_pairs] at h
    have h2 : (absorb bnTriples ((D : Fr), 0, 0) [(a, b)]).1 =
        (absorb bnTriples (((msg.length * if false then 1 else 2 ^ 64 : ℕ) : Fr), 0, 0) (pairs msg)).1 := by
      refine Eq.trans ?_ h
      simp only [absorb, bnTriples, Spec.onTriples, zero_add]
      rfl
    rcases reduction bnTriples _ _ _ _ (by simp) (pairs_ne_nil hne) h2 with ⟨hc, -⟩ | hw
    · exfalso
      have hpos : 0 < msg.length := List.length_pos_iff.mpr hne
      have e := (ZMod.natCast_eq_natCast_iff' _ _ r).mp hc
      simp only [Bool.false_eq_true, if_false] at e
      rw [Nat.mod_eq_of_lt (lt_trans hD (by norm_num [r])),
        Nat.mod_eq_of_lt (lt_trans (Nat.mul_lt_mul_of_pos_right hlen (by norm_num)) (by norm_num [r]))] at e
      omega
    · simpa using hw
  · intro a b
    rw [(C04_C05_bn254 short true).1, (C04_C05_bn254 short true).2 _ none (by simp) (by simp)]
    refine congrArg Except.ok ?_
    simp [Spec.spongeHash, Spec.absorbPairs, Spec.onTriples]

-- 64-bit domain 2, a message of three words
example : 2 < 2 ^ 64 ∧ ([1, 2, 3] : List Fr) ≠ [] ∧ ([1, 2, 3] : List Fr).length < 2 ^ 64 := by simp

end Props
