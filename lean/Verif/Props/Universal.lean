import Verif.Props.Differential
import Verif.Props.Bn254

/-!
# Digests over the choice of the last row of round constants: C80

The constants of the last full round are added to the state before its S-boxes. Over the choice of that row alone,
all other constants being those of the crate, the digest of an input takes every value equally often, and two inputs
have the same digest for at most `4 / q` of the choices.
-/

set_option linter.unusedVariables false
set_option linter.unusedSectionVars false

namespace Props
open Base Trails

/-! ## Counting along a line -/

namespace Universal
variable {F : Type} [Field F] [DecidableEq F] [Fintype F] {T : ℕ} [NeZero T]

/-- The points of `p` on the lines parallel to axis `j`. -/
theorem card_lines (j : Fin T) (p : (Fin T → F) → Prop) :
    Nat.card {v // p v} = ∑ w : {i // i ≠ j} → F, Nat.card {z : F // p ((Equiv.funSplitAt j F).symm (z, w))} := by
  classical
  rw [← Nat.card_sigma]
  refine Nat.card_congr ?_
  exact
    { toFun := fun v => ⟨fun i => v.1 i, ⟨v.1 j, by
        have : (Equiv.funSplitAt j F).symm (v.1 j, fun i => v.1 i) = v.1 := (Equiv.funSplitAt j F).symm_apply_apply v.1
        rw [this]; exact v.2⟩⟩
      invFun := fun s => ⟨(Equiv.funSplitAt j F).symm (s.2.1, s.1), s.2.2⟩
      left_inv := fun v => Subtype.ext ((Equiv.funSplitAt j F).symm_apply_apply v.1)
      right_inv := fun s => by
        obtain ⟨w, z, hz⟩ := s
        have e := (Equiv.funSplitAt j F).apply_symm_apply (z, w)
        rw [Equiv.funSplitAt_apply] at e
        obtain ⟨e1, e2⟩ := Prod.mk.inj e
        refine Sigma.ext e2 ?_
        refine (Subtype.heq_iff_coe_eq fun x => ?_).mpr e1
        have e2 : (fun i : {i // i ≠ j} => (Equiv.funSplitAt j F).symm (z, w) i) = w := e2
        simp only [e2] }

theorem card_rest (j : Fin T) : Fintype.card ({i // i ≠ j} → F) * Fintype.card F = Fintype.card F ^ T := by
  classical
  have h := Fintype.card_congr (Equiv.funSplitAt j F)
  rw [Fintype.card_prod, Fintype.card_fun, Fintype.card_fin] at h
  rw [h, Nat.mul_comm]

theorem split_self (j : Fin T) (z : F) (w : {i // i ≠ j} → F) : (Equiv.funSplitAt j F).symm (z, w) j = z := by
  simp [Equiv.funSplitAt, Equiv.piSplitAt]

theorem split_ne (j : Fin T) (z : F) (w : {i // i ≠ j} → F) {i : Fin T} (hi : i ≠ j) :
    (Equiv.funSplitAt j F).symm (z, w) i = w ⟨i, hi⟩ := by
  simp [Equiv.funSplitAt, Equiv.piSplitAt, hi]

theorem card_le_of_lines (j : Fin T) (p : (Fin T → F) → Prop) (m : ℕ)
    (h : ∀ w, Nat.card {z : F // p ((Equiv.funSplitAt j F).symm (z, w))} ≤ m) :
    Nat.card {v // p v} * Fintype.card F ≤ m * Fintype.card F ^ T := by
  rw [card_lines j p, ← card_rest j, Nat.mul_comm m, Nat.mul_right_comm]
  have hs := Finset.sum_le_card_nsmul Finset.univ _ m fun w _ => h w
  rw [smul_eq_mul, Finset.card_univ] at hs
  exact Nat.mul_le_mul_right _ hs

theorem card_eq_of_lines (j : Fin T) (p : (Fin T → F) → Prop) (m : ℕ)
    (h : ∀ w, Nat.card {z : F // p ((Equiv.funSplitAt j F).symm (z, w))} = m) :
    Nat.card {v // p v} * Fintype.card F = m * Fintype.card F ^ T := by
  rw [card_lines j p, ← card_rest j, Finset.sum_congr rfl fun w _ => h w, Finset.sum_const, Finset.card_univ,
    smul_eq_mul]
  ring

/-- Along axis `j` only the term `j` of the sum varies. -/
theorem line_sum (j : Fin T) (a : Fin T → F) (f : Fin T → F → F) (z : F) (w : {i // i ≠ j} → F) :
    ∑ k, a k * f k ((Equiv.funSplitAt j F).symm (z, w) k) =
      a j * f j z + ∑ k : {i // i ≠ j}, a k * f k (w k) := by
  rw [Fintype.sum_eq_add_sum_subtype_ne _ j, split_self]
  congr 1
  exact Finset.sum_congr rfl fun k _ => by rw [split_ne j z w k.2]

end Universal
open Universal

section
variable {F : Type} [Field F] [DecidableEq F] [Fintype F] {T : ℕ} [NeZero T]

/-- The last round with its constants replaced. -/
theorem poseidon_last (sbox : F → F) (M : Matrix (Fin T) (Fin T) F) (h rp : ℕ) (hh : 0 < h) (c : ℕ → Fin T → F)
    (v x : Fin T → F) (i : Fin T) :
    Spec.poseidon sbox M h rp (Function.update c (2 * h + rp - 1) v) x i =
      ∑ k, M i k * sbox (stateAt sbox M h rp c (2 * h + rp - 1) x k + v k) := by
  obtain ⟨n, hn⟩ : ∃ n, 2 * h + rp = n + 1 := ⟨2 * h + rp - 1, by omega⟩
  have e : Spec.poseidon sbox M h rp (Function.update c (2 * h + rp - 1) v) x =
      stateAt sbox M h rp (Function.update c (2 * h + rp - 1) v) (n + 1) x := by
    rw [← hn]; rfl
  rw [e, Trails.stateAt_succ, show 2 * h + rp - 1 = n by omega, Differential.stateAt_congr
    sbox M h rp (c' := c) (fun k hk => Function.update_of_ne (by omega) _ _) x]
  unfold Spec.round
  rw [if_pos (Or.inr (by omega)), Function.update_self]
  rfl

/-- **C80, uniform.** Over the row of constants of the last full round, every value of an output word is taken equally
often: by one of `q` of the rows. -/
theorem C80_uniform (sbox : F → F) (hs : Function.Bijective sbox) (M : Matrix (Fin T) (Fin T) F) (h rp : ℕ)
    (hh : 0 < h) (c : ℕ → Fin T → F) (i j : Fin T) (hM : M i j ≠ 0) (x : Fin T → F) (y : F) :
    Nat.card {v : Fin T → F // Spec.poseidon sbox M h rp (Function.update c (2 * h + rp - 1) v) x i = y} *
      Fintype.card F = Fintype.card F ^ T := by
  have := card_eq_of_lines j (fun v => Spec.poseidon sbox M h rp (Function.update c (2 * h + rp - 1) v) x i = y) 1
    fun w => ?_
  · rw [this, Nat.one_mul]
  · simp only [poseidon_last sbox M h rp hh]
    generalize stateAt sbox M h rp c (2 * h + rp - 1) x = u
    simp only [fun z => line_sum j (M i) (fun k z => sbox (u k + z)) z w]
    generalize ∑ k : {i // i ≠ j}, M i k * sbox (u k + w k) = S
    obtain ⟨t, ht⟩ := hs.2 ((y - S) / M i j)
    rw [Nat.card_eq_one_iff_unique]
    refine ⟨⟨fun a b => Subtype.ext ?_⟩, ⟨t - u j, ?_⟩⟩
    · have := a.2.trans b.2.symm
      have := mul_left_cancel₀ hM (add_right_cancel this)
      exact add_left_cancel (hs.1 this)
    · have ht : sbox t = _ := ht
      rw [add_sub_cancel, ht, mul_div_cancel₀ _ hM, sub_add_cancel]

/-- **C80, collisions.** If an input difference other than zero leads to a given difference of the S-box for at most `m`
words, two different inputs agree in an output word for at most `m` of `q` of the rows of constants of the last full
round. -/
theorem C80_collision (sbox : F → F) (hs : Function.Bijective sbox) (m : ℕ)
    (hm : ∀ a b : F, a ≠ 0 → Nat.card {z : F // sbox (z + a) - sbox z = b} ≤ m) (M : Matrix (Fin T) (Fin T) F)
    (hM : IsUnit M.det) (h rp : ℕ) (hh : 0 < h) (c : ℕ → Fin T → F) (i : Fin T) (hi : ∀ j, M i j ≠ 0)
    (x x' : Fin T → F) (hx : x ≠ x') :
    Nat.card {v : Fin T → F // Spec.poseidon sbox M h rp (Function.update c (2 * h + rp - 1) v) x i =
      Spec.poseidon sbox M h rp (Function.update c (2 * h + rp - 1) v) x' i} * Fintype.card F ≤
      m * Fintype.card F ^ T := by
  have hu := stateAt_ne (h := h) (rp := rp) (c := c) hs hM (2 * h + rp - 1) hx
  simp only [poseidon_last sbox M h rp hh]
  generalize stateAt sbox M h rp c (2 * h + rp - 1) x = u at hu
  generalize stateAt sbox M h rp c (2 * h + rp - 1) x' = u' at hu
  obtain ⟨j, hj⟩ := Function.ne_iff.mp hu
  refine card_le_of_lines j _ m fun w => ?_
  simp only [fun z => line_sum j (M i) (fun k z => sbox (u k + z)) z w,
    fun z => line_sum j (M i) (fun k z => sbox (u' k + z)) z w]
  generalize ∑ k : {i // i ≠ j}, M i k * sbox (u k + w k) = S
  generalize ∑ k : {i // i ≠ j}, M i k * sbox (u' k + w k) = S'
  refine le_trans (Nat.card_le_card_of_injective
    (fun z : {z : F // M i j * sbox (u j + z) + S = M i j * sbox (u' j + z) + S'} =>
      (⟨u' j + z.1, ?_⟩ : {z : F // sbox (z + (u j - u' j)) - sbox z = (S' - S) / M i j})) ?_) (hm _ _ (sub_ne_zero.mpr hj))
  · have := z.2
    rw [show u' j + z.1 + (u j - u' j) = u j + z.1 by ring, eq_div_iff (hi j)]
    linear_combination this
  · intro a b hab
    exact Subtype.ext (add_left_cancel (congrArg Subtype.val hab))

end

/-! ## The instances of the crate -/

/-- The permutation of the code with the last row of its constants replaced. -/
theorem permute_set_last {F : Type} [Field F] (S : RSpec F) (rp : ℕ) (hf : S.fullRounds = 8) (hp : S.partialRounds = rp)
    (hs : ∀ x, S.sbox x = x ^ 5) (mds : Mds F 3) (rc : List (State F 3)) (hl : rc.length = 8 + rp) (v s : State F 3) :
    permute S mds (rc.set (7 + rp) v) s =
      Spec.poseidon (fun x => x ^ 5) (Matrix.of mds) 4 rp
        (Function.update (fun i => rc.getD i 0) (2 * 4 + rp - 1) v) s := by
  rw [C01_permute_textbook S mds _ (by rw [List.length_set, hl, hf, hp]), hf, hp, show S.sbox = fun x => x ^ 5 from funext hs]
  congr 1
  funext i
  by_cases hi : i = 7 + rp
  · subst hi
    rw [show 2 * 4 + rp - 1 = 7 + rp by omega, Function.update_self, List.getD_eq_getElem?_getD,
      List.getElem?_set_self (by omega)]
    rfl
  · rw [Function.update_of_ne (by omega), List.getD_eq_getElem?_getD, List.getElem?_set_ne (by omega),
      List.getD_eq_getElem?_getD]

theorem isMds_entry {F : Type} [Field F] [DecidableEq F] {T : ℕ} [NeZero T] {M : Matrix (Fin T) (Fin T) F} (hM : IsMds M)
    (i j : Fin T) : M i j ≠ 0 := by
  have := hM 1 (fun _ => i) (fun _ => j) (Function.injective_of_subsingleton _) (Function.injective_of_subsingleton _)
  simpa [Matrix.det_fin_one] using this

open Bn256 in
/-- **C80, BN254.** `hash_with_domain` with the cached constants of either build, of which the last row `v` is replaced:
for every input, each digest is reached by exactly `r²` of the `r³` rows, and two different inputs have the same digest
for at most `4 r²` of them. -/
theorem C80_bn254 (short : Bool) : ∃ rc, cachedRoundConstants = .ok rc ∧ rc.length = 65 ∧
    (∀ a b dom y : Fr, Nat.card {v : State Fr 3 //
      hashWithDomain (permute (hashSpec short) mds (rc.set 64 v)) ![a, b] dom = .ok y} = r ^ 2) ∧
    (∀ a b dom a' b' dom' : Fr, (a, b, dom) ≠ (a', b', dom') → Nat.card {v : State Fr 3 //
      hashWithDomain (permute (hashSpec short) mds (rc.set 64 v)) ![a, b] dom =
        hashWithDomain (permute (hashSpec short) mds (rc.set 64 v)) ![a', b'] dom'} ≤ 4 * r ^ 2) := by
  obtain ⟨rc, h1, h2, -, -⟩ := cached_ok
  have h5 : (5 : Fr) ≠ 0 := by
    have := (ZMod.natCast_eq_zero_iff 5 r).not.mpr (by decide +kernel)
    simpa using this
  have hc : Fintype.card Fr = r := ZMod.card _
  have hr : 0 < r := by norm_num [r]
  obtain ⟨-, -, inv, N, -, hN⟩ := C49_bn254_constants
  have hM : IsMds (Matrix.of mds) := default_isMds (hN N le_rfl)
  have hp : ∀ v s, permute (hashSpec short) mds (rc.set 64 v) s = _ := fun v s =>
    permute_set_last (hashSpec short) 57 (by cases short <;> rfl) (by cases short <;> rfl)
      (by cases short <;> intro x <;> first | rfl | exact sboxCompact_eq x) mds rc h2 v s
  refine ⟨rc, h1, h2, fun a b dom y => ?_, fun a b dom a' b' dom' hne => ?_⟩
  · have h := C80_uniform (fun x : Fr => x ^ 5) sbox_bijective (Matrix.of mds) 4 57 (by norm_num)
      (fun i => rc.getD i 0) 0 0 (isMds_entry hM 0 0) ![dom, a, b] y
    rw [hc] at h
    simp only [(C04_hash_with_domain _ _ _ _).1, hp, Except.ok.injEq]
    exact Nat.eq_of_mul_eq_mul_right hr (h.trans (pow_succ r 2))
  · have h := C80_collision (fun x : Fr => x ^ 5) sbox_bijective 4 (fun a b ha => (C74_sbox h5 ha b).2) (Matrix.of mds)
      (isUnit_iff_ne_zero.mpr det_ne_zero) 4 57 (by norm_num) (fun i => rc.getD i 0) 0 (isMds_entry hM 0)
      ![dom, a, b] ![dom', a', b'] (by
        intro e
        have e0 := congrFun e 0
        have e1 := congrFun e 1
        have e2 := congrFun e 2
        simp at e0 e1 e2
        exact hne (by rw [e0, e1, e2]))
    rw [hc] at h
    simp only [(C04_hash_with_domain _ _ _ _).1, hp, Except.ok.injEq]
    exact Nat.le_of_mul_le_mul_right (h.trans (by rw [pow_succ r 2, Nat.mul_assoc])) hr

open Bn256 in
/-- **C80, messages of one block.** `hash_msg` with its default capacity, of messages of one or two words: each digest is
reached by exactly `r²` of the `r³` last rows, and two different messages have the same digest for at most `4 r²`. The
messages `[a]` and `[a, 0]` fill the same block and differ by the capacity word. -/
theorem C80_messages (short legacy : Bool) : ∃ rc, cachedRoundConstants = .ok rc ∧ rc.length = 65 ∧
    (∀ (m : List Fr) (y : Fr), m ≠ [] → m.length ≤ 2 → Nat.card {v : State Fr 3 //
      hashMsg legacy (permute (hashSpec short) mds (rc.set 64 v)) m none = .ok y} = r ^ 2) ∧
    (∀ m m' : List Fr, m ≠ [] → m' ≠ [] → m.length ≤ 2 → m'.length ≤ 2 → m ≠ m' → Nat.card {v : State Fr 3 //
      hashMsg legacy (permute (hashSpec short) mds (rc.set 64 v)) m none =
        hashMsg legacy (permute (hashSpec short) mds (rc.set 64 v)) m' none} ≤ 4 * r ^ 2) := by
  obtain ⟨rc, h1, h2, h3, h4⟩ := C80_bn254 short
  have key : ∀ m : List Fr, m ≠ [] → m.length ≤ 2 → ∀ v,
      hashMsg legacy (permute (hashSpec short) mds (rc.set 64 v)) m none =
        hashWithDomain (permute (hashSpec short) mds (rc.set 64 v)) ![m.getD 0 0, m.getD 1 0]
          ((m.length * (if legacy then 1 else 2 ^ 64) : ℕ) : Fr) := by
    intro m hm hl v
    rw [C05_hash_msg legacy _ m (by omega) hm, (C04_hash_with_domain _ _ _ _).1]
    match m, hm, hl with
    | [a], _, _ => simp [Spec.spongeHash, Spec.absorbPairs, Spec.onTriples]
    | [a, b], _, _ => simp [Spec.spongeHash, Spec.absorbPairs, Spec.onTriples]
  refine ⟨rc, h1, h2, fun m y hm hl => ?_, fun m m' hm hm' hl hl' hne => ?_⟩
  · simp only [key m hm hl]
    exact h3 _ _ _ y
  · simp only [key m hm hl, key m' hm' hl']
    refine h4 _ _ _ _ _ _ fun e => hne ?_
    obtain ⟨e0, e⟩ := Prod.mk.inj e
    obtain ⟨e1, e2⟩ := Prod.mk.inj e
    have hlen : m.length = m'.length := by
      by_contra h
      exact (C07_default_capacity legacy m.length m'.length (by omega) (by omega)).2 h e2
    match m, m', hm, hm', hl, hl', hlen, e0, e1 with
    | [a], [a'], _, _, _, _, _, e0, _ => simpa using e0
    | [a, b], [a', b'], _, _, _, _, _, e0, e1 => simp at e0 e1; rw [e0, e1]

/-- **C80, Pallas.** Every word of the permutation, with the cached constants of either build. -/
theorem C80_pasta (short : Bool) : ∃ rc, Pasta.cachedRoundConstants short = .ok rc ∧ rc.length = 64 ∧
    (∀ (x : State Pasta.Fp 3) (i : Fin 3) (y : Pasta.Fp), Nat.card {v : State Pasta.Fp 3 //
      permute (Pasta.hashSpec short) Pasta.mds (rc.set 63 v) x i = y} = Pasta.p ^ 2) ∧
    (∀ (x x' : State Pasta.Fp 3) (i : Fin 3), x ≠ x' → Nat.card {v : State Pasta.Fp 3 //
      permute (Pasta.hashSpec short) Pasta.mds (rc.set 63 v) x i =
        permute (Pasta.hashSpec short) Pasta.mds (rc.set 63 v) x' i} ≤ 4 * Pasta.p ^ 2) := by
  obtain ⟨rc, h1, h2⟩ : ∃ rc, Pasta.cachedRoundConstants short = .ok rc ∧ rc.length = 64 := by
    cases short with
    | false => exact ⟨_, rfl, Pasta.roundConstants_length⟩
    | true =>
      obtain ⟨rc, h1, h2, -⟩ := compactConstants_spec (p128Pow5T3 56 : RSpec Pasta.Fp) Pasta.mds Pasta.roundConstants
        (by simp [p128Pow5T3]) (by simp [p128Pow5T3, Pasta.roundConstants_length])
      exact ⟨rc, h1, by rw [h2, Pasta.roundConstants_length]⟩
  have h5 : (5 : Pasta.Fp) ≠ 0 := by
    have := (ZMod.natCast_eq_zero_iff 5 Pasta.p).not.mpr (by decide +kernel)
    simpa using this
  have hc : Fintype.card Pasta.Fp = Pasta.p := ZMod.card _
  have hr : 0 < Pasta.p := by norm_num [Pasta.p]
  obtain ⟨-, -, -, -, N, hN⟩ := C50_pasta_constants
  have hM : IsMds (Matrix.of Pasta.mds) := default_isMds (hN N le_rfl)
  have hp : ∀ v s, permute (Pasta.hashSpec short) Pasta.mds (rc.set 63 v) s = _ := fun v s =>
    permute_set_last (Pasta.hashSpec short) 56 (by cases short <;> rfl) (by cases short <;> rfl)
      (by cases short <;> intro x <;> first | rfl | exact sboxCompact_eq x) Pasta.mds rc h2 v s
  have hd : IsUnit (Matrix.of Pasta.mds).det := isUnit_iff_ne_zero.mpr (by
    have := hM 3 id id Function.injective_id Function.injective_id
    simpa using this)
  refine ⟨rc, h1, h2, fun x i y => ?_, fun x x' i hne => ?_⟩
  · have h := C80_uniform (fun x : Pasta.Fp => x ^ 5) Pasta.sbox_bijective (Matrix.of Pasta.mds) 4 56 (by norm_num)
      (fun i => rc.getD i 0) i 0 (isMds_entry hM i 0) x y
    rw [hc] at h
    simp only [hp]
    exact Nat.eq_of_mul_eq_mul_right hr (h.trans (pow_succ Pasta.p 2))
  · have h := C80_collision (fun x : Pasta.Fp => x ^ 5) Pasta.sbox_bijective 4 (fun a b ha => (C74_sbox h5 ha b).2)
      (Matrix.of Pasta.mds) hd 4 56 (by norm_num) (fun i => rc.getD i 0) i (isMds_entry hM i) x x' hne
    rw [hc] at h
    simp only [hp]
    exact Nat.le_of_mul_le_mul_right (h.trans (by rw [pow_succ Pasta.p 2, Nat.mul_assoc])) hr

/-! ## Non-vacuity -/

/-- Two inputs to which the bound applies: they differ in the domain only. -/
example : ((1 : Bn256.Fr), (2 : Bn256.Fr), (0 : Bn256.Fr)) ≠ (1, 2, 1) := by
  simp

/-- Two messages that fill the same block. -/
example : ([1] : List Bn256.Fr) ≠ [] ∧ [(1 : Bn256.Fr), 0] ≠ [] ∧ ([1] : List Bn256.Fr) ≠ [1, 0] := by
  simp

/-- A small instance of the general theorems: one full round at each end, `x^5` and the matrix `[[1, 2], [2, 1]]` over
`ZMod 7`, whose first row has no zero. -/
example : Function.Bijective (fun x : ZMod 7 => x ^ 5) ∧ (5 : ZMod 7) ≠ 0 ∧
    (!![1, 2; 2, 1] : Matrix (Fin 2) (Fin 2) (ZMod 7)).det ≠ 0 ∧
    ∀ j, (!![1, 2; 2, 1] : Matrix (Fin 2) (Fin 2) (ZMod 7)) 0 j ≠ 0 := by
  refine ⟨by decide, by decide, ?_, by decide⟩
  rw [Matrix.det_fin_two]
  decide

end Props
