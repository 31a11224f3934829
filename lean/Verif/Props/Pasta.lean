import Verif.Base.Pasta
import Verif.Props.Constants
import Verif.Props.Native

/-!
# The Pallas instance: C50
-/

namespace Props
open Base Base.Grain Base.Pasta

/-- The 410 groups of the stream of the Pallas parameters: 404 for the constants, of which 212 are rejected, and
6 for the matrix. Computed by the kernel. -/
private theorem pasta_eval : ((evalDraws 255 410 (evalStart (Spec.grainSeed 0 255 3 8 56))).map fun l =>
    ((l.take 404).filter (· < p) == roundConstantWords.map rawNat) && l.length == 410 &&
      decide ((l.take 404).getLastD 0 < p) && decide ((l.drop 404).map (· % p)).Nodup &&
      (List.range 3).all fun i => (List.range 3).all fun j =>
        ((l.drop 404).getD i 0 + (l.drop 404).getD (3 + j) 0) * rawNat (mdsWords.getD (i * 3 + j) []) % p == 1) =
    some true := by
  decide +kernel

/-- **C50** (constants). The tables of `pasta/fp.rs` are what the default `Spec::constants` generates for the
255-bit Pallas base field with width 3, 8 full and 56 partial rounds and `secure_mds = 0`; in particular
`MDS_INV` is the inverse of `MDS`. -/
theorem C50_pasta_constants : 2 ^ 254 ≤ p ∧ p < 2 ^ 255 ∧
    Matrix.of mds * Matrix.of Pasta.mdsInv = 1 ∧ Matrix.of Pasta.mdsInv * Matrix.of mds = 1 ∧
    ∃ N, ∀ fuel, N ≤ fuel →
      defaultConstants p 255 3 8 56 0 fuel = .ok (roundConstants, mds, Pasta.mdsInv) := by
  have h2 := mds_mul_mdsInv
  have h3 := mul_eq_one_comm.mp h2
  refine ⟨by norm_num, by norm_num, h2, h3, 410, fun fuel hf => ?_⟩
  obtain ⟨l, hl, hc⟩ := Option.map_eq_some_iff.mp pasta_eval
  simp only [Bool.and_eq_true, beq_iff_eq, decide_eq_true_eq, List.all_eq_true, List.mem_range] at hc
  obtain ⟨⟨⟨⟨c1, c2⟩, c3⟩, c4⟩, c5⟩ := hc
  have hcast : ((l.drop 404).map (· % p)).map (fun v : ℕ => (v : Fp)) = (l.drop 404).map fun v : ℕ => (v : Fp) := by
    rw [List.map_map]
    apply List.map_congr_left
    intro v _
    simp only [Function.comp, ZMod.natCast_mod]
  obtain ⟨inv', e1, e2⟩ := defaultConstants_run p 255 3 8 56 fuel (by norm_num) (by norm_num) (by norm_num)
    (by norm_num) (by norm_num) 410 (l.take 404) (l.drop 404) (by rw [List.take_append_drop]; exact hl)
    (by
      intro v hv
      rw [List.getLastD_eq_getLast?, Option.mem_def.mp hv] at c3
      exact c3)
    (by rw [c1]; rfl) (by rw [List.length_drop, c2])
    (by
      rw [← hcast]
      refine c4.map_on ?_
      intro x hx y hy hxy
      obtain ⟨x', -, rfl⟩ := List.mem_map.mp hx
      obtain ⟨y', -, rfl⟩ := List.mem_map.mp hy
      have := (ZMod.natCast_eq_natCast_iff' _ _ _).mp hxy
      simpa only [Nat.mod_mod] using this)
    mds
    (by
      intro i j
      have := c5 i.val i.isLt j.val j.isLt
      simp only [mds]
      have h := congrArg (fun n : ℕ => (n : Fp)) this
      simpa only [ZMod.natCast_mod, Nat.cast_mul, Nat.cast_add, Nat.cast_one] using h)
    (by rw [List.length_take, c2]; omega) (by omega)
  have hinv : inv' = Pasta.mdsInv := by
    have := left_inv_eq_right_inv h3 e2
    exact (Matrix.of.injective this).symm
  have hrc : (List.range (8 + 56)).map (fun i => fun j : Fin 3 =>
      (((roundConstantWords.map rawNat).getD (i * 3 + j.val) 0 : ℕ) : Fp)) = roundConstants := by
    simp only [roundConstants]
    apply List.map_congr_left
    intro i _
    funext j
    rw [show (0 : ℕ) = rawNat [] from rfl, List.getD_map]
  rw [e1, c1, hinv]
  exact congrArg (fun x => Except.ok (x, mds, Pasta.mdsInv)) hrc

/-- **C50** (permutation). In both builds the cached constants exist and the permutation of the Pallas instance is
textbook Poseidon with the raw constants, a bijection of the 3-word states; the two builds agree. -/
theorem C50_pasta_permutation (short : Bool) :
    (∀ s, permuteFp short s = .ok (Spec.poseidon (fun x => x ^ 5) (Matrix.of mds) 4 56
      (fun i => roundConstants.getD i 0) s)) ∧
    Function.Bijective (Spec.poseidon (fun x : Fp => x ^ 5) (Matrix.of mds) 4 56
      (fun i => roundConstants.getD i 0)) := by
  obtain ⟨rc, h1, h2⟩ := permute_ok short
  constructor
  · intro s
    simp only [permuteFp, h1, bind, Except.bind, h2, pure, Except.pure]
    rfl
  · refine poseidon_bijective _ sbox_bijective _ ?_ _ _ _
    exact Matrix.isUnit_det_of_right_inverse mds_mul_mdsInv

/-- **C50** (hash). In both builds the constant-length hash over Pallas is the rate-2 sponge of textbook Poseidon
started from `L * 2^64` in word 2. -/
theorem C50_pasta_hash (short : Bool) {L : ℕ} (hL : L ≠ 0) (msg : Fin L → Fp) :
    hashFp short msg = .ok (Spec.absorbBlocks (Spec.poseidon (fun x => x ^ 5) (Matrix.of mds) 4 56
      (fun i => roundConstants.getD i 0)) 0 2 (List.ofFn msg) ![0, 0, ((L * 2 ^ 64 : ℕ) : Fp)] 0) := by
  obtain ⟨rc, h1, h2⟩ := permute_ok short
  have hp : permute (hashSpec short) mds rc = specPerm := funext h2
  simp only [hashFp, h1, bind, Except.bind, hp]
  rw [C10_constant_length (by norm_num) (by norm_num), if_neg hL]
  have : (fun i : Fin 3 => if i.val = 2 then ((L * 2 ^ 64 : ℕ) : Fp) else 0) =
      ![0, 0, ((L * 2 ^ 64 : ℕ) : Fp)] := by
    funext i
    match i with
    | 0 => rfl
    | 1 => rfl
    | 2 => rfl
  rw [this]
  rfl

/-- A message of the length used in the tests: two words. -/
example (a b : Fp) : hashFp true ![a, b] = .ok (Spec.poseidon (fun x => x ^ 5) (Matrix.of mds) 4 56
    (fun i => roundConstants.getD i 0) ![a, b, ((2 * 2 ^ 64 : ℕ) : Fp)] 0) := by
  rw [C50_pasta_hash true (by norm_num)]
  generalize Spec.poseidon (fun x : Fp => x ^ 5) (Matrix.of mds) 4 56 (fun i => roundConstants.getD i 0) = π
  rw [Spec.absorbBlocks, dif_neg (by simp), Spec.absorbBlocks, dif_pos (by simp)]
  refine congrArg (fun s : State Fp 3 => (Except.ok (π s 0) : Except Panic Fp)) ?_
  funext i
  match i with
  | 0 => simp [Spec.addBlock]
  | 1 => simp [Spec.addBlock]
  | 2 => simp [Spec.addBlock]

end Props
