import Verif.Base.PastaConsts
import Verif.Base.PastaPrime
import Verif.Base.Sponge
import Verif.Base.Bn256Lemmas

/-!
# Model of the Pallas instance

Models `poseidon-base/src/primitives/pasta/{mod,fp}.rs` (compiled for tests and with feature `test`).
-/

namespace Base.Pasta

/-- Order of the Pallas base field (`halo2curves::pasta::Fp`). -/
abbrev p : ℕ := 28948022309329048855892746252171976963363056481941560715954676764349967630337

instance : Fact p.Prime := ⟨prime_p⟩

/-- `halo2curves::pasta::Fp`: modelled as the integers modulo `p`. -/
abbrev Fp := ZMod p

/-- The number given by little-endian 64-bit words; `Fp::from_raw` is its residue. -/
def rawNat (w : List ℕ) : ℕ := w.foldr (fun x acc => x + 2 ^ 64 * acc) 0

/-- `fp::ROUND_CONSTANTS`, pasta/fp.rs:13-1304, and `P128Pow5T3Constants::round_constants`, mod.rs:14-16. -/
def roundConstants : List (State Fp 3) :=
  (List.range 64).map fun i => fun j => ((rawNat (roundConstantWords.getD (i * 3 + j.val) []) : ℕ) : Fp)

/-- `fp::MDS`, pasta/fp.rs:1307-1367. -/
def mds : Mds Fp 3 := fun i j => ((rawNat (mdsWords.getD (i.val * 3 + j.val) []) : ℕ) : Fp)

/-- `fp::MDS_INV`, pasta/fp.rs:1370-1430. -/
def mdsInv : Mds Fp 3 := fun i j => ((rawNat (mdsInvWords.getD (i.val * 3 + j.val) []) : ℕ) : Fp)

/-- The default `P128Pow5T3Constants::partial_rounds`, p128pow5t3.rs:9-11. -/
def partialRounds : ℕ := 56

/-- `HashSpec<Fp>`, hash.rs:6-30. -/
def hashSpec (short : Bool) : RSpec Fp :=
  if short then p128Pow5T3Compact partialRounds else p128Pow5T3 partialRounds

/-- `CachedSpec::cached_round_constants` for `HashSpec<Fp>`, pasta/mod.rs:26-35: the raw table, or with feature
`short` the compact one. -/
def cachedRoundConstants (short : Bool) : Except Panic (List (State Fp 3)) :=
  if short then compactConstants 8 partialRounds mds roundConstants else .ok roundConstants

/-- `permute` with the cached constants, as `Hash` does (primitives.rs:473-475). -/
def permuteFp (short : Bool) (s : State Fp 3) : Except Panic (State Fp 3) := do
  let rc ← cachedRoundConstants short
  return permute (hashSpec short) mds rc s

/-- `Hash::<_, HashSpec<Fp>, ConstantLength<L>, 3, 2>::init().hash(message)`, as in the tests of
p128pow5t3.rs:286-311. -/
def hashFp {L : ℕ} (short : Bool) (message : Fin L → Fp) : Except Panic Fp := do
  let rc ← cachedRoundConstants short
  Hash.hashConst (permute (hashSpec short) mds rc) (Hash.init (T := 3) (RATE := 2) (.constantLength L)) message

/-! ### Lemmas -/

theorem roundConstants_length : roundConstants.length = 64 := by simp [roundConstants]

/-- Textbook Poseidon with the raw constants. -/
noncomputable def specPerm : State Fp 3 → State Fp 3 :=
  Spec.poseidon (fun x => x ^ 5) (Matrix.of mds) 4 56 (fun i => roundConstants.getD i 0)

theorem mds_mul_mdsInv : Matrix.of mds * Matrix.of mdsInv = 1 := by
  have key : ∀ i j : Fin 3, (rawNat (mdsWords.getD (i.val * 3) []) * rawNat (mdsInvWords.getD j.val []) +
      rawNat (mdsWords.getD (i.val * 3 + 1) []) * rawNat (mdsInvWords.getD (3 + j.val) []) +
      rawNat (mdsWords.getD (i.val * 3 + 2) []) * rawNat (mdsInvWords.getD (6 + j.val) [])) % p =
      if i = j then 1 else 0 := by
    decide +kernel
  ext i j
  have h := congrArg (fun n : ℕ => (n : Fp)) (key i j)
  simp only [ZMod.natCast_mod, Nat.cast_add, Nat.cast_mul] at h
  rw [Matrix.mul_apply, Fin.sum_univ_three, Matrix.one_apply]
  simp only [Matrix.of_apply, mds, mdsInv]
  refine Eq.trans ?_ (h.trans ?_)
  · simp
  · split <;> simp

theorem sbox_bijective : Function.Bijective (fun x : Fp => x ^ 5) :=
  pow_bijective p 5 ((1 + 4 * (p - 1)) / 5) 4 (by decide +kernel)

theorem permute_ok (short : Bool) : ∃ rc, cachedRoundConstants short = .ok rc ∧
    ∀ s, permute (hashSpec short) mds rc s = specPerm s := by
  cases short with
  | false =>
    refine ⟨roundConstants, rfl, fun s => ?_⟩
    have := permute_eq_spec (p128Pow5T3 56 : RSpec Fp) mds roundConstants s
      (by simp [p128Pow5T3, roundConstants_length])
    exact this
  | true =>
    obtain ⟨rc, h1, -, h3, -⟩ :=
      compactConstants_spec (p128Pow5T3 56 : RSpec Fp) mds roundConstants (by simp [p128Pow5T3])
        (by simp [p128Pow5T3, roundConstants_length])
    refine ⟨rc, h1, fun s => ?_⟩
    refine (permute_congr_sbox 8 56 _ _ sboxCompact_eq mds rc s).trans ((h3 s).trans ?_)
    have := permute_eq_spec (p128Pow5T3 56 : RSpec Fp) mds roundConstants s
      (by simp [p128Pow5T3, roundConstants_length])
    exact this

end Base.Pasta
