import Verif.Base.Bn256Eval
import Verif.Base.Pasta
import Verif.Props.Bn254
import Verif.Props.Pasta

/-!
# Known answers

Tests of the transcription, not property proofs: the expected values are those of the repository's unit tests
(`poseidon-circuit/src/hash.rs` lines 942-993, `poseidon-base/src/primitives/p128pow5t3.rs` lines 246-311 with
`pasta/test_vectors.rs`, module `fp`).
-/

set_option linter.unusedVariables false

namespace Base.Pasta

/-- `M * (x, y, z)` with the literal matrix, modulo `r`. -/
def natMds (x y z : ℕ) : ℕ × ℕ × ℕ :=
  let m (i j : ℕ) : ℕ := rawNat (mdsWords.getD (i * 3 + j) [])
  ((m 0 0 * x + m 0 1 * y + m 0 2 * z) % p, (m 1 0 * x + m 1 1 * y + m 1 2 * z) % p,
    (m 2 0 * x + m 2 1 * y + m 2 2 * z) % p)

def natPow5 (x : ℕ) : ℕ := let a := x * x % p; a * a % p * x % p

/-- Run the rounds `i, i+1, ...` for which constants are left. -/
def natRounds : ℕ → List ℕ → ℕ × ℕ × ℕ → ℕ × ℕ × ℕ
  | i, a :: b :: c :: cs, (x, y, z) =>
    natRounds (i + 1) cs
      (if i < 4 ∨ 60 ≤ i then natMds (natPow5 (x + a)) (natPow5 (y + b)) (natPow5 (z + c))
       else natMds (natPow5 (x + a)) (y + b) (z + c))
  | _, _, s => s

/-- The permutation on representatives. -/
def natPerm (x y z : ℕ) : ℕ × ℕ × ℕ := natRounds 0 (roundConstantWords.map rawNat) (x, y, z)

def toState (s : ℕ × ℕ × ℕ) : State Fp 3 := ![(s.1 : Fp), (s.2.1 : Fp), (s.2.2 : Fp)]

theorem natPow5_cast (x : ℕ) : ((natPow5 x : ℕ) : Fp) = (x : Fp) ^ 5 := by
  simp only [natPow5, ZMod.natCast_mod, Nat.cast_mul]
  ring

theorem natMds_cast (x y z : ℕ) :
    toState (natMds x y z) = Matrix.mulVec (Matrix.of mds) ![(x : Fp), (y : Fp), (z : Fp)] := by
  funext i
  fin_cases i <;>
  · simp only [toState, natMds, Matrix.mulVec, dotProduct, Fin.sum_univ_three, Matrix.of_apply, mds]
    simp only [ZMod.natCast_mod]
    push_cast
    rfl

theorem natRounds_cast (M : ℕ → State Fp 3) :
    ∀ (n i : ℕ) (cs : List ℕ) (s : ℕ × ℕ × ℕ), cs.length = 3 * n →
      (∀ k j : ℕ, (hj : j < 3) → k < n → ((cs.getD (3 * k + j) 0 : ℕ) : Fp) = M (i + k) ⟨j, hj⟩) →
      toState (natRounds i cs s) =
        (List.range' i n).foldl
          (fun x r => Spec.round (fun x => x ^ 5) (Matrix.of mds) 4 56 M r x) (toState s) := by
  intro n
  induction n with
  | zero =>
    intro i cs s hlen _
    have : cs = [] := List.length_eq_zero_iff.mp (by simpa using hlen)
    subst this; simp [natRounds]
  | succ n ih =>
    intro i cs s hlen hM
    match cs, s with
    | [], _ => simp at hlen
    | [_], _ => simp at hlen; omega
    | [_, _], _ => simp at hlen; omega
    | a :: b :: c :: cs, (x, y, z) =>
      rw [natRounds, List.range'_succ, List.foldl_cons, ih (i + 1) cs _ (by simp at hlen; omega)]
      · congr 1
        have h0 : (a : Fp) = M i 0 := by simpa using hM 0 0 (by omega) (by omega)
        have h1 : (b : Fp) = M i 1 := by simpa using hM 0 1 (by omega) (by omega)
        have h2 : (c : Fp) = M i 2 := by simpa using hM 0 2 (by omega) (by omega)
        unfold Spec.round
        rw [show (4 + 56 : ℕ) = 60 from rfl]
        split
        · rw [natMds_cast]
          unfold Spec.fullRound
          congr 1
          funext k
          fin_cases k <;> simp [toState, natPow5_cast, h0, h1, h2]
        · rw [natMds_cast]
          unfold Spec.partialRound
          congr 1
          funext k
          fin_cases k <;> simp [toState, natPow5_cast, h0, h1, h2]
      · intro k j hj hk
        have := hM (k + 1) j hj (by omega)
        rw [show 3 * (k + 1) + j = (3 * k + j) + 1 + 1 + 1 by omega] at this
        simp only [List.getD_cons_succ] at this
        rw [this]
        congr 1
        omega

theorem natPerm_cast (x y z : ℕ) :
    specPerm ![(x : Fp), (y : Fp), (z : Fp)] = toState (natPerm x y z) := by
  unfold natPerm
  rw [natRounds_cast (fun i => roundConstants.getD i 0) 64 0 (roundConstantWords.map rawNat) (x, y, z) (by
    decide +kernel)]
  · simp only [specPerm, Spec.poseidon, List.range_eq_range']
    rfl
  · intro k j hj hk
    simp only [zero_add, roundConstants, List.getD_eq_getElem?_getD, List.getElem?_map,
      List.getElem?_range hk, Option.map_some, Option.getD_some, Nat.mul_comm]
    cases roundConstantWords[k * 3 + j]? <;> rfl

/-- `test_vectors::fp::permute`: initial and final states. -/
def permuteVectors : List ((ℕ × ℕ × ℕ) × (ℕ × ℕ × ℕ)) := [
    ((0x0000000000000000000000000000000000000000000000000000000000000000,
      0x0000000000000000000000000000000000000000000000000000000000000001,
      0x0000000000000000000000000000000000000000000000000000000000000002),
     (0x2a526acd0b64b45394efb364f966240ff7e69a71d0b642a0aeb1bc024aeca456,
      0x13c5d1568b4aa43076ff7dae343d5512dcd42e7fbed9dafe012a3e9628e5b82a,
      0x0a49c868c6976544256fcd597984561af7cfdfe1bda42c7b359029a1d34e9ddd)),
    ((0x082169eef62efaaf9d9364b1666e4d4c07576bac4994133ffb70fcad738f7a5c,
      0x0dcdb1cf014253b3c78849f2a39cefb0e6772b980e2e5d2aa6bde1f2b386dd1a,
      0x1435a7304e9de2a5d6368e9c7e1fe01f27c7a99b670f59f20f94b63225b869bd),
     (0x21ddae20d1d6227a036952a16129fda2cd878092770c38e77e8a9238832f6ed0,
      0x0d1451eeb8b98c361f1e4809bdf4e549c969c0d094ac79bcd6106f415fa45529,
      0x105bf9ac68bb569d795cbe4430401cc587ab82d9b76f131e2b5dd6e9bb76830d)),
    ((0x0e81632a9168694bb6bcec2f7bfac26208c05aed4828f99ebeafd655429850bc,
      0x0df89ad556370877d4f76a993d20c7e81393fdb51d55d7a8f5621d6ad566c13d,
      0x36f6b8cc63c7e4e4b097263633ab3081bf3ef0f0fd67bc10dbf67f5df445a705),
     (0x12178017a492eb518ed532086472ae41c36af9d6a9c72d050c5a140753ec770b,
      0x182e5a67f262b37b076881f127b9dedb0c280efcd4d70f8b3f460ef0443f523b,
      0x267605c1fa80df594083cfaf223ee2054c3111992a80ae641535ccff06977a95)),
    ((0x3c3d90941de0381afbd58755031ab0e9e1c2ef575a3dfade311eba7f2f225c49,
      0x11984ae34bf0dc7e531a9bf438a1c9257d8d98420ebed9907709ec1f36d30a3d,
      0x16ad0d328d94dab9a88480ad52001ba4d75e39883e0c5f8372507bd2b69dafa4),
     (0x2a55092322068b81c96e9cc3b93f77c96a84834b6fb6e75442cb827f3f088067,
      0x08509fd51f953dcee5eecadd640bfc3e2c6502e6435316d858b1402c7ea5f9a5,
      0x3b1e9288243587975268c2ad5518546e568ac67ca00f95837e477c123664a4dc)),
    ((0x11e1f1478dd376427335f2e70fc01f12c4865b34afcdbbed5b0b7d43e631544d,
      0x3ce89ce6dacbed8582001d60dcf379b63fabde3f7b376dd49c7d1c811d7a0cdd,
      0x143c39f7c8658337c92e481af27634f733db5320d283a185ec179035c0aae419),
     (0x3008c913a6b1c92b696d22dd917d9aa47045d9622bb5b8402a95a10f5e8e9989,
      0x0be5beffc70448c736ac0b9714df4e181a4dd8d38624fbef79900da9d944eed0,
      0x21de2f2b19f7b5b7c5aa4f05ac67d393a39b7e44c62a127e7c78ce61a6458104)),
    ((0x08a068f473f4b432ac976676b3f2fe293ee50f795e53798b097146eb155388e2,
      0x15655903212b2d883d154a9ab57db283f7f925aec632b6f0dee05716fc8923e6,
      0x0b9c58995d981e739c0d4acfafa78694bf33f491d999463b16e227d2c69494eb),
     (0x2accf74061d42b4f799ccec381787f1842fb87c6e835b273fdfb7f678d1f2dce,
      0x345afa832370dc47cb879f7374c5641e012a4ab8326fec435f5dd5b6399282af,
      0x0f1d5849d23033c5054140961700540cce7e61bd0291e8bfb8694c215b08d103)),
    ((0x1e4342ed2d86bcebdbd118ba8ada201a832e37203161efbda526150aaae838b7,
      0x107265f2a6a4756d43c38dfba2af01e06734d953389e37e3d35c38e330694791,
      0x11af021ae73c8612bdedff3959747e45905ebc9625e51124c0f0b9ec3222194b),
     (0x2b945791668894528afd21025bff7b128706711c4cf388e39e7b662f7dd8cc5f,
      0x34c6e5faed6a4aac01b9bf1b5827568ae8cb1c00b9f390d95263aa3080b56289,
      0x3fda724286cad08defd9488fa5dd3c4399f3b5828d3e0e31af984cf259760b7c)),
    ((0x0da940ccee7d8582c3a96db5126bb88f267f1e6fd262bfa52271b363db7a417b,
      0x3158dbe2fab727b95728db67d584d96d78b3ae61b2b021b69449b3713935295e,
      0x3001daa5b88ccbce73cf5b35f3197dd1b3ca29c1bc8d0bf5389d7842465d4105),
     (0x14ffa68b594bc65685799ec1498e45328abcfbc1eceadcacb6da646fdcade19e,
      0x331cae1fca53165f07b99324692b67389ac491db842577ccc359d64f3610cc42,
      0x0d7dd648c60eb5c3453b21666cc0eaa71362a8ff3a390b96c456148051f341ff)),
    ((0x15d75dec41535a4f2aaaf5f7b0d44ccbc62690d382dc70265770a23639f15271,
      0x0880f879cdb5cf58a1cfeed90926ceaf1b2a86218c1c645f3f73fa2add2f6f40,
      0x374b824557e79c4897cc59a95fc22436544438991eb088fbd3ba57967ddc15e2),
     (0x315c14ca987b346d1107938569dc89b3886a28376ee4b03774eb25d8d7150963,
      0x34b5fdaf7ded68b887391cf34278522970aa6e5d7af161a746b54fe9ae1b58aa,
      0x1a1fce996190351510548ef29879ab45001e65b64d429fde85ab1a39b317c17d)),
    ((0x3f798633c14a37f830bdc61862b5ceaa4f3137406065ecca73dffb9c23538c86,
      0x0650e94996707a47cebeb5875b0edfa1b1e1006c94444ada0cbc03ad80fba921,
      0x36d75733f5699a3ddd4d4bedf66d55f60a0738c7830e90c785f1642548399104),
     (0x03526076ebccb3c5359d9d6f7b925c3eb0d6db8a481f7129e0a549a419195a6a,
      0x1b67284ac0fedb8be873218404a1263a9b28db7301df2aab47615989465b4780,
      0x3a326e4236fd44f90f7dac190f7c560ffa4ffac97b5fb155f54444f5d0c8f31e)),
    ((0x39696271fc44f2f7ff92975b02e3956ac13dd6d5ec5e84db313c6401cb5c4f7d,
      0x08fa156f808478d923818206ea4024195a62689eff1af26b5c82fa96952ed626,
      0x2d2199701a9da81046a684f7ae28613ada864701db0fc3ff66b664234a7552d9),
     (0x2fd4f17e307ba59c67d60b5b420cc4a470aca2d33c3e2db46fdb6bf5bec94a1b,
      0x36eca0085aaf5ae9ba35de96b37c3cecded1db8aed86e03234a2aa9411f42e1a,
      0x202f6661559f3d023b008ee4e620c6ecb5d561772471bae1decb2c3ec780eb68))]

/-- `test_vectors::fp::hash`: two inputs and the output. -/
def hashVectors : List (ℕ × ℕ × ℕ) := [
    (0x0000000000000000000000000000000000000000000000000000000000000000,
      0x0000000000000000000000000000000000000000000000000000000000000001,
      0x062ff1c32bb0ef109d6a1bc9399a083eed83c2a7fb54cdbe389d32a011d75883),
    (0x082169eef62efaaf9d9364b1666e4d4c07576bac4994133ffb70fcad738f7a5c,
      0x0dcdb1cf014253b3c78849f2a39cefb0e6772b980e2e5d2aa6bde1f2b386dd1a,
      0x03e63b302667d2794b3992be2385a0f18e2ac0ca61ded5c430fef83eff7526db),
    (0x1435a7304e9de2a5d6368e9c7e1fe01f27c7a99b670f59f20f94b63225b869bd,
      0x0e81632a9168694bb6bcec2f7bfac26208c05aed4828f99ebeafd655429850bc,
      0x3d141ddccd07b05ee6417a8ceff63100763d189c0fac96a88dfe5c1d1e1d12f5),
    (0x0df89ad556370877d4f76a993d20c7e81393fdb51d55d7a8f5621d6ad566c13d,
      0x36f6b8cc63c7e4e4b097263633ab3081bf3ef0f0fd67bc10dbf67f5df445a705,
      0x11d4db8aaa818d3d32e6ac9033d76a18bf50fa5800905650a0365113e7a516a4),
    (0x3c3d90941de0381afbd58755031ab0e9e1c2ef575a3dfade311eba7f2f225c49,
      0x11984ae34bf0dc7e531a9bf438a1c9257d8d98420ebed9907709ec1f36d30a3d,
      0x0cd4551d2a5bc13ba10831633f3f43634110baf6498c8492a85fd0fe06f3ba1a),
    (0x16ad0d328d94dab9a88480ad52001ba4d75e39883e0c5f8372507bd2b69dafa4,
      0x11e1f1478dd376427335f2e70fc01f12c4865b34afcdbbed5b0b7d43e631544d,
      0x35dfcfd7cb87d51bd76b492c3b3be9edcd8a52c1b799a3760b793f59eb8aa104),
    (0x3ce89ce6dacbed8582001d60dcf379b63fabde3f7b376dd49c7d1c811d7a0cdd,
      0x143c39f7c8658337c92e481af27634f733db5320d283a185ec179035c0aae419,
      0x1ff6d22b04293366707e87f91fa97443d9bcc26b111483655ff3d000dccc0311),
    (0x08a068f473f4b432ac976676b3f2fe293ee50f795e53798b097146eb155388e2,
      0x15655903212b2d883d154a9ab57db283f7f925aec632b6f0dee05716fc8923e6,
      0x108d5b899cd1010cbe3504936ffd9a876d58479e7deb11acbe457c435fc6f8f8),
    (0x0b9c58995d981e739c0d4acfafa78694bf33f491d999463b16e227d2c69494eb,
      0x1e4342ed2d86bcebdbd118ba8ada201a832e37203161efbda526150aaae838b7,
      0x2738b7d0d781c8ccf1cbe987427fdf8301619ad24fb927698e2eb0219648eb5a),
    (0x107265f2a6a4756d43c38dfba2af01e06734d953389e37e3d35c38e330694791,
      0x11af021ae73c8612bdedff3959747e45905ebc9625e51124c0f0b9ec3222194b,
      0x3500f21a6c30913086f5554f1752d87e097f73c04e502a495da2f2f5204714b0),
    (0x0da940ccee7d8582c3a96db5126bb88f267f1e6fd262bfa52271b363db7a417b,
      0x3158dbe2fab727b95728db67d584d96d78b3ae61b2b021b69449b3713935295e,
      0x11ad81e5b07b649002a88bc189300462c4fe355e85d3f4db1ac0e7d642b7bebb)]

theorem permuteVectors_ok : permuteVectors.all (fun v => natPerm v.1.1 v.1.2.1 v.1.2.2 == v.2) = true := by
  decide +kernel

theorem hashVectors_ok : hashVectors.all (fun v => (natPerm v.1 v.2.1 (2 * 2 ^ 64)).1 == v.2.2) = true := by
  decide +kernel

end Base.Pasta

namespace Props
open Base

/-- Every permutation vector of the repository, in both builds. -/
example (short : Bool) : ∀ v ∈ Pasta.permuteVectors,
    Pasta.permuteFp short (Pasta.toState v.1) = .ok (Pasta.toState v.2) := by
  intro v hv
  have h := List.all_eq_true.mp Pasta.permuteVectors_ok v hv
  rw [(C50_pasta_permutation short).1]
  refine congrArg Except.ok ((Pasta.natPerm_cast _ _ _).trans ?_)
  rw [eq_of_beq h]

/-- Every hash vector of the repository, in both builds. -/
example (short : Bool) : ∀ v ∈ Pasta.hashVectors,
    Pasta.hashFp short ![(v.1 : Pasta.Fp), (v.2.1 : Pasta.Fp)] = .ok (v.2.2 : Pasta.Fp) := by
  intro v hv
  have h := List.all_eq_true.mp Pasta.hashVectors_ok v hv
  have e := congrFun (Pasta.natPerm_cast v.1 v.2.1 (2 * 2 ^ 64)) 0
  rw [C50_pasta_hash short (by norm_num)]
  change Pasta.specPerm _ 0 = (((Pasta.natPerm v.1 v.2.1 (2 * 2 ^ 64)).1 : ℕ) : Pasta.Fp) at e
  rw [eq_of_beq h] at e
  rw [← e]
  change Except.ok (Spec.absorbBlocks Pasta.specPerm _ _ _ _ _) = _
  generalize Pasta.specPerm = π
  rw [Spec.absorbBlocks, dif_neg (by simp), Spec.absorbBlocks, dif_pos (by simp)]
  refine congrArg (fun s : State Pasta.Fp 3 => (Except.ok (π s 0) : Except Panic Pasta.Fp)) ?_
  funext i
  match i with
  | 0 => simp [Spec.addBlock]
  | 1 => simp [Spec.addBlock]
  | 2 => simp [Spec.addBlock]

open Bn256

private theorem kat1 : (natPerm 0 1 2).1 =
    0x115cc0f5e7d690413df64c6b9662e9cf2a3617f2743245519e19607a4417189a := by decide +kernel
private theorem kat2 : (natPerm 256 1 2).1 =
    0x05390df727dcce2ddb8faa3acb4798ad4e95b74de05e5cc7e40496658913ae85 := by decide +kernel
private theorem kat3 : (fun s : ℕ × ℕ × ℕ => (natPerm s.1 (s.2.1 + 50331648) s.2.2).1) (natPerm 45 1 2) =
    0x212b546f9c67c4fdcba131035644aa1d8baa8943f84b0a27e8f65b5bd532213e := by decide +kernel
private theorem kat4 : (fun s : ℕ × ℕ × ℕ => (natPerm s.1 (s.2.1 + 3) s.2.2).1) (natPerm 50 1 2) =
    0x066397f309d55f6caf6419cbb4120f5ada8e54254061b4b448359de388ab5526 := by decide +kernel

/-- Unit test `poseidon_hash`. -/
example (short : Bool) :
    hashWithDomainFr short ![1, 2] 0 =
      .ok (0x115cc0f5e7d690413df64c6b9662e9cf2a3617f2743245519e19607a4417189a : ℕ) ∧
    hashWithDomainFr short ![1, 2] 256 =
      .ok (0x05390df727dcce2ddb8faa3acb4798ad4e95b74de05e5cc7e40496658913ae85 : ℕ) := by
  constructor
  · have e := congrFun (natPerm_cast 0 1 2) 0
    change specPerm _ 0 = (((natPerm 0 1 2).1 : ℕ) : Fr) at e
    rw [kat1] at e
    rw [(C04_C05_bn254 short false).1, ← e]
    simp only [Nat.cast_zero, Nat.cast_one, Nat.cast_ofNat]
    rfl
  · have e := congrFun (natPerm_cast 256 1 2) 0
    change specPerm _ 0 = (((natPerm 256 1 2).1 : ℕ) : Fr) at e
    rw [kat2] at e
    rw [(C04_C05_bn254 short false).1, ← e]
    simp only [Nat.cast_one, Nat.cast_ofNat]
    rfl

private theorem onTriples_nat (x y z : ℕ) : Spec.onTriples specPerm ((x : Fr), (y : Fr), (z : Fr)) =
    (((natPerm x y z).1 : Fr), ((natPerm x y z).2.1 : Fr), ((natPerm x y z).2.2 : Fr)) := by
  unfold Spec.onTriples
  simp only [natPerm_cast]
  rfl

/-- Unit test `poseidon_hash_bytes`. -/
example (short legacy : Bool) :
    hashMsgFr short legacy [1, 2, 50331648] (some 45) =
      .ok (0x212b546f9c67c4fdcba131035644aa1d8baa8943f84b0a27e8f65b5bd532213e : ℕ) ∧
    hashMsgFr short legacy [1, 2, 3, 0] (some 50) =
      .ok (0x066397f309d55f6caf6419cbb4120f5ada8e54254061b4b448359de388ab5526 : ℕ) := by
  constructor
  · rw [(C04_C05_bn254 short legacy).2 _ _ (by simp) (by simp), ← kat3]
    refine congrArg Except.ok ?_
    change (Spec.absorbPairs (Spec.onTriples specPerm) _ _).1 = _
    have e1 := onTriples_nat 45 1 2
    generalize natPerm 45 1 2 = s at e1 ⊢
    obtain ⟨a, b, c⟩ := s
    have e2 := onTriples_nat a (b + 50331648) c
    simp only [Spec.absorbPairs, Option.getD_some, zero_add]
    simp only [Nat.cast_one, Nat.cast_ofNat, Nat.cast_add] at e1 e2 ⊢
    rw [e1]
    simp only
    rw [e2]
  · rw [(C04_C05_bn254 short legacy).2 _ _ (by simp) (by simp), ← kat4]
    refine congrArg Except.ok ?_
    change (Spec.absorbPairs (Spec.onTriples specPerm) _ _).1 = _
    have e1 := onTriples_nat 50 1 2
    generalize natPerm 50 1 2 = s at e1 ⊢
    obtain ⟨a, b, c⟩ := s
    have e2 := onTriples_nat a (b + 3) c
    simp only [Spec.absorbPairs, Option.getD_some, zero_add]
    simp only [Nat.cast_one, Nat.cast_ofNat, Nat.cast_add] at e1 e2 ⊢
    rw [e1]
    simp only [add_zero]
    rw [e2]

end Props
