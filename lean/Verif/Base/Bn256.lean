import Verif.Base.Bn256Consts
import Verif.Base.Bn256Prime
import Verif.Base.Sponge

/-!
# Model of the BN254 instance

Models `poseidon-base/src/primitives/bn256/{mod,fp}.rs` and `poseidon-base/src/params.rs`.
-/

namespace Base

/-- `MDS_INV`, bn256/fp.rs:30-61, as a function of the matrix. `.invert().unwrap()` panics if the
determinant is zero. -/
def mdsInv {F : Type} [Field F] [DecidableEq F] (mds : Mds F 3) : Except Panic (Mds F 3) :=
  let m (i j : ℕ) : F := mds (Fin.ofNat 3 i) (Fin.ofNat 3 j)
  -- fp.rs:33-42; `reduce` multiplies from the left without a neutral element
  let detItems (idx : ℕ) : F :=
    m ((idx + 0) % 3) 0 * m ((idx + 1) % 3) 1 * m ((idx + 2) % 3) 2 -
      m ((idx + 3 - 0) % 3) 0 * m ((idx + 3 - 1) % 3) 1 * m ((idx + 3 - 2) % 3) 2
  -- fp.rs:44-49
  let d := detItems 0 + detItems 1 + detItems 2
  if d = 0 then .error .invertZero
  else
    let det := d⁻¹
    -- fp.rs:51-54
    let ci (i j : ℕ) : F :=
      m ((i + 1) % 3) ((j + 1) % 3) * m ((i + 2) % 3) ((j + 2) % 3) -
        m ((i + 1) % 3) ((j + 2) % 3) * m ((i + 2) % 3) ((j + 1) % 3)
    .ok ![![ci 0 0 * det, ci 1 0 * det, ci 2 0 * det],
          ![ci 0 1 * det, ci 1 1 * det, ci 2 1 * det],
          ![ci 0 2 * det, ci 1 2 * det, ci 2 2 * det]]

namespace Bn256

/-- Order of the BN254 scalar field (`halo2curves::bn256::Fr`). -/
abbrev r : ℕ := 21888242871839275222246405745257275088548364400416034343698204186575808495617

instance : Fact r.Prime := ⟨prime_r⟩

/-- `halo2curves::bn256::Fr`: modelled as the integers modulo `r`. -/
abbrev Fr := ZMod r

/-- `ROUND_CONSTANTS`, bn256/fp.rs:17-24. `from_str_vartime` is the cast of the decimal number. (All
indices `i * 3 + j` are below 195, so no access falls outside the table.) -/
def roundConstants : List (State Fr 3) :=
  (List.range 65).map fun i => fun j => ((roundConstantStrings.getD (i * 3 + j.val) 0 : ℕ) : Fr)

/-- `MDS`, bn256/fp.rs:25-29. -/
def mds : Mds Fr 3 := fun i j => (((mdsStrings.getD i.val []).getD j.val 0 : ℕ) : Fr)

/-- `P128Pow5T3Constants::partial_rounds` for `Fr`, bn256/mod.rs:9-11. -/
def partialRounds : ℕ := 57

/-- `CONSTANTS.0` of params.rs:21-24 (the compact table, used for `CachedConstants` and for
`CachedSpec`, whatever the cargo features). A panic of the initialiser would poison the cell. -/
def cachedRoundConstants : Except Panic (List (State Fr 3)) :=
  compactConstants 8 partialRounds mds roundConstants

/-- `HashSpec<Fr>`, hash.rs:6-30: `P128Pow5T3Compact` with feature `short`, else `P128Pow5T3`. -/
def hashSpec (short : Bool) : RSpec Fr :=
  if short then p128Pow5T3Compact partialRounds else p128Pow5T3 partialRounds

/-- `Hash::permute` of primitives.rs:473-475 for `Fr`: `permute` with the cached constants. -/
def permuteFr (short : Bool) (s : State Fr 3) : Except Panic (State Fr 3) := do
  let rc ← cachedRoundConstants
  return permute (hashSpec short) mds rc s

/-- `<Fr as Hashable>::hash_with_domain` with the constants it uses. -/
def hashWithDomainFr (short : Bool) (inp : Fin 2 → Fr) (domain : Fr) : Except Panic Fr := do
  let rc ← cachedRoundConstants
  hashWithDomain (permute (hashSpec short) mds rc) inp domain

/-- `<Fr as MessageHashable>::hash_msg` with the constants it uses. -/
def hashMsgFr (short legacy : Bool) (msg : List Fr) (cap : Option ℕ) : Except Panic Fr := do
  let rc ← cachedRoundConstants
  hashMsg legacy (permute (hashSpec short) mds rc) msg cap

end Bn256
end Base
