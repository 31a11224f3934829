import Verif.Base.Bn256
import Verif.Base.Bn256Strings

/-!
# Model of the initialisation of the BN254 constants

Models the `lazy_static!` initialisers `ROUND_CONSTANTS` and `MDS` of
`poseidon-base/src/primitives/bn256/fp.rs`, lines 16-29, including `PrimeField::from_str_vartime` of the crate `ff`,
which is not part of the repository (documented as: interpret a string of numbers as a congruent prime field element;
no leading zeros).
-/

namespace Base

/-- `char::to_digit(10)` of the Rust standard library. -/
def toDigit10 (c : Char) : Option ℕ :=
  if 48 ≤ c.toNat ∧ c.toNat ≤ 57 then some (c.toNat - 48) else none

/-- The loop of `ff::PrimeField::from_str_vartime`; `first` is the variable `first_digit`. -/
def fromStrLoop (F : Type) [Field F] : List Char → Bool → F → Option F
  | [], _, res => some res
  | c :: cs, first, res =>
    match toDigit10 c with
    | none => none
    | some d => if first && d == 0 then none else fromStrLoop F cs false (res * 10 + (d : F))

/-- `ff::PrimeField::from_str_vartime`, used in bn256/fp.rs:20 and 28. -/
def fromStrVartime (F : Type) [Field F] (s : String) : Option F :=
  if s.toList = [] then none
  else if s = "0" then some 0
  else fromStrLoop F s.toList true 0

/-- `.unwrap()` of the parsed string, bn256/fp.rs:20 and 28. -/
def parseField (F : Type) [Field F] (s : String) : Except Panic F :=
  match fromStrVartime F s with
  | some x => .ok x
  | none => .error .badNumber

/-- `[0, 1, 2].map(f)` with an `f` that may panic. -/
def mapThree {α : Type} (f : ℕ → Except Panic α) : Except Panic (Fin 3 → α) := do
  let x ← f 0
  let y ← f 1
  let z ← f 2
  return ![x, y, z]

/-- `Fp::from_str_vartime(v[k]).unwrap()`, bn256/fp.rs:20 and 28. -/
def parseAt (F : Type) [Field F] (v : List String) (k : ℕ) : Except Panic F :=
  match v[k]? with
  | none => .error .index
  | some s => parseField F s

/-- The initialiser of `ROUND_CONSTANTS`, bn256/fp.rs:17-24, as a function of `c_str`: the slice access, the
`unwrap` of every parsed string and the final `try_into().unwrap()` into an array of 65 rows. -/
def initRoundConstants (F : Type) [Field F] (cStr : List String) : Except Panic (List (State F 3)) := do
  let ret ← (List.range 65).mapM fun i => mapThree fun j => parseAt F cStr (i * 3 + j)
  if ret.length = 65 then return ret else throw .tryInto

/-- The initialiser of `MDS`, bn256/fp.rs:25-29, as a function of `m_str`. -/
def initMds (F : Type) [Field F] (mStr : List (List String)) : Except Panic (Mds F 3) :=
  mapThree fun i => mapThree fun j =>
    match mStr[i]? with
    | none => .error .index
    | some row => parseAt F row j

end Base
