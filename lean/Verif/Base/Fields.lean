import Verif.Base.Permute
import Mathlib.Tactic.Ring
import Mathlib.Tactic.Linarith
import Mathlib.Data.Fin.VecNotation
import Mathlib.Algebra.BigOperators.Fin

/-!
# Model of the multi-word integer helpers

Models `poseidon-base/src/primitives/fields.rs`. A `u64` or `u128` is a natural number; `as u64` is
`% 2^64` and `>> 64` is `/ 2^64`. `u128` additions and multiplications are checked: they panic in
debug builds when the result does not fit (in a `const` context they would not compile).
-/

namespace Base.Fields

/-- `x + y` on `u128`. -/
def add128 (x y : ℕ) : Except Panic ℕ := if x + y < 2 ^ 128 then .ok (x + y) else .error .overflow

/-- `x * y` on `u128`. -/
def mul128 (x y : ℕ) : Except Panic ℕ := if x * y < 2 ^ 128 then .ok (x * y) else .error .overflow

/-- `(ret as u64, (ret >> 64) as u64)`. -/
def split (ret : ℕ) : ℕ × ℕ := (ret % 2 ^ 64, (ret / 2 ^ 64) % 2 ^ 64)

/-- `adc`, fields.rs:3-6. -/
def adc (a b carry : ℕ) : Except Panic (ℕ × ℕ) := do
  let s ← add128 a b
  let ret ← add128 s carry
  return split ret

/-- `sbb`, fields.rs:10-13; `wrapping_sub` is subtraction modulo `2^128`. -/
def sbb (a b borrow : ℕ) : Except Panic (ℕ × ℕ) := do
  let s ← add128 b (borrow >>> 63)
  return split ((a + 2 ^ 128 - s) % 2 ^ 128)

/-- `mac`, fields.rs:17-20. -/
def mac (a b c carry : ℕ) : Except Panic (ℕ × ℕ) := do
  let p ← mul128 b c
  let s ← add128 a p
  let ret ← add128 s carry
  return split ret

/-- `macx`, fields.rs:24-27. -/
def macx (a b c : ℕ) : Except Panic (ℕ × ℕ) := do
  let p ← mul128 b c
  let res ← add128 a p
  return split res

/-- `mul_512`, fields.rs:31-53. -/
def mul512 (a b : Fin 4 → ℕ) : Except Panic (Fin 8 → ℕ) := do
  let (r0, carry) ← macx 0 (a 0) (b 0)
  let (r1, carry) ← macx carry (a 0) (b 1)
  let (r2, carry) ← macx carry (a 0) (b 2)
  let (r3, carryOut) ← macx carry (a 0) (b 3)
  let (r1, carry) ← macx r1 (a 1) (b 0)
  let (r2, carry) ← mac r2 (a 1) (b 1) carry
  let (r3, carry) ← mac r3 (a 1) (b 2) carry
  let (r4, carryOut) ← mac carryOut (a 1) (b 3) carry
  let (r2, carry) ← macx r2 (a 2) (b 0)
  let (r3, carry) ← mac r3 (a 2) (b 1) carry
  let (r4, carry) ← mac r4 (a 2) (b 2) carry
  let (r5, carryOut) ← mac carryOut (a 2) (b 3) carry
  let (r3, carry) ← macx r3 (a 3) (b 0)
  let (r4, carry) ← mac r4 (a 3) (b 1) carry
  let (r5, carry) ← mac r5 (a 3) (b 2) carry
  let (r6, carryOut) ← mac carryOut (a 3) (b 3) carry
  return ![r0, r1, r2, r3, r4, r5, r6, carryOut]

end Base.Fields
