import Mathlib.Data.Matrix.Mul
import Mathlib.Algebra.Field.Basic
import Mathlib.Data.Fin.VecNotation

/-!
# Independent specification

Everything in this file is textbook material: it is written from the Poseidon paper
(ePrint 2019/458) and `spec/hash-table.md`, not from the Rust code, and uses none of the model's
helpers. Property theorems relate the model to these definitions.
-/

set_option linter.unusedVariables false

namespace Spec

variable {F : Type} [Field F] {T : ℕ} [NeZero T]

open Matrix

/-- One HADES full round: add constants, S-box on every word, multiply by the matrix. -/
def fullRound (sbox : F → F) (M : Matrix (Fin T) (Fin T) F) (c x : Fin T → F) : Fin T → F :=
  M *ᵥ fun i => sbox (x i + c i)

/-- One HADES partial round: add constants, S-box on word 0 only, multiply by the matrix. -/
def partialRound (sbox : F → F) (M : Matrix (Fin T) (Fin T) F) (c x : Fin T → F) : Fin T → F :=
  M *ᵥ fun i => if i = 0 then sbox (x i + c i) else x i + c i

/-- Round number `r` of a permutation with `h` full rounds, `rp` partial rounds, `h` full rounds. -/
def round (sbox : F → F) (M : Matrix (Fin T) (Fin T) F) (h rp : ℕ) (c : ℕ → Fin T → F)
    (r : ℕ) (x : Fin T → F) : Fin T → F :=
  if r < h ∨ h + rp ≤ r then fullRound sbox M (c r) x else partialRound sbox M (c r) x

/-- The Poseidon permutation: rounds `0, 1, ..., 2h + rp - 1` in order; round `r` uses the
constants `c r`. -/
def poseidon (sbox : F → F) (M : Matrix (Fin T) (Fin T) F) (h rp : ℕ) (c : ℕ → Fin T → F)
    (x : Fin T → F) : Fin T → F :=
  (List.range (2 * h + rp)).foldl (fun x r => round sbox M h rp c r x) x

/-- Rate-2 sponge over a permutation `π` of triples: message words are added two at a time to words
1 and 2, an odd tail is completed with zero, and `π` is applied after each pair. -/
def absorbPairs (π : F × F × F → F × F × F) : F × F × F → List F → F × F × F
  | s, [] => s
  | (c, x, y), [a] => π (c, x + a, y)
  | (c, x, y), a :: b :: m => absorbPairs π (π (c, x + a, y + b)) m

/-- A permutation of length-3 vectors, seen as a map of triples. -/
def onTriples (π : (Fin 3 → F) → Fin 3 → F) : F × F × F → F × F × F :=
  fun (a, b, c) => (π ![a, b, c] 0, π ![a, b, c] 1, π ![a, b, c] 2)

/-- Digest of a message under the initial capacity word `cap`: word 0 after absorbing. -/
def spongeHash (π : F × F × F → F × F × F) (cap : F) (msg : List F) : F :=
  (absorbPairs π (cap, 0, 0) msg).1

/-- Absorb table rows `(d, a, b)`: add `d` to the capacity word and `a`, `b` to the rate words, then
permute. -/
def absorbRows (π : F × F × F → F × F × F) : F × F × F → List (F × F × F) → F × F × F
  | s, [] => s
  | (c, x, y), (d, a, b) :: rows => absorbRows π (π (c + d, x + a, y + b)) rows

/-- Digest of the rows of a table block under the initial capacity word `cap`. -/
def rowsDigest (π : F × F × F → F × F × F) (cap : F) (rows : List (F × F × F)) : F :=
  (absorbRows π (cap, 0, 0) rows).1

/-- Add the words of `blk` to words `off, off+1, ...` of the state. -/
def addBlock (off : ℕ) (blk : List F) (s : Fin T → F) : Fin T → F :=
  fun i => if off ≤ i.val then s i + blk.getD (i.val - off) 0 else s i

/-- Sponge of any width and rate: message words are added `rate` at a time (missing words of the last
block count as zero) at offset `off`; the permutation is applied after each block. -/
def absorbBlocks (π : (Fin T → F) → Fin T → F) (off rate : ℕ) (m : List F) (s : Fin T → F) :
    Fin T → F :=
  if h : m = [] ∨ rate = 0 then s
  else absorbBlocks π off rate (m.drop rate) (π (addBlock off (m.take rate) s))
termination_by m.length
decreasing_by
  have : m.length ≠ 0 := by simpa using fun h' => h (Or.inl h')
  simp only [List.length_drop]; omega

end Spec

/-! ## Reference Grain generator (Poseidon paper, appendix E) -/

namespace Spec

/-- The 80-bit seed as a number, most significant field first: field type (2 bits, 1 = prime
field), S-box type (4), field size in bits (12), width (12), full rounds (10), partial rounds (10), thirty ones. -/
def grainSeed (sbox n t rf rp : ℕ) : ℕ :=
  (((((1 * 2 ^ 4 + sbox) * 2 ^ 12 + n) * 2 ^ 12 + t) * 2 ^ 10 + rf) * 2 ^ 10 + rp) * 2 ^ 30 +
    (2 ^ 30 - 1)

/-- The LFSR bit sequence `b`: bits `0..79` are the seed, most significant bit first, and
`b[i+80] = b[i+62] ^ b[i+51] ^ b[i+38] ^ b[i+23] ^ b[i+13] ^ b[i]`. -/
def lfsr (seed : ℕ) (i : ℕ) : Bool :=
  if i < 80 then seed.testBit (79 - i)
  else lfsr seed (i - 18) ^^ lfsr seed (i - 29) ^^ lfsr seed (i - 42) ^^ lfsr seed (i - 57) ^^
    lfsr seed (i - 67) ^^ lfsr seed (i - 80)
termination_by i

/-- Self-shrinking: of the `m` bit pairs from position `pos` on, keep the second bit of those whose
first bit is 1. -/
def shrink (b : ℕ → Bool) (pos m : ℕ) : List Bool :=
  (List.range m).filterMap fun k => if b (pos + 2 * k) then some (b (pos + 2 * k + 1)) else none

/-- Value of a bit string, most significant bit first. -/
def ofBitsMSB (l : List Bool) : ℕ := l.foldl (fun acc b => 2 * acc + b.toNat) 0

end Spec
