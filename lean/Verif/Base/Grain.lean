import Verif.Base.Permute
import Mathlib.Data.ZMod.Basic

/-!
# Model of the Grain generator

Models `poseidon-base/src/primitives/grain.rs`.
-/

namespace Base

/-- `Grain`, grain.rs:46-50. `BitArr!(for 80, in u8, Msb0)` is an array of 80 bits. -/
structure Grain where
  state : Fin 80 → Bool
  nextBit : ℕ

namespace Grain

/-- The closure `set_bits`, grain.rs:56-61: `state[offset + len - 1 - i] = (value >> i) & 1 != 0` for
`i` in `0..len`. `get_mut(..).unwrap()` panics out of range. The value is a `u16`; all
lengths are at most 12, so the truncation to 16 bits made by the callers is not visible. -/
def setBits (state : Fin 80 → Bool) (offset len value : ℕ) : Except Panic (Fin 80 → Bool) :=
  (List.range len).foldlM (fun st i =>
    if h : offset + len - 1 - i < 80 then
      .ok (Function.update st ⟨offset + len - 1 - i, h⟩ ((value >>> i) &&& 1 != 0))
    else .error .index) state

/-- The six taps of `load_next_8_bits` for bit `i`, grain.rs:87-92. -/
def tap (s : Fin 80 → Bool) (i : Fin 8) : Bool :=
  s ⟨i.val + 62, by omega⟩ ^^ s ⟨i.val + 51, by omega⟩ ^^ s ⟨i.val + 38, by omega⟩ ^^
    s ⟨i.val + 23, by omega⟩ ^^ s ⟨i.val + 13, by omega⟩ ^^ s ⟨i.val, by omega⟩

/-- `load_next_8_bits`, grain.rs:84-100: pack eight new bits into a byte, rotate the state left by 8,
step `next_bit` back by 8 (a `usize` subtraction) and unpack the byte from `next_bit` on. -/
def loadNext8Bits (g : Grain) : Except Panic Grain := do
  let newBits := (List.finRange 8).foldl (fun acc i => acc ||| ((tap g.state i).toNat <<< i.val)) 0
  let rotated : Fin 80 → Bool := fun i => g.state ⟨(i.val + 8) % 80, Nat.mod_lt _ (by omega)⟩
  if g.nextBit < 8 then .error .overflow
  else
    let nextBit := g.nextBit - 8
    let st ← (List.range 8).foldlM (fun (st : Fin 80 → Bool) i =>
      if h : nextBit + i < 80 then
        .ok (Function.update st ⟨nextBit + i, h⟩ ((newBits >>> i) &&& 1 != 0))
      else .error .index) rotated
    return { state := st, nextBit := nextBit }

/-- `get_next_bit`, grain.rs:102-109. -/
def getNextBit (g : Grain) : Except Panic (Bool × Grain) := do
  let g ← if g.nextBit = 80 then loadNext8Bits g else .ok g
  if h : g.nextBit < 80 then
    return (g.state ⟨g.nextBit, h⟩, { g with nextBit := g.nextBit + 1 })
  else .error .index

/-- The loop at grain.rs:76-79: `n` times `load_next_8_bits(); next_bit = STATE`. -/
def discard : ℕ → Grain → Except Panic Grain
  | 0, g => .ok g
  | n + 1, g => do
    let g ← loadNext8Bits g
    discard n { g with nextBit := 80 }

/-- The initial LFSR state built by `Grain::new`, grain.rs:54-67. `sboxTag` is `SboxType::tag` (0 or 1),
`numBits` is `F::NUM_BITS`; the field tag is 1 (`FieldType::PrimeOrder`). -/
def initialState (sboxTag numBits t rf rp : ℕ) : Except Panic (Fin 80 → Bool) := do
  let st ← setBits (fun _ => true) 0 2 1
  let st ← setBits st 2 4 sboxTag
  let st ← setBits st 6 12 numBits
  let st ← setBits st 18 12 t
  let st ← setBits st 30 10 rf
  setBits st 40 10 rp

/-- `Grain::new`, grain.rs:53-82. -/
def new (sboxTag numBits t rf rp : ℕ) : Except Panic Grain := do
  let st ← initialState sboxTag numBits t rf rp
  discard 20 { state := st, nextBit := 80 }

/-- `Iterator::next`, grain.rs:171-179. The `while` loop is given `fuel` iterations; `C15` shows that
120 always suffice, so that running out (`diverge`) never happens. -/
def nextLoop : ℕ → Grain → Except Panic (Bool × Grain)
  | 0, _ => .error .diverge
  | fuel + 1, g => do
    let (b, g) ← getNextBit g
    if b then getNextBit g
    else
      let (_, g) ← getNextBit g
      nextLoop fuel g

/-- `Iterator::next`, grain.rs:171-179. -/
def next (g : Grain) : Except Panic (Bool × Grain) := nextLoop 120 g

/-- `self.take(n)` collected, as used in grain.rs:125 and 156. -/
def takeBits : ℕ → Grain → Except Panic (List Bool × Grain)
  | 0, g => .ok ([], g)
  | n + 1, g => do
    let (b, g) ← next g
    let (bs, g) ← takeBits n g
    return (b :: bs, g)

/-- The loop body `view[i / 8] |= if bit { 1 << (i % 8) } else { 0 }` with `i = NUM_BITS - 1 - i`,
grain.rs:125-131 and 156-162. `view` is the byte buffer; `view[i / 8]` panics out of range. -/
def writeBits (numBits : ℕ) (view : List ℕ) (bits : List Bool) : Except Panic (List ℕ) :=
  (bits.zipIdx).foldlM (fun view (bit, i) =>
    let i := numBits - 1 - i
    match view[i / 8]? with
    | none => .error .index
    | some byte => .ok (view.set (i / 8) (byte ||| (if bit then 1 <<< (i % 8) else 0)))) view

/-- Little-endian value of a byte buffer. -/
def leValue (view : List ℕ) : ℕ := view.foldr (fun byte acc => byte + 256 * acc) 0

/-- `next_field_element`, grain.rs:112-137, for the prime field of order `p` with a 32-byte
representation. `from_repr_vartime` is assumed to accept exactly the little-endian encodings of numbers
below `p`. The rejection loop has `fuel` iterations. -/
def nextFieldElement (p numBits : ℕ) : ℕ → Grain → Except Panic (ZMod p × Grain)
  | 0, _ => .error .diverge
  | fuel + 1, g => do
    let (bits, g) ← takeBits numBits g
    let bytes ← writeBits numBits (List.replicate 32 0) bits
    if leValue bytes < p then return ((leValue bytes : ZMod p), g)
    else nextFieldElement p numBits fuel g

/-- `next_field_element_without_rejection`, grain.rs:141-165. `from_uniform_bytes` is assumed to reduce
the little-endian value of the 64 bytes modulo `p`. -/
def nextFieldElementWithoutRejection (p numBits : ℕ) (g : Grain) : Except Panic (ZMod p × Grain) := do
  let (bits, g) ← takeBits numBits g
  let bytes ← writeBits numBits (List.replicate 64 0) bits
  return ((leValue bytes : ZMod p), g)

end Grain
end Base
