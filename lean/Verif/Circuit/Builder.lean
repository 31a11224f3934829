import Verif.Base.Sponge

/-!
# Model of the hash table builder

Models `PoseidonHashTable`, `/repo/poseidon-circuit/src/hash.rs` lines 229-330.
-/

set_option linter.unusedVariables false

namespace Circuit

/-- `Vec::resize(n, v)` (standard library): drop the entries from `n` on, or append copies of `v`. -/
def resize {α : Type} (l : List α) (n : ℕ) (v : α) : List α :=
  l.take n ++ List.replicate (n - l.length) v

/-- `PoseidonHashTable<F>`, hash.rs:231-240. Controls are `u64`; bounds are hypotheses where they
matter. -/
structure HashTable (F : Type) where
  inputs : List (F × F)
  controls : List ℕ
  domain : List (Option F)
  checks : List (Option F)

/-- `PoseidonHashTable::default()`, derived at hash.rs:230. -/
def HashTable.empty {F : Type} : HashTable F := ⟨[], [], [], []⟩

namespace HashTable
variable {F : Type}

/-- `constant_inputs`, hash.rs:245-248. -/
def constantInputs (t : HashTable F) (src : List (F × F)) : HashTable F :=
  {t with inputs := t.inputs ++ src}

/-- `constant_inputs_with_check`, hash.rs:252-261. -/
def constantInputsWithCheck (t : HashTable F) (src : List (F × F × F)) : HashTable F :=
  src.foldl (fun t (a, b, c) =>
      {t with
        inputs := t.inputs ++ [(a, b)]
        checks := t.checks ++ [some c]
        controls := t.controls ++ [0]})
    {t with checks := resize t.checks t.inputs.length none}

/-- `fixed_inputs`, hash.rs:264-276. -/
def fixedInputs (t : HashTable F) (src : List ((F × F) × F × Option F)) : HashTable F :=
  src.foldl (fun t (inp, domainSpec, check) =>
      {inputs := t.inputs ++ [inp]
       checks := t.checks ++ [check]
       domain := t.domain ++ [some domainSpec]
       controls := t.controls ++ [0]})
    {inputs := t.inputs
     checks := resize t.checks t.inputs.length none
     domain := resize t.domain t.inputs.length none
     controls := resize t.controls t.inputs.length 0}

/-- `std::iter::successors(first, next).take(n).collect()` (standard library): at most `n` items,
until the current item is `None`. -/
def successorsTake (next : ℕ → Option ℕ) : ℕ → Option ℕ → List ℕ
  | 0, _ => []
  | _ + 1, none => []
  | n + 1, some x => x :: successorsTake next n (next x)

/-- The closure of hash.rs:298-304. The subtraction does not underflow because of the test. -/
def nextControl (step : ℕ) (n : ℕ) : Option ℕ := if n > step then some (n - step) else none

/-- `stream_inputs_with_check`, hash.rs:289-315. The `usize` subtraction of line 312 does not
underflow: at least one row was appended. -/
def streamInputsWithCheck (t : HashTable F) (src : List (F × F)) (check : Option F)
    (ctrlStart step : ℕ) : Except Panic (HashTable F) :=
  if src.length = 0 then .error .emptyStream
  else
    let ctrlSeries := successorsTake (nextControl step) src.length (some ctrlStart)
    if src.length ≠ ctrlSeries.length then .error .streamTooLong
    else
      let inputs := t.inputs ++ src
      let controls := t.controls ++ ctrlSeries
      if inputs.length ≠ controls.length then .error .controlsMisaligned
      else .ok
        {inputs := inputs
         controls := controls
         checks := resize t.checks (inputs.length - 1) none ++ [check]
         domain := resize t.domain inputs.length none}

/-- `stream_inputs`, hash.rs:279-286. -/
def streamInputs (t : HashTable F) (src : List (F × F)) (ctrlStart step : ℕ) :
    Except Panic (HashTable F) :=
  t.streamInputsWithCheck src none ctrlStart step

/-- `table_size`, hash.rs:319-321. -/
def tableSize (t : HashTable F) : ℕ := t.inputs.length

/-- `minimum_row_require`, hash.rs:327-329; the arguments are the cargo feature `short` and the spec
of the field. -/
def minimumRowRequire [Field F] (short : Bool) (S : Base.RSpec F) (t : HashTable F) : ℕ :=
  t.inputs.length * Base.hashBlockSize short S

/-- The public calls of the builder. -/
inductive Call (F : Type) where
  | constantInputs (src : List (F × F))
  | constantInputsWithCheck (src : List (F × F × F))
  | fixedInputs (src : List ((F × F) × F × Option F))
  | streamInputs (src : List (F × F)) (ctrlStart step : ℕ)
  | streamInputsWithCheck (src : List (F × F)) (check : Option F) (ctrlStart step : ℕ)

/-- One builder call. -/
def Call.run (t : HashTable F) : Call F → Except Panic (HashTable F)
  | .constantInputs src => .ok (t.constantInputs src)
  | .constantInputsWithCheck src => .ok (t.constantInputsWithCheck src)
  | .fixedInputs src => .ok (t.fixedInputs src)
  | .streamInputs src c s => t.streamInputs src c s
  | .streamInputsWithCheck src ck c s => t.streamInputsWithCheck src ck c s

/-- A program using the builder: the calls in order, until one panics. -/
def runCalls (t : HashTable F) : List (Call F) → Except Panic (HashTable F)
  | [] => .ok t
  | c :: cs => do
    let t ← c.run t
    runCalls t cs

end HashTable
end Circuit
