import Verif.Circuit.TableRun

/-!
# Table columns are filled once

`load` of `Verif/Circuit/Table.lean` leaves out a check that halo2 makes in `layouter.assign_table`: the
layouter keeps a list of the table columns that have been filled, and `TableLayouter::assign_cell` is an error for
a column of this list. This file has the check, and `load` and the synthesis of a circuit with it.
-/

namespace Halo2
variable {F : Type}

/-- The column is on the layouter's list of filled table columns. The layouter puts a column on the list when
it fills the rest of the column after `assign_table` (halo2 `SingleChipLayouter::assign_table`), so the list is
that of the columns of the `fill` operations of the log. -/
def Layouter.tableUsed (L : Layouter F) (col : ℕ) : Bool :=
  L.ops.any fun o => match o with
    | .fill c _ _ => c == col
    | _ => false

end Halo2

namespace Circuit
open Halo2
variable {F : Type} [Field F] [DecidableEq F]

/-- `SpongeChip::load`, hash.rs:727-904, with halo2's check of the table column in `assign_table` (hash.rs:730-746;
the loop over `0..STEP + 1` is never empty, so that `assign_cell` is always called; its error is passed on by `?`
before anything is assigned). -/
def Run.loadOnce (x : Run F) : Except Panic (Layouter F) :=
  if x.before.tableUsed x.configured.1.stepRange then .error .tableUsed else x.load

/-- One step of the synthesis of a circuit: `load` for some configuration, or other operations of the circuit,
which may move the ends of the columns. -/
inductive Step (F : Type) [Field F] where
  | load (x : Run F)
  | other (os : List (Op F)) (colEnd : RCol → ℕ)

/-- The synthesis of a circuit, step by step (`Circuit::synthesize` of the caller; `tests/hash_proving.rs` and the
`TestCircuit` of hash.rs:1033-1040 have a single step). `check` says whether halo2's check is made. -/
def synthesize (check : Bool) : List (Step F) → Layouter F → Except Panic (Layouter F)
  | [], L => .ok L
  | .load x :: ss, L => do
    let M ← if check then ({ x with before := L } : Run F).loadOnce else ({ x with before := L } : Run F).load
    synthesize check ss M
  | .other os e :: ss, L => synthesize check ss { L with ops := L.ops ++ os, colEnd := e }

end Circuit
