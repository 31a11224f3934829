import Verif.Circuit.HashCircuit
import Verif.Circuit.ValuesSim

/-!
# The hash circuit with and without witnesses

Models `HashCircuit` of `/repo/poseidon-circuit/src/poseidon/pow5.rs` lines 838-939 with its optional message and
output, and `without_witnesses`, which key generation uses.
-/

set_option linter.unusedVariables false
set_option linter.unusedSectionVars false

open Halo2

namespace Circuit.TestCircuit

variable {F : Type} [Field F] {t : ℕ}

/-- `struct HashCircuit`, pow5.rs:838-849. -/
structure HashWitness (F : Type) (n : ℕ) where
  message : Option (Fin n → F)
  output : Option F

/-- `without_witnesses`, pow5.rs:857-863. -/
def HashWitness.withoutWitnesses {n : ℕ} (_ : HashWitness F n) : HashWitness F n := ⟨none, none⟩

/-- `|| if let Some(v) = value { Value::known(v) } else { Value::unknown() }`, pow5.rs:899-905 and 927-933. -/
def toValue : Option F → Value F
  | some v => Value.known v
  | none => Value.unknown

/-- Region "load message", pow5.rs:890-912. -/
def loadValues (c : Pow5.Config F t) {n : ℕ} (m : Option (Fin n → F)) (start : ℕ) :
    Except Panic (W (Value F) (Fin n → ACell (Value F))) :=
  if h : n ≤ t + 1 then
    .ok (forFin n fun i => assignAdvice start (c.state (i.castLE h)) 0 (toValue (m.map fun vals => vals i)))
  else .error .index

/-- Region "constrain output", pow5.rs:920-937. -/
def outputValue (c : Pow5.Config F t) (out : ACell (Value F)) (y : Option F) (start : ℕ) : W (Value F) Unit := do
  let var ← assignAdvice start (c.state 0) 0 (toValue y)
  constrainEqual out.cell var.cell

/-- `HashCircuit::synthesize`, pow5.rs:883-938. -/
def synthesizeValues (S : Pow5.Params F t) (c : Pow5.Config F t) {n : ℕ} (w : HashWitness F n)
    (L : Layouter (Value F)) : Except Panic (Layouter (Value F)) := do
  let (message, L) ← L.assignRegion fun start => loadValues c w.message start
  let (out, L) ← Vals.hashCells S c L message
  let (_, L) ← L.assignRegion fun start => .ok (outputValue c out w.output start)
  return L

/-- The whole circuit: constraint system and layout. The configuration knows nothing of the witness. -/
def hashCircuitValues (S : Pow5.Params F t) {n : ℕ} (w : HashWitness F n) :
    Except Panic (CS F × Layouter (Value F)) := do
  let (c, cs, k) ← hashConfigure S
  let L ← synthesizeValues S c w (freshLayouter (some k))
  return (cs, L)

/-! ## Simulation -/

section
open Vals

/-- An optional value tracks every value, a given one the same value only. -/
theorem tracks_toValue {b : Prop} {o : Option F} {x : F} (h : o = some x ∨ (b ∧ o = none)) : Tracks b (toValue o) x := by
  rcases h with rfl | ⟨h, rfl⟩
  · exact Or.inl rfl
  · exact Or.inr ⟨h, rfl⟩

theorem tracks_synthesize {b : Prop} (S : Pow5.Params F t) (c : Pow5.Config F t) {n : ℕ} {w : HashWitness F n}
    {m : Fin n → F} {y : F} (hm : w.message = some m ∨ (b ∧ w.message = none))
    (hy : w.output = some y ∨ (b ∧ w.output = none)) {L : Layouter (Value F)} {X : Layouter F} (hL : LTracks b L X) :
    ETracks (LTracks b) (synthesizeValues S c w L) (hashSynthesize S c m y X) := by
  have : Fact (b → b) := ⟨id⟩
  unfold synthesizeValues hashSynthesize
  refine ETracks.bind (R := fun u u' => (∀ i, CellTracks b (u.1 i) (u'.1 i)) ∧ LTracks b u.2 u'.2) ?_ fun u u' hu => ?_
  · unfold loadValues loadBody
    by_cases h : n ≤ t + 1
    · simp only [dif_pos h]
      refine ltracks_region (b := b) (fun s => wtracks_forFin fun i => wtracks_advice _ _ _ (tracks_toValue ?_)) hL
      rcases hm with e | ⟨hb, e⟩ <;> rw [e]
      · exact Or.inl rfl
      · exact Or.inr ⟨hb, rfl⟩
    · simp only [dif_neg h, Layouter.assignRegion, bind, Except.bind]
      rfl
  · refine (tracks_hash S c hu.2 hu.1).bind fun v v' hv => ?_
    refine ETracks.bind (R := fun u u' => True ∧ LTracks b u.2 u'.2)
      (ltracks_region (b := b) (R := fun _ _ => True) (fun s => ?_) hv.2) fun z z' hz => by
        obtain ⟨-, h⟩ := hz
        exact h
    unfold outputValue outputBody
    refine (wtracks_advice _ _ _ (tracks_toValue hy)).bind fun a a' ha => ?_
    refine ⟨trivial, .cons ⟨hv.1.1, ha.1⟩ .nil⟩

end

end Circuit.TestCircuit
