import Verif.Circuit.TableRun
import Verif.Circuit.ChipBn

/-!
# What `load` reads from outside

Models the choice between serial and parallel assignment in `/repo/poseidon-circuit/src/hash.rs`, lines 746-763, and the
two places that ask for the number of processors, lines 806-808 and
`/repo/poseidon-circuit/src/poseidon/septidon/instruction.rs`, lines 92-94.
-/

namespace Circuit
open Halo2 Base.Bn256

/-- The build and the machine: the feature `parallel_syn`, the value of the environment variable
`CIRCUIT_ASSIGNMENT_TYPE` (none if it is not set, or is not Unicode: `std::env::var(..).ok()`), and what
`std::thread::available_parallelism()` returns when the table and when the permutations are assigned (none: an error; the
number is never zero, but this is not needed). -/
structure Env where
  parallelSyn : Bool
  assignmentType : Option String
  tableThreads : Option ℕ
  permuteThreads : Option ℕ

namespace Env
variable (e : Env)

/-- hash.rs:746-763. -/
def isParallel : Bool :=
  if e.parallelSyn then
    match e.assignmentType.getD "" with
    | "serial" => false
    | "parallel" => true
    | _ => true
  else false

/-- hash.rs:806-808. -/
def tableChunks : ℕ := e.tableThreads.getD 32

/-- instruction.rs:92-94. -/
def permuteChunks : ℕ := e.permuteThreads.getD 32

/-- The mode of `load` in this environment. -/
def mode : LoadMode := if e.isParallel then .parallel e.tableChunks else .serial

end Env

section
variable {F : Type} [Field F] [DecidableEq F]

/-- `SpongeChip::load`, hash.rs:727-904, reading its environment. -/
def loadIn (legacy : Bool) (STEP : ℕ) (native : (Fin 3 → F) → Except Panic (Fin 3 → F)) (e : Env) (ch : Chip F 3)
    (cfg : SpongeConfig ch.Config) (t : HashTable F) (calcs : ℕ) (L : Layouter F) : Except Panic (Layouter F) := do
  let L := L.assignTable cfg.stepRange (rangeEntries legacy STEP)
  if e.isParallel = false then
    let (pairs, L) ← assignSerial legacy STEP native cfg t calcs L
    let (finals, L) ← mapPermute (ch.permute cfg.permuteConfig) L (pairs.map Prod.fst)
    let (_, L) ← L.assignRegion fun _ => .ok (constrainFinal (pairs.map Prod.snd) finals)
    return L
  else
    let (pairs, L) ← assignParallel legacy STEP native cfg t calcs e.tableChunks L
    let (finals, L) ← ch.permuteBatch cfg.permuteConfig e.permuteChunks L (pairs.map Prod.fst)
    let (_, L) ← L.assignRegion fun _ => .ok (constrainFinal (pairs.map Prod.snd) finals)
    return L

/-- `load` of a run in an environment (which decides on the mode). -/
def Run.loadIn (x : Run F) (e : Env) : Except Panic (Layouter F) :=
  Circuit.loadIn x.legacy x.STEP x.native e x.ch x.configured.1 x.table x.calcs x.before

end

theorem septidon_threads {F : Type} [Field F] (m : Base.Mds F 3) (rc : ℕ → Fin 3 → F) (hc : Septidon.Compact rc) (a f : ℕ)
    (th th' : ℕ) (L : Layouter F) (ws : List (Fin 3 → ACell F)) :
    Septidon.permuteBatch m rc (Septidon.config a f) th L ws = Septidon.permuteBatch m rc (Septidon.config a f) th' L ws := by
  obtain ⟨L₁, h1, o1, c1, e1, f1⟩ := Septidon.batch_ok a f m rc hc ws th L _ rfl
  obtain ⟨L₂, h2, o2, c2, e2, f2⟩ := Septidon.batch_ok a f m rc hc ws th' L _ rfl
  have : L₁ = L₂ := by
    obtain ⟨ce1, cc1, op1⟩ := L₁
    obtain ⟨ce2, cc2, op2⟩ := L₂
    have : ce1 = ce2 := by
      funext c
      by_cases h : c = .advice (a + 12)
      · subst h
        exact f1.trans f2.symm
      · exact (e1 c h).trans (e2 c h).symm
    dsimp only at *
    rw [this, o1, o2, c1, c2]
  rw [h1, h2, this]

/-- The chips of bn256 do not depend on the number of threads for the permutations. -/
theorem batch_threads {k : ChipKind} {ch : Chip Fr 3} (hch : bnChip k = .ok ch) (cs : CS Fr) (th th' : ℕ) (L : Layouter Fr)
    (ws : List (Words Fr 3)) :
    ch.permuteBatch (ch.configure cs).1 th L ws = ch.permuteBatch (ch.configure cs).1 th' L ws := by
  cases k with
  | pow5 b =>
    have : ∃ S : Pow5.Params Fr 2, ch = Pow5.chip S := by
      cases b <;> simp only [bnChip] at hch <;> split at hch <;> cases hch <;> exact ⟨_, rfl⟩
    obtain ⟨S, rfl⟩ := this
    rfl
  | septidon =>
    obtain ⟨rc, h1, -, h3, -⟩ := Septidon.bn_table
    simp only [bnChip, h1] at hch
    cases hch
    have hcf : ((Septidon.chip mds (Septidon.table rc)).configure cs).1 = Septidon.config cs.numAdvice cs.numFixed := by
      rw [show (Septidon.chip mds (Septidon.table rc)).configure cs = _ from Septidon.configure_eq mds (Septidon.table rc) cs]
    have key := septidon_threads mds (Septidon.table rc) h3 cs.numAdvice cs.numFixed th th' L ws
    rw [← hcf] at key
    exact key

/-- Loading in an environment is loading in its mode. -/
theorem Run.loadIn_eq {x : Run Fr} {k : ChipKind} (hch : bnChip k = .ok x.ch) (e : Env) :
    x.loadIn e = ({x with mode := e.mode} : Run Fr).load := by
  have hcfg : ∃ cs, x.configured.1.permuteConfig = (x.ch.configure cs).1 := ⟨_, rfl⟩
  obtain ⟨cs, hcs⟩ := hcfg
  unfold Run.loadIn Run.load
  change Circuit.loadIn x.legacy x.STEP x.native e x.ch x.configured.1 x.table x.calcs x.before =
    Circuit.load x.legacy x.STEP x.native x.ch x.configured.1 x.table x.calcs e.mode x.before
  unfold Circuit.loadIn Circuit.load Env.mode
  cases h : e.isParallel with
  | false => rfl
  | true =>
    simp only [Bool.true_eq_false, if_false, if_true]
    rw [hcs]
    simp only [batch_threads hch cs e.permuteChunks e.tableChunks]

end Circuit
