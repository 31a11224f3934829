import Verif.Circuit.TableAccept
import Verif.Props.Bn254

/-!
# A concrete accepted run

Used as the non-vacuity witness of the properties of the hash table circuit.
-/

set_option linter.unusedVariables false

namespace Props
open Halo2 Circuit Circuit.Table Base.Bn256

/-- Natural numbers below `2^200` do not wrap in `Fr`. -/
theorem fr_big (m : ℕ) (h : m < 2 ^ 200) (h0 : (m : Fr) = 0) : m = 0 := by
  have := (ZMod.natCast_eq_natCast_iff' m 0 r).mp (by simpa using h0)
  rw [Nat.mod_eq_of_lt (lt_trans h (by norm_num [r])), Nat.zero_mod] at this
  exact this

/-- One MPT row with domain 7, then a stream of three rows for 150 bytes, then two empty rows, the last
of which has domain `e`. -/
def demoTable (e : Fr) : HashTable Fr :=
  ⟨[(1, 2), (3, 4), (5, 6), (7, 8)], [0, 150, 88, 26], [some 7, none, none, none, none, some e], []⟩

/-- A circuit that consists of the hash table only, with 6 calculations and the default step. -/
def demoRun (ch : Chip Fr 3) (short legacy : Bool) (mode : LoadMode) (e : Fr) : Run Fr :=
  { ch := ch
    native := permuteFr short
    legacy := legacy
    STEP := 62
    step := 62
    cs := ⟨6, 1, 0, [], [], []⟩
    qEnable := 0
    hashTable := fun i => i
    table := demoTable e
    calcs := 6
    mode := mode
    before := ⟨fun _ => 0, none, []⟩ }

theorem demo_legal (ch : Chip Fr 3) (short legacy : Bool) (mode : LoadMode) (e : Fr) :
    (demoRun ch short legacy mode e).Legal := by
  refine ⟨fun i => i.isLt, fun i j h => Fin.ext h, by simp [demoRun], ?_, ?_, ?_, ?_⟩
  · simp [demoRun]
  · simp [demoRun]
  · simp [demoRun]
  · simp [demoRun, demoTable]

theorem demo_wellFormed (e : Fr) : WellFormed 62 62 (rowAt (demoTable e)) 6 := by
  refine ⟨fun j hj hgt => ?_, fun j hj => ?_⟩
  · have : j = 0 ∨ j = 1 ∨ j = 2 ∨ j = 3 ∨ j = 4 := by omega
    rcases this with rfl | rfl | rfl | rfl | rfl <;>
      simp [ctl, rowAt, demoTable] at hgt ⊢
  · obtain rfl : j = 5 := by omega
    simp [ctl, rowAt, demoTable]

/-- For either chip, build, mode and thread count, the run is accepted, with the head flags
`1 1 0 0 1 1` and the controls `0 150 88 26 0 0` on rows 1 to 6. -/
theorem demo (k : ChipKind) (short legacy : Bool) (mode : LoadMode) (e : Fr) :
    ∃ ch L' g, bnChip k = .ok ch ∧ (demoRun ch short legacy mode e).load = .ok L' ∧
      (demoRun ch short legacy mode e).Accepted k short L' [] g ∧
      (demoRun ch short legacy mode e).Honest L' [] g ∧
      (demoRun ch short legacy mode e).EnabledAfter g 0 ∧
      (∀ j < 6, (demoRun ch short legacy mode e).col g 5 (j + 1) = [1, 1, 0, 0, 1, 1].getD j 0 ∧
        (demoRun ch short legacy mode e).col g 3 (j + 1) =
          (([0, 150, 88, 26, 0, 0].getD j 0 * Base.domainSpec legacy : ℕ) : Fr) ∧
        (demoRun ch short legacy mode e).col g 4 (j + 1) = [7, 0, 0, 0, 0, e].getD j 0) := by
  obtain ⟨ch, hch, -⟩ := bnChip_lawful k
  obtain ⟨x, hx⟩ : ∃ x, x = demoRun ch short legacy mode e := ⟨_, rfl⟩
  have hbn : x.IsBn k short := by rw [hx]; exact ⟨hch, rfl⟩
  have hlegal : x.Legal := by rw [hx]; exact demo_legal ch short legacy mode e
  obtain ⟨⟨lw, -⟩, hn⟩ := hbn.lawful
  have hcalcs : x.calcs = 6 := by rw [hx]; rfl
  have htab : x.table = demoTable e := by rw [hx]; rfl
  have hcap : Capacity x.table x.calcs x.mode := by
    rw [hcalcs, htab]
    cases x.mode with
    | serial => simp [Capacity, demoTable]
    | parallel => trivial
  have hck : AllChecks x.legacy x.STEP specPerm (rowData x.table x.calcs) := by
    rw [rowData_eq, allChecks_iff]
    intro j hj ck h
    rw [htab] at h
    simp [rowAt, demoTable] at h
  obtain ⟨L', hload⟩ := (Run.load_iff lw hlegal hn).1.mpr ⟨hcap, hck⟩
  obtain ⟨g, hg⟩ := Run.exists_honest (x := x) (L' := L') (by rw [hx]; rfl)
  obtain ⟨s, hen, hfr, hv, hiff⟩ := Run.honest_iff lw fr_big hlegal hn (Or.inl hload) hg
  have hs : s = 0 := hfr hload (by rw [hx]; exact ⟨fun _ _ => rfl, fun _ _ => rfl, fun _ _ => rfl⟩)
  have hsat : x.Satisfies L' g := by
    rw [hiff, hcalcs, htab]
    have : x.STEP = 62 ∧ x.step = 62 := by rw [hx]; exact ⟨rfl, rfl⟩
    rw [this.1, this.2]
    exact demo_wellFormed e
  subst hs
  rw [hcalcs, htab] at hv
  have hleg : x.legacy = legacy := by rw [hx]; rfl
  have hST : x.STEP = 62 := by rw [hx]; rfl
  rw [hleg, hST] at hv
  refine ⟨ch, L', g, hch, by rw [← hx]; exact hload, by rw [← hx]; exact ⟨hbn, hlegal, Or.inl hload, hg.toLaid, hsat⟩, by rw [← hx]; exact hg,
    by rw [← hx]; exact hen, fun j hj => ⟨?_, ?_, ?_⟩⟩
  · rw [← hx]
    have h := hv.head j hj
    rw [Nat.zero_add] at h
    refine Eq.trans h ?_
    have : j = 0 ∨ j = 1 ∨ j = 2 ∨ j = 3 ∨ j = 4 ∨ j = 5 := by omega
    rcases this with rfl | rfl | rfl | rfl | rfl | rfl <;>
      simp [isNew_zero, isNew_succ, ctl, rowAt, demoTable]
  · rw [← hx]
    have h := hv.ctrl j hj
    rw [Nat.zero_add] at h
    have : j = 0 ∨ j = 1 ∨ j = 2 ∨ j = 3 ∨ j = 4 ∨ j = 5 := by omega
    refine Eq.trans h ?_
    rcases this with rfl | rfl | rfl | rfl | rfl | rfl <;>
      rw [specFlag_small (by simp [ctl, rowAt, demoTable])] <;> simp [ctl, rowAt, demoTable]
  · rw [← hx]
    have h := hv.dom j hj
    rw [Nat.zero_add] at h
    have : j = 0 ∨ j = 1 ∨ j = 2 ∨ j = 3 ∨ j = 4 ∨ j = 5 := by omega
    refine Eq.trans h ?_
    rcases this with rfl | rfl | rfl | rfl | rfl | rfl <;> simp [rowAt, demoTable]

end Props
