import Verif.Circuit.Reload
import Verif.Props.TableMany

/-!
# A configuration is loaded once: C78
-/

set_option linter.unusedVariables false

namespace Props
open Halo2 Circuit Circuit.Table Base.Bn256

/-- The columns of the step range tables of the loads of a synthesis, in order. -/
def rangeCols : List (Step Fr) → List ℕ
  | [] => []
  | .load x :: ss => x.configured.1.stepRange :: rangeCols ss
  | .other _ _ :: ss => rangeCols ss

/-- The operation fills the table column. -/
def Fills (o : Op Fr) (col : ℕ) : Prop := ∃ r v, o = .fill col r v

/-- The steps are loads of the crate's circuit, and the other operations of the circuit fill no column that these
loads fill (they may fill other table columns). -/
structure Steps (ss : List (Step Fr)) : Prop where
  bn : ∀ x, Step.load x ∈ ss → ∃ k short, x.IsBn k short
  legal : ∀ x, Step.load x ∈ ss → x.Legal
  quiet : ∀ os e, Step.other os e ∈ ss → ∀ o ∈ os, ∀ c ∈ rangeCols ss, ¬ Fills o c

private theorem used_iff (L : Layouter Fr) (c : ℕ) : L.tableUsed c = true ↔ ∃ o ∈ L.ops, Fills o c := by
  unfold Layouter.tableUsed
  rw [List.any_eq_true]
  refine exists_congr fun o => and_congr_right fun _ => ?_
  cases o <;> simp [Fills]

/-- `load` fills the column of the step range and no other. -/
private theorem fills_iff {x : Run Fr} {k : ChipKind} {short : Bool} (hbn : x.IsBn k short) (hx : x.Legal)
    {L' : Layouter Fr} (hL : x.Loads L') (c : ℕ) :
    (∃ o ∈ L'.ops, Fills o c) ↔ (∃ o ∈ x.before.ops, Fills o c) ∨ c = x.configured.1.stepRange := by
  obtain ⟨⟨lw, hlw⟩, hn⟩ := hbn.lawful
  obtain ⟨s, s', ⟨-, ho⟩, -⟩ := hL.placed lw hx hn
  have hsr : x.configured.1.stepRange = x.cs.numFixed := by rw [Run.configured_eq lw]; rfl
  rw [hsr, ho]
  constructor
  · rintro ⟨o, hm, r, v, rfl⟩
    rcases List.mem_append.mp hm with hm | hm
    · exact Or.inl ⟨_, hm, r, v, rfl⟩
    · right
      rw [Run.ops, mem_loadOps] at hm
      rcases hm with hm | hm | hm | hm | hm
      · rw [mem_rangeOps] at hm
        rcases hm with ⟨i, -, e⟩ | e
        · cases e
        · injection e
      · obtain ⟨c', h, ht, -⟩ := tableOps_cols _ _ _ _ hm
        cases h
      · cases hmode : x.mode with
        | serial => simp [hmode, tailOps] at hm
        | parallel =>
          simp only [hmode, tailOps] at hm
          split at hm <;> simp at hm
      · rcases lw.shape _ _ _ _ _ _ hm with ⟨_, _, _, e, -⟩ | ⟨_, _, _, e, -⟩ | ⟨_, _, e, -⟩ | ⟨_, _, _, _, e, -⟩ <;>
          cases e
      · rw [mem_finalOps] at hm
        obtain ⟨q, hq, k, e⟩ := hm
        cases e
  · rintro (⟨o, hm, h⟩ | rfl)
    · exact ⟨o, List.mem_append_left _ hm, h⟩
    · refine ⟨.fill x.cs.numFixed (x.STEP + 1) (specFlag x.legacy 0), List.mem_append_right _ ?_, _, _, rfl⟩
      rw [Run.ops, mem_loadOps, mem_rangeOps]
      exact Or.inl (Or.inr rfl)

/-- **C78.** halo2's check of the table columns changes nothing else about a synthesis: one that goes through without
it goes through with it, and writes the same, if the loads are for different columns that have not been filled
before; otherwise it ends in the error. -/
theorem C78_check {ss : List (Step Fr)} (hs : Steps ss) {L L' : Layouter Fr} (h : synthesize false ss L = .ok L') :
    synthesize true ss L = .ok L' ∧ (rangeCols ss).Nodup ∧ (∀ c ∈ rangeCols ss, ∀ o ∈ L.ops, ¬ Fills o c) ∨
    synthesize true ss L = .error .tableUsed ∧
      ¬ ((rangeCols ss).Nodup ∧ ∀ c ∈ rangeCols ss, ∀ o ∈ L.ops, ¬ Fills o c) := by
  induction ss generalizing L with
  | nil => exact Or.inl ⟨h, by simp [rangeCols]⟩
  | cons t ss ih =>
    have hs' : Steps ss := ⟨fun x hx => hs.bn x (List.mem_cons_of_mem _ hx),
      fun x hx => hs.legal x (List.mem_cons_of_mem _ hx), fun os e hm o ho c hc =>
        hs.quiet os e (List.mem_cons_of_mem _ hm) o ho c (by cases t <;> simp [rangeCols, hc])⟩
    cases t with
    | other os e =>
      simp only [synthesize, rangeCols] at h ⊢
      have hq : (∀ c ∈ rangeCols ss, ∀ o ∈ L.ops ++ os, ¬ Fills o c) ↔ ∀ c ∈ rangeCols ss, ∀ o ∈ L.ops, ¬ Fills o c := by
        refine forall₂_congr fun c hc => ⟨fun h o ho => h o (List.mem_append_left _ ho), fun h o ho => ?_⟩
        rcases List.mem_append.mp ho with ho | ho
        · exact h o ho
        · exact hs.quiet os e List.mem_cons_self o ho c hc
      have := ih hs' h
      rwa [hq] at this
    | load x =>
      obtain ⟨y, hy⟩ : ∃ y : Run Fr, y = { x with before := L } := ⟨_, rfl⟩
      obtain ⟨k, short, hb⟩ := hs.bn x List.mem_cons_self
      have hby : y.IsBn k short := by rw [hy]; exact hb
      have hly : y.Legal := by
        obtain ⟨h1, h2, h3, h4, h5, h6, h7⟩ := hs.legal x List.mem_cons_self
        rw [hy]; exact ⟨h1, h2, h3, h4, h5, h6, h7⟩
      have hbef : y.before = L := by rw [hy]
      have hcol : x.configured.1.stepRange = y.configured.1.stepRange := by rw [hy]; rfl
      simp only [synthesize, rangeCols, ← hy, Bool.false_eq_true, if_false, if_true] at h ⊢
      rcases hl : y.load with e | M
      · rw [hl] at h; cases h
      · rw [hl] at h
        have h : synthesize false ss M = .ok L' := h
        have hf := fills_iff hby hly (Or.inl hl)
        rw [hbef] at hf
        rw [hcol]
        unfold Run.loadOnce
        rw [hbef]
        by_cases hu : L.tableUsed y.configured.1.stepRange = true
        · right
          rw [if_pos hu]
          refine ⟨rfl, fun ⟨_, hn⟩ => ?_⟩
          obtain ⟨o, ho, hf⟩ := (used_iff _ _).mp hu
          exact hn _ List.mem_cons_self o ho hf
        · rw [if_neg hu, hl]
          have hu' : ∀ o ∈ L.ops, ¬ Fills o y.configured.1.stepRange := fun o ho hf => hu ((used_iff _ _).mpr ⟨o, ho, hf⟩)
          have e : (Except.ok M >>= fun M => synthesize true ss M) = synthesize true ss M := rfl
          rw [e]
          have key : ((y.configured.1.stepRange :: rangeCols ss).Nodup ∧
              ∀ c ∈ y.configured.1.stepRange :: rangeCols ss, ∀ o ∈ L.ops, ¬ Fills o c) ↔
              ((rangeCols ss).Nodup ∧ ∀ c ∈ rangeCols ss, ∀ o ∈ M.ops, ¬ Fills o c) := by
            rw [List.nodup_cons, List.forall_mem_cons]
            constructor
            · rintro ⟨⟨h1, h2⟩, -, h3⟩
              refine ⟨h2, fun c hc o ho hfc => ?_⟩
              rcases (hf c).mp ⟨o, ho, hfc⟩ with ⟨o', ho', h'⟩ | rfl
              · exact h3 c hc o' ho' h'
              · exact h1 hc
            · rintro ⟨h1, h2⟩
              refine ⟨⟨fun hc => ?_, h1⟩, hu', fun c hc o ho hfc => ?_⟩
              · obtain ⟨o, ho, hfo⟩ := (hf y.configured.1.stepRange).mpr (Or.inr rfl)
                exact h2 _ hc o ho hfo
              · obtain ⟨o', ho', h'⟩ := (hf c).mpr (Or.inl ⟨o, ho, hfc⟩)
                exact h2 c hc o' ho' h'
          rw [key]
          exact ih hs' h

/-- **C78**, the same configuration twice: after a `load`, every further `load` with this configuration is an error,
whatever the table, its capacity, the chip's `STEP` and the mode are, and whatever has happened in between. -/
theorem C78_twice {x : Run Fr} {k : ChipKind} {short : Bool} (hbn : x.IsBn k short) (hx : x.Legal)
    {M : Layouter Fr} (hM : x.load = .ok M) (STEP : ℕ) (t : HashTable Fr) (calcs : ℕ) (mode : LoadMode)
    (L : Layouter Fr) (hL : M.ops ⊆ L.ops) :
    ({ x with STEP := STEP, table := t, calcs := calcs, mode := mode, before := L } : Run Fr).loadOnce =
      .error .tableUsed := by
  obtain ⟨o, ho, hf⟩ := (fills_iff hbn hx (Or.inl hM) x.configured.1.stepRange).mpr (Or.inr rfl)
  unfold Run.loadOnce
  exact if_pos ((used_iff _ _).mpr ⟨o, hL ho, hf⟩)

/-- The column of the step range is one that `configure_sub` allocates. -/
private theorem stepRange_eq {x : Run Fr} {k : ChipKind} {short : Bool} (hbn : x.IsBn k short) :
    x.configured.1.stepRange = x.cs.numFixed := by
  obtain ⟨⟨lw, hlw⟩, hn⟩ := hbn.lawful
  rw [Run.configured_eq lw]; rfl

/-- **C78**, different configurations: the tables of one circuit, configured by any number of calls of `configure_sub`,
each loaded at most once, in any order and with anything in between, never meet the error. -/
theorem C78_each {cs₀ cs : CS Fr} {xs : List (Run Fr)} (hc : Configures cs₀ xs cs)
    (hbn : ∀ x ∈ xs, ∃ k short, x.IsBn k short) {ss : List (Step Fr)} (hs : Steps ss)
    (hsub : ∃ ys : List (Run Fr), ys.Subperm xs ∧ rangeCols ss = ys.map fun y => y.configured.1.stepRange)
    {L L' : Layouter Fr} (hL : ∀ c ∈ rangeCols ss, ∀ o ∈ L.ops, ¬ Fills o c) (h : synthesize false ss L = .ok L') :
    synthesize true ss L = .ok L' := by
  rcases C78_check hs h with h | ⟨-, h⟩
  · exact h.1
  · refine absurd ⟨?_, hL⟩ h
    obtain ⟨ys, hys, e⟩ := hsub
    have hn : (xs.map fun y => y.configured.1.stepRange).Pairwise (· < ·) := by
      clear hys hs h e hL
      induction hc with
      | other h => exact List.Pairwise.nil
      | @table a b x xs hg rest ih =>
        rw [List.map_cons, List.pairwise_cons]
        refine ⟨fun c hc => ?_, ih fun y hy => hbn y (List.mem_cons_of_mem _ hy)⟩
        obtain ⟨y, hy, rfl⟩ := List.mem_map.mp hc
        obtain ⟨k, short, hb⟩ := hbn x List.mem_cons_self
        obtain ⟨k', short', hb'⟩ := hbn y (List.mem_cons_of_mem _ hy)
        have h1 := ((configures_grows rest fun y hy => hbn y (List.mem_cons_of_mem _ hy)).2 y hy).1.fixed
        rw [stepRange_eq hb, stepRange_eq hb']
        obtain ⟨⟨lw, hlw⟩, hn⟩ := hb.lawful
        rw [Run.configured_eq lw] at h1
        simp only at h1
        omega
    rw [e]
    obtain ⟨l, hl, hl'⟩ := hys
    exact (hl.map _).nodup_iff.mp ((hl'.map _).nodup (hn.imp fun h => Nat.ne_of_lt h))

/-- The loads of the demonstration table go through, whatever came before. -/
private theorem demo_loads {x : Run Fr} {k : ChipKind} {short : Bool} (hb : x.IsBn k short) (hl : x.Legal)
    (h6 : x.calcs = 6) (ht : ∃ e, x.table = demoTable e) : ∃ L, x.load = .ok L := by
  obtain ⟨e, he⟩ := ht
  refine (C41_checks hb hl).1.mpr ⟨fun _ => ?_, ?_⟩
  · rw [he, h6]; simp [demoTable]
  · rw [he]; intro a m _ _ ck h; simp [rowCk, demoTable] at h

-- two tables: without the check, both the synthesis that loads each of the two configurations and the one that
-- loads the first configuration twice go through; with the check, the second is an error
example (k₁ k₂ : ChipKind) (short legacy : Bool) (m₁ m₂ : LoadMode) : ∃ (x₁ x₂ : Run Fr) (L M₁ M₂ : Layouter Fr),
    x₁.IsBn k₁ short ∧ x₂.IsBn k₂ short ∧ Configures x₁.cs [x₁, x₂] x₂.configured.2 ∧
    synthesize false [.load x₂, .load x₁] L = .ok M₁ ∧ synthesize true [.load x₂, .load x₁] L = .ok M₁ ∧
    synthesize false [.load x₁, .other [] (fun _ => 0), .load x₁] L = .ok M₂ ∧
    synthesize true [.load x₁, .other [] (fun _ => 0), .load x₁] L = .error .tableUsed := by
  obtain ⟨c₁, hc₁, -⟩ := bnChip_lawful k₁
  obtain ⟨c₂, hc₂, -⟩ := bnChip_lawful k₂
  obtain ⟨x₁, hx₁⟩ : ∃ y, y = demoRun c₁ short legacy m₁ 0 := ⟨_, rfl⟩
  obtain ⟨z, hz⟩ : ∃ z, z = x₁.configured.2 := ⟨_, rfl⟩
  obtain ⟨x₂, hx₂⟩ : ∃ x, x = { demoRun c₂ short legacy m₂ 5 with
    cs := { z with numAdvice := z.numAdvice + 6, numFixed := z.numFixed + 1 },
    qEnable := z.numFixed, hashTable := fun i => z.numAdvice + i } := ⟨_, rfl⟩
  have hbn₁ : x₁.IsBn k₁ short := by rw [hx₁]; exact ⟨hc₁, rfl⟩
  have hbn₂ : x₂.IsBn k₂ short := by rw [hx₂]; exact ⟨hc₂, rfl⟩
  have hl₁ : x₁.Legal := by rw [hx₁]; exact demo_legal c₁ short legacy m₁ 0
  have hl₂ : x₂.Legal := by
    obtain ⟨-, -, -, h4, h5, h6, h7⟩ := demo_legal c₂ short legacy m₂ 5
    rw [hx₂]
    exact ⟨fun i => by have := i.isLt; simp only; omega, fun i j h => Fin.ext (by simpa using h), by simp only; omega,
      h4, h5, h6, h7⟩
  have ld₁ : ∀ L, ∃ M, ({ x₁ with before := L } : Run Fr).load = .ok M := fun L => by
    obtain ⟨h1, h2, h3, h4, h5, h6, h7⟩ := hl₁
    exact demo_loads (x := { x₁ with before := L }) hbn₁ ⟨h1, h2, h3, h4, h5, h6, h7⟩ (by rw [hx₁]; rfl)
      ⟨0, by rw [hx₁]; rfl⟩
  have ld₂ : ∀ L, ∃ M, ({ x₂ with before := L } : Run Fr).load = .ok M := fun L => by
    obtain ⟨h1, h2, h3, h4, h5, h6, h7⟩ := hl₂
    exact demo_loads (x := { x₂ with before := L }) hbn₂ ⟨h1, h2, h3, h4, h5, h6, h7⟩ (by rw [hx₂]; rfl)
      ⟨5, by rw [hx₂]; rfl⟩
  have hconf : Configures x₁.cs [x₁, x₂] x₂.configured.2 := by
    refine Configures.table ⟨le_refl _, le_refl _, le_refl _, List.prefix_rfl, List.prefix_rfl⟩
      (Configures.table ?_ (Configures.other ⟨le_refl _, le_refl _, le_refl _, List.prefix_rfl, List.prefix_rfl⟩))
    rw [← hz, hx₂]
    exact ⟨by simp, by simp, by simp, List.prefix_rfl, List.prefix_rfl⟩
  obtain ⟨L, hL⟩ : ∃ L : Layouter Fr, L.ops = [] := ⟨x₁.before, by rw [hx₁]; rfl⟩
  have hmem : ∀ x ∈ [x₁, x₂], ∃ k short, x.IsBn k short := by
    intro x hx
    rcases List.mem_cons.mp hx with rfl | hx
    · exact ⟨k₁, short, hbn₁⟩
    · rw [List.mem_singleton.mp hx]; exact ⟨k₂, short, hbn₂⟩
  obtain ⟨A, hA⟩ := ld₂ L
  obtain ⟨M₁, hM₁⟩ := ld₁ A
  obtain ⟨B, hB⟩ := ld₁ L
  obtain ⟨M₂, hM₂⟩ := ld₁ { B with ops := B.ops ++ [], colEnd := fun _ => 0 }
  have s₁ : Steps [.load x₂, .load x₁] := by
    refine ⟨fun x hx => ?_, fun x hx => ?_, fun os e h => by simp at h⟩ <;>
      rcases List.mem_cons.mp hx with e | hx
    · injection e with e; exact ⟨k₂, short, e ▸ hbn₂⟩
    · injection List.mem_singleton.mp hx with e; exact ⟨k₁, short, e ▸ hbn₁⟩
    · injection e with e; exact e ▸ hl₂
    · injection List.mem_singleton.mp hx with e; exact e ▸ hl₁
  have s₂ : Steps [.load x₁, .other [] (fun _ => 0), .load x₁] := by
    refine ⟨fun x hx => ?_, fun x hx => ?_, fun os e h o ho => ?_⟩
    · have : x = x₁ := by simpa using hx
      exact ⟨k₁, short, this ▸ hbn₁⟩
    · have : x = x₁ := by simpa using hx
      exact this ▸ hl₁
    · have : os = [] := by simp at h; exact h.1
      rw [this] at ho; simp at ho
  have f₁ : synthesize false [.load x₂, .load x₁] L = .ok M₁ := by
    simp only [synthesize, hA, hM₁, bind, Except.bind, Bool.false_eq_true, if_false]
  have f₂ : synthesize false [.load x₁, .other [] (fun _ => 0), .load x₁] L = .ok M₂ := by
    simp only [synthesize, hB, hM₂, bind, Except.bind, Bool.false_eq_true, if_false]
  refine ⟨x₁, x₂, L, M₁, M₂, hbn₁, hbn₂, hconf, f₁, ?_, f₂, ?_⟩
  · refine C78_each hconf hmem s₁ ⟨[x₂, x₁], (List.Perm.swap _ _ _).subperm, rfl⟩ (by simp [hL]) f₁
  · rcases C78_check s₂ f₂ with ⟨-, h, -⟩ | ⟨h, -⟩
    · simp [rangeCols] at h
    · exact h

end Props
