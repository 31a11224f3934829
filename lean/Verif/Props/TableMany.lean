import Verif.Props.TableLoad
import Verif.Props.TableMisc

/-!
# Several hash tables in one circuit: C67

The other properties look at one use of `configure_sub` and `load` inside a larger circuit that leaves the
columns of the hash table alone. Here the larger circuit is any that contains any number of hash tables, and
it is shown that they leave each other alone.
-/

set_option linter.unusedVariables false

namespace Props
open Halo2 Circuit Circuit.Table Base.Bn256

/-- The columns of a run: those of the caller and those that `configure_sub` allocates. -/
def Own (x : Run Fr) : RCol → Prop
  | .advice c => x.AdviceCol c
  | .fixed c => x.FixedCol c
  | .selector c => x.Sel c

/-- `b` has everything that `a` has. -/
structure Grows (a b : CS Fr) : Prop where
  advice : a.numAdvice ≤ b.numAdvice
  fixed : a.numFixed ≤ b.numFixed
  selectors : a.numSelectors ≤ b.numSelectors
  gates : a.gates <+: b.gates
  lookups : a.lookups <+: b.lookups

/-- The configuration of a circuit from `a` to `b` calls `configure_sub` for each of the runs, in this order, and
does other things in between. -/
inductive Configures : CS Fr → List (Run Fr) → CS Fr → Prop
  | other {a b : CS Fr} (h : Grows a b) : Configures a [] b
  | table {a b : CS Fr} {x : Run Fr} {xs : List (Run Fr)} (h : Grows a x.cs) (rest : Configures x.configured.2 xs b) :
      Configures a (x :: xs) b

/-- The synthesis of a circuit from `L` to `L'` calls `load` for each of the runs, in this order, and in between
writes to columns outside `K` and copies. -/
inductive Synthesizes (K : RCol → Prop) : Layouter Fr → List (Run Fr × Layouter Fr) → Layouter Fr → Prop
  | done (L : Layouter Fr) : Synthesizes K L [] L
  | other {L M L' : Layouter Fr} {ys : List (Run Fr × Layouter Fr)} (os : List (Op Fr)) (hM : M.ops = L.ops ++ os)
      (hos : ∀ o ∈ os, ∀ c r, o.Hits c r → ¬ K c) (rest : Synthesizes K M ys L') : Synthesizes K L ys L'
  | table {L M L' : Layouter Fr} {x : Run Fr} {ys : List (Run Fr × Layouter Fr)} (hx : x.before = L)
      (hM : x.Loads M) (rest : Synthesizes K M ys L') : Synthesizes K L ((x, M) :: ys) L'

/-- The caller's columns for two tables are different, and those for the second are not among the columns that
the first allocated for itself. -/
structure CallersApart (x y : Run Fr) : Prop where
  tables : ∀ i j, x.hashTable i ≠ y.hashTable j
  enables : x.qEnable ≠ y.qEnable
  table_inner : ∀ i, ¬ (x.cs.numAdvice ≤ y.hashTable i ∧ y.hashTable i < x.configured.2.numAdvice)
  enable_inner : ¬ (x.cs.numFixed ≤ y.qEnable ∧ y.qEnable < x.configured.2.numFixed)

/-- The grid carries the fixed columns and selectors of the whole synthesis. (Table columns are filled up on the usable
rows only.) -/
structure CarriesLog (ops : List (Op Fr)) (g : Grid Fr) : Prop where
  usable_le : g.usable ≤ g.n
  fits : Fits ops g.usable
  fixed : ∀ c, ∀ r < g.n, (∀ r' v, Op.fill c r' v ∈ ops → r < g.usable) → g.fixed c r = finalFixed ops c r
  selector : ∀ c, ∀ r < g.n, g.selector c r = finalSelector ops c r

/-! ### Columns -/

/-- `load` writes to the columns of the run only. -/
theorem newOps_own {x : Run Fr} {k : ChipKind} {short : Bool} (hbn : x.IsBn k short) (hx : x.Legal)
    {L' : Layouter Fr} (hL : x.Loads L') : L'.ops = x.before.ops ++ x.newOps L' ∧
      ∀ o ∈ x.newOps L', ∀ c r, o.Hits c r → Own x c := by
  obtain ⟨⟨lw, hlw⟩, hn⟩ := hbn.lawful
  obtain ⟨s, s', ⟨-, ho⟩, -⟩ := hL.placed lw hx hn
  refine ⟨by rw [Run.newOps_eq lw ho]; exact ho, fun o hm c r hh => ?_⟩
  rw [Run.newOps_eq lw ho, Run.ops, mem_loadOps] at hm
  rcases hm with hm | hm | hm | hm | hm
  · rw [mem_rangeOps] at hm
    rcases hm with ⟨i, -, rfl⟩ | rfl
    · obtain ⟨rfl, rfl⟩ := hh
      exact (Run.fixedCol_iff lw _).mpr (by omega)
    · obtain ⟨rfl, -⟩ := hh
      exact (Run.fixedCol_iff lw _).mpr (by omega)
  · obtain ⟨c', h, ht, -⟩ := tableOps_cols _ _ _ _ hm
    have : c = c' := by
      cases o <;> simp only [Op.Hits, Op.rcol, Option.some.injEq] at hh h
      all_goals first
        | exact hh.1.trans h
        | cases h
    subst this
    cases c with
    | advice c =>
      refine (Run.adviceCol_iff lw _).mpr ?_
      rcases ht with ⟨i, rfl⟩ | ⟨i, rfl⟩ | rfl | rfl
      · exact Or.inl ⟨i, rfl⟩
      · right; have := i.isLt; simp only [conf]; omega
      · right; simp only [conf]; omega
      · right; simp only [conf]; omega
    | fixed c =>
      refine (Run.fixedCol_iff lw _).mpr ?_
      simp only [TableCol, conf] at ht
      exact Or.inl ht
    | selector c =>
      refine (Run.sel_iff lw _).mpr ?_
      simp only [TableCol, conf] at ht
      omega
  · have : ∃ r', o = .selector x.cs.numSelectors r' := by
      cases hmode : x.mode with
      | serial => simp [hmode, tailOps] at hm; exact ⟨_, hm⟩
      | parallel =>
        simp only [hmode, tailOps] at hm
        split at hm
        · simp at hm
        · simp at hm; exact ⟨_, hm⟩
    obtain ⟨r', rfl⟩ := this
    obtain ⟨rfl, -⟩ := hh
    exact (Run.sel_iff lw _).mpr (by omega)
  · rcases lw.shape _ _ _ _ _ _ hm with ⟨_, _, _, rfl, h1, h2, -⟩ | ⟨_, _, _, rfl, h1, h2, -⟩ |
      ⟨_, _, rfl, h1, h2, -⟩ | ⟨c, r, w, k, rfl, hw, hc⟩
    · obtain ⟨rfl, rfl⟩ := hh
      exact (Run.adviceCol_iff lw _).mpr (Or.inr (by omega))
    · obtain ⟨rfl, rfl⟩ := hh
      exact (Run.fixedCol_iff lw _).mpr (Or.inr (by omega))
    · obtain ⟨rfl, rfl⟩ := hh
      exact (Run.sel_iff lw _).mpr (by omega)
    · cases hh
  · rw [mem_finalOps] at hm
    obtain ⟨q, hq, k, rfl⟩ := hm
    cases hh

private theorem grows_trans {a b c : CS Fr} (h : Grows a b) (h' : Grows b c) : Grows a c :=
  ⟨h.advice.trans h'.advice, h.fixed.trans h'.fixed, h.selectors.trans h'.selectors, h.gates.trans h'.gates,
    h.lookups.trans h'.lookups⟩

theorem grows_configured {x : Run Fr} {k : ChipKind} {short : Bool} (hbn : x.IsBn k short) :
    Grows x.cs x.configured.2 := by
  obtain ⟨⟨lw, -⟩, -⟩ := hbn.lawful
  rw [Run.configured_eq lw]
  refine ⟨by simp only; omega, by simp only; omega, by simp only; omega, ?_, ?_⟩
  · simp only [List.append_assoc]; exact List.prefix_append _ _
  · exact List.prefix_append _ _

/-- What a configuration starts with is there in the end, and so is all that the tables add. -/
theorem configures_grows {a b : CS Fr} {xs : List (Run Fr)} (h : Configures a xs b)
    (hbn : ∀ x ∈ xs, ∃ k short, x.IsBn k short) :
    Grows a b ∧ ∀ x ∈ xs, Grows a x.cs ∧ Grows x.configured.2 b := by
  induction h with
  | other h => exact ⟨h, by simp⟩
  | @table a b x xs h rest ih =>
    obtain ⟨ih1, ih2⟩ := ih fun y hy => hbn y (List.mem_cons_of_mem _ hy)
    obtain ⟨k, short, hx⟩ := hbn x List.mem_cons_self
    have hc := grows_configured hx
    refine ⟨grows_trans h (grows_trans hc ih1), fun y hy => ?_⟩
    rcases List.mem_cons.mp hy with rfl | hy
    · exact ⟨h, ih1⟩
    · exact ⟨grows_trans h (grows_trans hc (ih2 y hy).1), (ih2 y hy).2⟩

private theorem configures_apart {a b : CS Fr} {xs : List (Run Fr)} (h : Configures a xs b)
    (hbn : ∀ x ∈ xs, ∃ k short, x.IsBn k short) (hlegal : ∀ x ∈ xs, x.Legal) (hcall : xs.Pairwise CallersApart) :
    xs.Pairwise fun x y => ∀ c, Own x c → ¬ Own y c := by
  induction h with
  | other h => exact List.Pairwise.nil
  | @table a b x xs h rest ih =>
    have hbn' : ∀ y ∈ xs, ∃ k short, y.IsBn k short := fun y hy => hbn y (List.mem_cons_of_mem _ hy)
    obtain ⟨hc1, hc2⟩ := List.pairwise_cons.mp hcall
    refine List.pairwise_cons.mpr ⟨fun y hy c hxc hyc => ?_, ih hbn' (fun y hy => hlegal y (List.mem_cons_of_mem _ hy))
      hc2⟩
    have hg := ((configures_grows rest hbn').2 y hy).1
    obtain ⟨k, short, hx⟩ := hbn x List.mem_cons_self
    have hgx := grows_configured hx
    have hA := hc1 y hy
    have hl := hlegal x List.mem_cons_self
    cases c with
    | advice c =>
      have := hg.advice
      have := hgx.advice
      rcases hxc with ⟨i, rfl⟩ | h1 <;> rcases hyc with ⟨j, e⟩ | h2
      · exact hA.tables i j e
      · have := hl.cols i; omega
      · subst e; exact hA.table_inner j h1
      · omega
    | fixed c =>
      have := hg.fixed
      have := hgx.fixed
      rcases hxc with rfl | h1 <;> rcases hyc with e | h2
      · exact hA.enables e
      · have := hl.enable; omega
      · subst e; exact hA.enable_inner h1
      · omega
    | selector c =>
      have := hg.selectors
      simp only [Own, Run.Sel] at hxc hyc
      omega

/-! ### The log around one table -/

private theorem synth_tail {K : RCol → Prop} {L L' : Layouter Fr} {ys : List (Run Fr × Layouter Fr)}
    (h : Synthesizes K L ys L') (hbn : ∀ p ∈ ys, ∃ k short, p.1.IsBn k short) (hlegal : ∀ p ∈ ys, p.1.Legal) :
    ∃ os, L'.ops = L.ops ++ os ∧ ∀ o ∈ os, ∀ c r, o.Hits c r → ¬ K c ∨ ∃ p ∈ ys, Own p.1 c := by
  induction h with
  | done L => exact ⟨[], by simp, by simp⟩
  | @other L M L' ys os hM hos rest ih =>
    obtain ⟨os', e, h⟩ := ih hbn hlegal
    refine ⟨os ++ os', by rw [e, hM, List.append_assoc], fun o ho c r hh => ?_⟩
    rcases List.mem_append.mp ho with ho | ho
    · exact Or.inl (hos o ho c r hh)
    · exact h o ho c r hh
  | @table L M L' x ys hx hM rest ih =>
    obtain ⟨os', e, h⟩ := ih (fun p hp => hbn p (List.mem_cons_of_mem _ hp))
      fun p hp => hlegal p (List.mem_cons_of_mem _ hp)
    obtain ⟨k, short, hb⟩ := hbn (x, M) List.mem_cons_self
    obtain ⟨e', h'⟩ := newOps_own hb (hlegal (x, M) List.mem_cons_self) hM
    refine ⟨x.newOps M ++ os', by rw [e, e', hx, List.append_assoc], fun o ho c r hh => ?_⟩
    rcases List.mem_append.mp ho with ho | ho
    · exact Or.inr ⟨(x, M), List.mem_cons_self, h' o ho c r hh⟩
    · rcases h o ho c r hh with h | ⟨p, hp, h⟩
      · exact Or.inl h
      · exact Or.inr ⟨p, List.mem_cons_of_mem _ hp, h⟩

private theorem synth_split {K : RCol → Prop} {L L' : Layouter Fr} {ys : List (Run Fr × Layouter Fr)}
    (h : Synthesizes K L ys L') (hbn : ∀ p ∈ ys, ∃ k short, p.1.IsBn k short) (hlegal : ∀ p ∈ ys, p.1.Legal) :
    ∀ l₁ p l₂, ys = l₁ ++ p :: l₂ → p.1.Loads p.2 ∧ ∃ mid post, p.1.before.ops = L.ops ++ mid ∧
      L'.ops = p.2.ops ++ post ∧ (∀ o ∈ mid, ∀ c r, o.Hits c r → ¬ K c ∨ ∃ q ∈ l₁, Own q.1 c) ∧
      ∀ o ∈ post, ∀ c r, o.Hits c r → ¬ K c ∨ ∃ q ∈ l₂, Own q.1 c := by
  induction h with
  | done L => intro l₁ p l₂ e; simp at e
  | @other L M L' ys os hM hos rest ih =>
    intro l₁ p l₂ e
    obtain ⟨hl, mid, post, e1, e2, h1, h2⟩ := ih hbn hlegal l₁ p l₂ e
    refine ⟨hl, os ++ mid, post, by rw [e1, hM, List.append_assoc], e2, fun o ho c r hh => ?_, h2⟩
    rcases List.mem_append.mp ho with ho | ho
    · exact Or.inl (hos o ho c r hh)
    · exact h1 o ho c r hh
  | @table L M L' x ys hx hM rest ih =>
    intro l₁ p l₂ e
    have hbn' : ∀ p ∈ ys, ∃ k short, p.1.IsBn k short := fun p hp => hbn p (List.mem_cons_of_mem _ hp)
    have hlegal' : ∀ p ∈ ys, p.1.Legal := fun p hp => hlegal p (List.mem_cons_of_mem _ hp)
    rcases l₁ with _ | ⟨q, l₁⟩
    · obtain ⟨rfl, rfl⟩ := List.cons.inj e
      obtain ⟨os, e', h⟩ := synth_tail rest hbn' hlegal'
      exact ⟨hM, [], os, by rw [hx]; simp, e', by simp, h⟩
    · obtain ⟨rfl, rfl⟩ := List.cons.inj e
      obtain ⟨hl, mid, post, e1, e2, h1, h2⟩ := ih hbn' hlegal' l₁ p l₂ rfl
      obtain ⟨k, short, hb⟩ := hbn (x, M) List.mem_cons_self
      obtain ⟨e', h'⟩ := newOps_own hb (hlegal (x, M) List.mem_cons_self) hM
      refine ⟨hl, x.newOps M ++ mid, post, by rw [e1, e', hx, List.append_assoc], e2, fun o ho c r hh => ?_, h2⟩
      rcases List.mem_append.mp ho with ho | ho
      · exact Or.inr ⟨(x, M), List.mem_cons_self, h' o ho c r hh⟩
      · rcases h1 o ho c r hh with h | ⟨p, hp, h⟩
        · exact Or.inl h
        · exact Or.inr ⟨p, List.mem_cons_of_mem _ hp, h⟩

/-- A circuit with hash tables `xs`: how it is configured, in which order and where the tables are loaded. -/
structure Host (cs₀ cs : CS Fr) (xs : List (Run Fr)) (ys : List (Run Fr × Layouter Fr)) (L : Layouter Fr) : Prop where
  bn : ∀ x ∈ xs, ∃ k short, x.IsBn k short
  legal : ∀ x ∈ xs, x.Legal
  callers : xs.Pairwise CallersApart
  configures : Configures cs₀ xs cs
  order : (ys.map Prod.fst).Perm xs
  synthesizes : ∃ L₀ : Layouter Fr, L₀.ops = [] ∧ Synthesizes (fun c => ∃ x ∈ xs, Own x c) L₀ ys L

/-- `load` fills the column of the range table only. -/
theorem newOps_fill {x : Run Fr} {k : ChipKind} {short : Bool} (hbn : x.IsBn k short) (hx : x.Legal)
    {L' : Layouter Fr} (hL : x.Loads L') {c r : ℕ} {v : Fr} (hm : Op.fill c r v ∈ x.newOps L') : c = x.cs.numFixed := by
  obtain ⟨⟨lw, hlw⟩, hn⟩ := hbn.lawful
  obtain ⟨s, s', ⟨-, ho⟩, -⟩ := hL.placed lw hx hn
  rw [Run.newOps_eq lw ho, Run.ops, mem_loadOps] at hm
  rcases hm with hm | hm | hm | hm | hm
  · rw [mem_rangeOps] at hm
    rcases hm with ⟨i, -, h⟩ | h
    · cases h
    · injection h
  · obtain ⟨c', h, -⟩ := tableOps_cols _ _ _ _ hm
    cases h
  · cases mem_tailOps _ _ _ _ _ hm
  · rcases lw.shape _ _ _ _ _ _ hm with ⟨c, r, v, h, -⟩ | ⟨c, r, v, h, -⟩ | ⟨c, r, h, -⟩ | ⟨c, r, w, k, h, -⟩ <;> cases h
  · obtain ⟨q, -, k, h⟩ := (mem_finalOps _ _ _).mp hm
    cases h

/-- Every table is alone in its columns. -/
private theorem host_laid {cs₀ cs : CS Fr} {xs : List (Run Fr)} {ys : List (Run Fr × Layouter Fr)} {L : Layouter Fr}
    (h : Host cs₀ cs xs ys L) {g : Grid Fr} (hg : CarriesLog L.ops g) : ∀ p ∈ ys, p.1 ∈ xs ∧ p.1.Loads p.2 ∧
      ∃ post, L.ops = p.2.ops ++ post ∧ p.1.Laid p.2 post g ∧
        (∀ c r v, Op.advice c r v ∈ p.1.before.ops ++ post → ¬ p.1.AdviceCol c) ∧
        ∀ o ∈ p.1.newOps p.2, o ∈ L.ops := by
  intro p hp
  have hin : ∀ q ∈ ys, q.1 ∈ xs := fun q hq => h.order.mem_iff.mp (List.mem_map_of_mem hq)
  have hap : (ys.map Prod.fst).Pairwise fun x y => ∀ c, Own x c → ¬ Own y c :=
    (h.order.pairwise_iff (fun hxy c hy hx => hxy c hx hy)).mpr
      (configures_apart h.configures h.bn h.legal h.callers)
  rw [List.pairwise_map] at hap
  obtain ⟨L₀, h0, hs⟩ := h.synthesizes
  obtain ⟨l₁, l₂, rfl⟩ := List.append_of_mem hp
  obtain ⟨hl, mid, post, e1, e2, h1, h2⟩ := synth_split hs (fun q hq => h.bn _ (hin q hq))
    (fun q hq => h.legal _ (hin q hq)) l₁ p l₂ rfl
  obtain ⟨-, hap2, hap3⟩ := List.pairwise_append.mp hap
  obtain ⟨hap4, -⟩ := List.pairwise_cons.mp hap2
  obtain ⟨k, short, hb⟩ := h.bn _ (hin p hp)
  obtain ⟨e3, -⟩ := newOps_own hb (h.legal _ (hin p hp)) hl
  have quiet : ∀ o ∈ p.1.before.ops ++ post, ∀ c r, o.Hits c r → ¬ Own p.1 c := by
    intro o ho c r hh hc
    rw [e1, h0, List.nil_append] at ho
    rcases List.mem_append.mp ho with ho | ho
    · rcases h1 o ho c r hh with h | ⟨q, hq, h⟩
      · exact h ⟨p.1, hin p hp, hc⟩
      · exact hap3 q hq p List.mem_cons_self c h hc
    · rcases h2 o ho c r hh with h | ⟨q, hq, h⟩
      · exact h ⟨p.1, hin p hp, hc⟩
      · exact hap4 q hq c hc h
  have hsub : ∀ o ∈ p.1.newOps p.2, o ∈ L.ops := by
    intro o ho
    rw [e2, e3]
    exact List.mem_append_left _ (List.mem_append_right _ ho)
  refine ⟨hin p hp, hl, post, e2, ⟨hg.usable_le, fun o ho => hg.fits o (hsub o ho), fun o ho c r v hw hc => ?_,
    fun c r ho hc => ?_, fun c hc r hr hu => ?_, fun c _ r hr => ?_⟩, fun c r v ho hc => ?_, hsub⟩
  · exact quiet o ho (.fixed c) r hw.hits.1 hc
  · exact quiet _ ho (.selector c) r ⟨rfl, rfl⟩ hc
  · rw [hg.fixed c r hr (fun r' v hm => ?_), e2]
    rw [e2, e3, List.append_assoc] at hm
    have hnot : Op.fill c r' v ∉ p.1.before.ops ++ post := fun hm =>
      quiet _ hm (.fixed c) r' ⟨rfl, le_rfl⟩ hc
    rcases List.mem_append.mp hm with hm | hm
    · exact absurd (List.mem_append_left _ hm) hnot
    · rcases List.mem_append.mp hm with hm | hm
      · exact hu (newOps_fill hb (h.legal _ (hin p hp)) hl hm)
      · exact absurd (List.mem_append_right _ hm) hnot
  · rw [hg.selector c r hr, e2]
  · exact quiet _ ho (.advice c) r ⟨rfl, rfl⟩ hc

/-- **C67.** In a circuit with any number of hash tables, an assignment that meets all gates, lookups and copy
constraints of the circuit is accepted for each of the tables: all soundness properties hold for each. -/
theorem C67_sound {cs₀ cs : CS Fr} {xs : List (Run Fr)} {ys : List (Run Fr × Layouter Fr)} {L : Layouter Fr}
    (h : Host cs₀ cs xs ys L) {g : Grid Fr} (hg : CarriesLog L.ops g) (hgates : ∀ p ∈ cs.gates, p.Holds g)
    (hlookups : ∀ l ∈ cs.lookups, l.Holds g) (hcopies : CopiesHold g L.ops) :
    ∀ p ∈ ys, ∃ k short post, p.1.Accepted k short p.2 post g := by
  intro p hp
  obtain ⟨hx, hl, post, -, hlaid, -, hsub⟩ := host_laid h hg p hp
  obtain ⟨k, short, hb⟩ := h.bn _ hx
  have hgr := ((configures_grows h.configures h.bn).2 _ hx).2
  refine ⟨k, short, post, hb, h.legal _ hx, hl, hlaid, fun q hq => ?_, fun q hq => ?_, fun u v ho => ?_⟩
  · exact hgates q (hgr.gates.subset (List.mem_of_mem_drop hq))
  · exact hlookups q (hgr.lookups.subset (List.mem_of_mem_drop hq))
  · exact hcopies u v (hsub _ ho)

/-- **C67**, completeness: if the rows of every table form complete blocks, then the assignment that the synthesis
writes meets the constraints of every table. If it meets those of a table, its rows form complete blocks. -/
theorem C67_complete {cs₀ cs : CS Fr} {xs : List (Run Fr)} {ys : List (Run Fr × Layouter Fr)} {L : Layouter Fr}
    (h : Host cs₀ cs xs ys L) {g : Grid Fr} (hg : CarriesLog L.ops g)
    (hadv : ∀ x ∈ xs, ∀ c, x.AdviceCol c → ∀ r < g.usable, g.advice c r = finalAdvice L.ops c r) :
    ∀ p ∈ ys, p.1.Satisfies p.2 g ↔ Complete p.1.STEP p.1.step p.1.table p.1.calcs := by
  intro p hp
  obtain ⟨hx, hl, post, e, hlaid, hq, -⟩ := host_laid h hg p hp
  obtain ⟨k, short, hb⟩ := h.bn _ hx
  obtain ⟨⟨lw, -⟩, hn⟩ := hb.lawful
  obtain ⟨s, -, -, -, hiff⟩ := Run.honest_iff lw fr_big (h.legal _ hx) hn hl
    ⟨hlaid, hq, fun c hc r hr => by rw [hadv _ hx c hc r hr, e]⟩
  exact hiff.trans (complete_iff _ _ _ _).symm

-- two tables with different chips, configured one after the other and loaded in the opposite order; an assignment
-- that meets the constraints of both
example (k₁ k₂ : ChipKind) (short legacy : Bool) (m₁ m₂ : LoadMode) :
    ∃ (cs₀ cs : CS Fr) (x₁ x₂ : Run Fr) (L₁ L₂ : Layouter Fr) (g : Grid Fr),
      Host cs₀ cs [x₁, x₂] [(x₂, L₂), (x₁, L₁)] L₁ ∧ CarriesLog L₁.ops g ∧ x₁.IsBn k₁ short ∧ x₂.IsBn k₂ short ∧
      x₁.Satisfies L₁ g ∧ x₂.Satisfies L₂ g := by
  obtain ⟨c₁, hc₁, -⟩ := bnChip_lawful k₁
  obtain ⟨c₂, hc₂, -⟩ := bnChip_lawful k₂
  obtain ⟨y, hy⟩ : ∃ y, y = demoRun c₁ short legacy m₁ 0 := ⟨_, rfl⟩
  obtain ⟨z, hz⟩ : ∃ z, z = y.configured.2 := ⟨_, rfl⟩
  obtain ⟨x₂, hx₂⟩ : ∃ x, x = { demoRun c₂ short legacy m₂ 5 with
    cs := { z with numAdvice := z.numAdvice + 6, numFixed := z.numFixed + 1 },
    qEnable := z.numFixed, hashTable := fun i => z.numAdvice + i } := ⟨_, rfl⟩
  have hbn₂ : x₂.IsBn k₂ short := by rw [hx₂]; exact ⟨hc₂, rfl⟩
  have hl₂ : x₂.Legal := by
    obtain ⟨-, -, -, h4, h5, h6, h7⟩ := demo_legal c₂ short legacy m₂ 5
    rw [hx₂]
    exact ⟨fun i => by have := i.isLt; simp only; omega, fun i j h => Fin.ext (by simpa using h), by simp only; omega,
      h4, h5, h6, h7⟩
  have load : ∀ x : Run Fr, ∀ k, x.IsBn k short → x.Legal → x.calcs = 6 → (∃ e, x.table = demoTable e) →
      ∃ L, x.load = .ok L := by
    rintro x k hb hl h6 ⟨e, he⟩
    refine (C41_checks hb hl).1.mpr ⟨fun _ => ?_, ?_⟩
    · rw [he, h6]; simp [demoTable]
    · rw [he]; intro a m _ _ ck h; simp [rowCk, demoTable] at h
  obtain ⟨L₂, hL₂⟩ := load x₂ k₂ hbn₂ hl₂ (by rw [hx₂]; rfl) ⟨5, by rw [hx₂]; rfl⟩
  obtain ⟨x₁, hx₁⟩ : ∃ x, x = { y with before := L₂ } := ⟨_, rfl⟩
  have hz' : z = x₁.configured.2 := by rw [hz, hx₁]; rfl
  have hbn₁ : x₁.IsBn k₁ short := by rw [hx₁, hy]; exact ⟨hc₁, rfl⟩
  have hl₁ : x₁.Legal := by
    obtain ⟨h1, h2, h3, h4, h5, h6, h7⟩ := demo_legal c₁ short legacy m₁ 0
    rw [hx₁, hy]
    exact ⟨h1, h2, h3, h4, h5, h6, h7⟩
  obtain ⟨L₁, hL₁⟩ := load x₁ k₁ hbn₁ hl₁ (by rw [hx₁, hy]; rfl) ⟨0, by rw [hx₁, hy]; rfl⟩
  have hg₁ := grows_configured hbn₁
  have h6 : x₁.cs.numAdvice = 6 ∧ x₁.cs.numFixed = 1 ∧ (∀ i, x₁.hashTable i = i) ∧ x₁.qEnable = 0 := by
    rw [hx₁, hy]; exact ⟨rfl, rfl, fun i => rfl, rfl⟩
  have h7 : x₂.cs = { z with numAdvice := z.numAdvice + 6, numFixed := z.numFixed + 1 } ∧
      x₂.qEnable = z.numFixed ∧ ∀ i, x₂.hashTable i = z.numAdvice + i := by
    rw [hx₂]; exact ⟨rfl, rfl, fun i => rfl⟩
  have hhost : Host x₁.cs x₂.configured.2 [x₁, x₂] [(x₂, L₂), (x₁, L₁)] L₁ := by
    refine ⟨?_, ?_, ?_, ?_, List.Perm.swap _ _ _, x₂.before, by rw [hx₂]; rfl, ?_⟩
    · intro x hx
      rcases List.mem_cons.mp hx with rfl | hx
      · exact ⟨k₁, short, hbn₁⟩
      · rw [List.mem_singleton.mp hx]; exact ⟨k₂, short, hbn₂⟩
    · intro x hx
      rcases List.mem_cons.mp hx with rfl | hx
      · exact hl₁
      · rw [List.mem_singleton.mp hx]; exact hl₂
    · refine List.pairwise_cons.mpr ⟨fun x hx => ?_, List.pairwise_singleton _ _⟩
      rw [List.mem_singleton.mp hx]
      have e1 := hg₁.advice
      have e2 := hg₁.fixed
      rw [← hz'] at e1 e2
      refine ⟨fun i j => ?_, ?_, fun i => ?_, ?_⟩
      · rw [h6.2.2.1, h7.2.2]; have := i.isLt; omega
      · rw [h6.2.2.2, h7.2.1]; omega
      · rw [h7.2.2, ← hz']; omega
      · rw [h7.2.1, ← hz']; omega
    · refine Configures.table ⟨le_refl _, le_refl _, le_refl _, List.prefix_rfl, List.prefix_rfl⟩
        (Configures.table ?_ (Configures.other ⟨le_refl _, le_refl _, le_refl _, List.prefix_rfl, List.prefix_rfl⟩))
      rw [← hz', h7.1]
      exact ⟨by simp, by simp, by simp, List.prefix_rfl, List.prefix_rfl⟩
    · refine Synthesizes.table rfl (Or.inl hL₂) (Synthesizes.table ?_ (Or.inl hL₁) (Synthesizes.done L₁))
      rw [hx₁]
  obtain ⟨n, hn⟩ : ∃ n, Fits L₁.ops n := by
    refine ⟨(L₁.ops.map Op.bottom).sum, fun o ho => List.le_sum_of_mem (List.mem_map_of_mem ho)⟩
  obtain ⟨g, hg⟩ : ∃ g : Grid Fr, g = ⟨n, n, finalAdvice L₁.ops, finalFixed L₁.ops, finalSelector L₁.ops⟩ := ⟨_, rfl⟩
  have hcar : CarriesLog L₁.ops g := by
    rw [hg]; exact ⟨le_refl _, hn, fun c r _ _ => rfl, fun c r _ => rfl⟩
  have hiff := C67_complete hhost hcar (fun x _ c _ r _ => by rw [hg])
  have hcomp : ∀ e, Complete 62 62 (demoTable e) 6 := fun e => (complete_iff _ _ _ _).mpr (demo_wellFormed e)
  refine ⟨x₁.cs, x₂.configured.2, x₁, x₂, L₁, L₂, g, hhost, hcar, hbn₁, hbn₂,
    (hiff (x₁, L₁) (by simp)).mpr ?_, (hiff (x₂, L₂) (by simp)).mpr ?_⟩
  · rw [hx₁, hy]; exact hcomp 0
  · rw [hx₂]; exact hcomp 5

end Props
