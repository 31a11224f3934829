import Verif.Circuit.Threads
import Verif.Circuit.TableShape
import Verif.Props.TableLoad

/-!
# The threads of the parallel assignment: C73

In parallel mode `load` and `permute_batch` hand closures to `assign_regions`, which runs them in threads.
`Run.loadBy σ τ` is `load` with the operations of the threads in the order of the schedulers `σ` (for the
table) and `τ` (for the permutations). A scheduler may order the operations of different threads in any way.
-/

set_option linter.unusedVariables false

namespace Props
open Halo2 Circuit Circuit.Table Base.Bn256

/-- `load` succeeds under both schedules with the same reserved columns and the same circuit: the same
operations in some order, the same content of every cell, the same selectors and copy constraints, also
together with whatever comes after. -/
structure SameLoad {F : Type} [Field F] (L L' : Layouter F) : Prop where
  colEnd : L.colEnd = L'.colEnd
  constCol : L.constCol = L'.constCol
  perm : L.ops.Perm L'.ops
  circuit : ∀ post, SameCircuit (L.ops ++ post) (L'.ops ++ post)
  advice : ∀ post c r, finalAdvice (L.ops ++ post) c r = finalAdvice (L'.ops ++ post) c r

private theorem sameLoad_of_sim {F : Type} [Field F] {p : List (Op F)} {L L' : Layouter F}
    (h : Layouter.Sim p L L') : SameLoad L L' := by
  obtain ⟨l, l', e, e', s⟩ := h.ops
  have hs : ∀ post, SameWrites (L.ops ++ post) (L'.ops ++ post) := fun post => by
    rw [e, e']
    exact ((SameWrites.refl p).append s).append (.refl post)
  exact ⟨h.colEnd, h.constCol, by simpa using (hs []).perm,
    fun post => ⟨(hs post).finalFixed, (hs post).finalSelector, fun u v => (hs post).perm.mem_iff⟩,
    fun post => (hs post).finalAdvice⟩

/-- **C73.** Whatever the schedules of the threads, `load` with either chip has the outcome of the sequential
order: the same panic, or the same circuit and witness. Any field, any constants, any native permutation, any
table, any number of threads and any state of the layouter. -/
theorem C73_load {F : Type} [Field F] [DecidableEq F] {x : Run F}
    (hch : (∃ m rc, x.ch = Septidon.chip m rc) ∨ ∃ S, x.ch = Pow5.chip S) {σ τ : Scheduler F} (hσ : σ.Fair)
    (hτ : τ.Fair) :
    (∀ e, x.load = .error e → x.loadBy σ τ = .error e) ∧
    ∀ L', x.load = .ok L' → ∃ L, x.loadBy σ τ = .ok L ∧ SameLoad L L' := by
  have hts : x.ch.ThreadSafe := by
    obtain ⟨m, rc, e⟩ | ⟨S, e⟩ := hch
    · rw [e]; exact Septidon.threadSafe m rc
    · rw [e]; exact Pow5.threadSafe S
  cases hm : x.mode with
  | serial =>
    rw [Run.loadBy_serial hm]
    exact ⟨fun e h => h, fun L' h => ⟨L', h, rfl, rfl, .refl _, fun post => ⟨fun _ _ => rfl, fun _ _ => rfl,
      fun _ _ => Iff.rfl⟩, fun _ _ _ => rfl⟩⟩
  | parallel threads =>
    have key := Run.loadBy_sim hts hm hσ hτ
    refine ⟨fun e h => ?_, fun L' h => ?_⟩
    · rw [h] at key
      cases hl : x.loadBy σ τ with
      | error e' => rw [hl] at key; exact congrArg _ key
      | ok L => rw [hl] at key; exact key.elim
    · rw [h] at key
      cases hl : x.loadBy σ τ with
      | error e' => rw [hl] at key; exact key.elim
      | ok L => rw [hl] at key; exact ⟨L, rfl, sameLoad_of_sim key⟩

private theorem bn_chip {x : Run Fr} {k : ChipKind} {short : Bool} (hbn : x.IsBn k short) :
    (∃ m rc, x.ch = Septidon.chip m rc) ∨ ∃ S, x.ch = Pow5.chip S := by
  have h := hbn.1
  unfold bnChip at h
  cases k with
  | septidon =>
    simp only at h
    split at h
    · exact Or.inl ⟨_, _, (Except.ok.inj h).symm⟩
    · cases h
  | pow5 b =>
    cases b <;> simp only at h <;> split at h <;>
      first
        | exact Or.inr ⟨_, (Except.ok.inj h).symm⟩
        | cases h

/-- The schedulers are not just the sequential one: the threads may also run in reverse order, or one may
be interrupted by another. The demo table with three threads loads under all of them. -/
example (k : ChipKind) (short legacy : Bool) (σ τ : Scheduler Fr) (hσ : σ.Fair) (hτ : τ.Fair) :
    ∃ (x : Run Fr) (L L' : Layouter Fr), x.IsBn k short ∧ x.mode = .parallel 3 ∧ x.load = .ok L' ∧
      x.loadBy σ τ = .ok L ∧ SameLoad L L' := by
  obtain ⟨ch, L', g, hch, hL, -⟩ := demo k short legacy (.parallel 3) 0
  obtain ⟨L, h1, h2⟩ := (C73_load (bn_chip (x := demoRun ch short legacy (.parallel 3) 0) (short := short) ⟨hch, rfl⟩)
    hσ hτ).2 L' hL
  exact ⟨_, L, L', ⟨hch, rfl⟩, rfl, hL, h1, h2⟩

example : Scheduler.Fair (F := Fr) (fun ls => ls.flatten) ∧ Scheduler.Fair (F := Fr) fun ls => ls.reverse.flatten :=
  ⟨fair_flatten, fair_reverse⟩

example (a b c : Op Fr) : Interleaves [[a, b], [c]] [a, c, b] ∧ Interleaves [[a, b], [c]] [c, a, b] ∧
    (a ≠ b → c ≠ b → ¬ Interleaves [[a, b], [c]] [b, a, c]) := by
  refine ⟨.step (i := 0) rfl (.step (i := 1) rfl (.step (i := 0) rfl (.done (by simp)))),
    .step (i := 1) rfl (.step (i := 0) rfl (.step (i := 0) rfl (.done (by simp)))), fun h h' hi => ?_⟩
  cases hi with
  | @step _ i _ rest _ hi _ =>
    match i with
    | 0 => simp at hi; exact h hi.1
    | 1 => simp at hi; exact h' hi.1
    | n + 2 => simp at hi

/-- **C73.** So a grid is accepted after a threaded `load` iff it is accepted after the sequential one, and it is
the honest grid of the one iff it is that of the other: everything said about accepted and honest grids holds
under every schedule. -/
theorem C73_accepted {x : Run Fr} {k : ChipKind} {short : Bool} (hbn : x.IsBn k short) {threads : ℕ}
    (hm : x.mode = .parallel threads) {σ τ : Scheduler Fr} (hσ : σ.Fair) (hτ : τ.Fair) {L L' : Layouter Fr}
    (hL : x.loadBy σ τ = .ok L) (hL' : x.load = .ok L') :
    (∀ g, x.Satisfies L g ↔ x.Satisfies L' g) ∧ (∀ post g, x.Laid L post g ↔ x.Laid L' post g) ∧
    ∀ post g, x.Honest L post g ↔ x.Honest L' post g := by
  have hts : x.ch.ThreadSafe := by
    obtain ⟨m, rc, e⟩ | ⟨S, e⟩ := bn_chip hbn
    · rw [e]; exact Septidon.threadSafe m rc
    · rw [e]; exact Pow5.threadSafe S
  have key := Run.loadBy_sim hts hm hσ hτ
  rw [hL, hL'] at key
  obtain ⟨l, l', e, e', s⟩ := key.ops
  have hn : x.newOps L = l := by rw [Run.newOps, e, List.drop_left]
  have hn' : x.newOps L' = l' := by rw [Run.newOps, e', List.drop_left]
  have hmem : ∀ o, o ∈ x.newOps L ↔ o ∈ x.newOps L' := fun o => by rw [hn, hn']; exact s.perm.mem_iff
  obtain ⟨-, -, -, hc, ha⟩ := sameLoad_of_sim key
  have hlaid : ∀ post g, x.Laid L post g ↔ x.Laid L' post g := fun post g =>
    ⟨fun ⟨h1, h2, h3, h4, h5, h6⟩ => ⟨h1, fun o ho => h2 o ((hmem o).mpr ho), h3, h4,
      fun c hcol r hr hu => (h5 c hcol r hr hu).trans ((hc post).fixed c r),
      fun c hcol r hr => (h6 c hcol r hr).trans ((hc post).selector c r)⟩,
    fun ⟨h1, h2, h3, h4, h5, h6⟩ => ⟨h1, fun o ho => h2 o ((hmem o).mp ho), h3, h4,
      fun c hcol r hr hu => (h5 c hcol r hr hu).trans ((hc post).fixed c r).symm,
      fun c hcol r hr => (h6 c hcol r hr).trans ((hc post).selector c r).symm⟩⟩
  refine ⟨fun g => ⟨fun ⟨h1, h2, h3⟩ => ⟨h1, h2, fun a b h => h3 a b ((hmem _).mpr h)⟩,
    fun ⟨h1, h2, h3⟩ => ⟨h1, h2, fun a b h => h3 a b ((hmem _).mp h)⟩⟩, hlaid, fun post g =>
    ⟨fun h => ⟨(hlaid post g).mp h.toLaid, h.quietAdvice, fun c hcol r hr => (h.advice c hcol r hr).trans (ha post c r)⟩,
    fun h => ⟨(hlaid post g).mpr h.toLaid, h.quietAdvice,
      fun c hcol r hr => (h.advice c hcol r hr).trans (ha post c r).symm⟩⟩⟩

/-- The demo run, its threads in any order: the honest grid is accepted. -/
example (k : ChipKind) (short legacy : Bool) (σ τ : Scheduler Fr) (hσ : σ.Fair) (hτ : τ.Fair) :
    ∃ (x : Run Fr) (L : Layouter Fr) (g : Grid Fr), x.IsBn k short ∧ x.mode = .parallel 3 ∧
      x.loadBy σ τ = .ok L ∧ x.Honest L [] g ∧ x.Satisfies L g := by
  obtain ⟨ch, L', g, hch, hL, hacc, hon, -⟩ := demo k short legacy (.parallel 3) 0
  obtain ⟨L, h1, h2⟩ := (C73_load (bn_chip (x := demoRun ch short legacy (.parallel 3) 0) (short := short) ⟨hch, rfl⟩)
    hσ hτ).2 L' hL
  obtain ⟨k1, -, k3⟩ := C73_accepted (x := demoRun ch short legacy (.parallel 3) 0) (k := k) (short := short)
    ⟨hch, rfl⟩ rfl hσ hτ h1 hL
  exact ⟨_, L, g, ⟨hch, rfl⟩, rfl, h1, (k3 [] g).mpr hon, (k1 g).mpr hacc.sat⟩

/-! ## Why: every thread keeps to its own rows -/

/-- All cells written by the operations lie in rows `s` to `s + h - 1`. -/
structure InRows {F : Type} (s h : ℕ) (ops : List (Op F)) : Prop where
  advice : ∀ c r v, Op.advice c r v ∈ ops → s ≤ r ∧ r < s + h
  fixed : ∀ c r v, Op.fixed c r v ∈ ops → s ≤ r ∧ r < s + h
  selector : ∀ c r, Op.selector c r ∈ ops → s ≤ r ∧ r < s + h
  fill : ∀ c r v, Op.fill c r v ∉ ops

private theorem inRows_of {F : Type} [Field F] {s h : ℕ} {ops : List (Op F)} (H : ∀ o ∈ ops, o.Within s h) :
    InRows s h ops :=
  ⟨fun c r v hm => H _ hm, fun c r v hm => H _ hm, fun c r hm => H _ hm, fun c r v hm => H _ hm⟩

/-- **C73.** The thread of a chunk of the table with `n` items, in a region from row `s` on, writes only rows
`s` to `s + n - 1`; it has shown exactly `n` rows to the floor planner. -/
theorem C73_rows_table {F : Type} [Field F] [DecidableEq F] (legacy : Bool) (STEP : ℕ)
    (native : (Fin 3 → F) → Except Panic (Fin 3 → F)) {P : Type} (cfg : SpongeConfig P) {data : List (RowData F)}
    (hd : data ≠ []) (last : Bool) (s : ℕ) {w : W F (List (WordPair F))}
    (h : fillPartial legacy STEP native cfg data last s = .ok w) :
    InRows s data.length w.ops ∧ Layouter.shapeRows (fillPartialShape cfg data) = data.length := by
  have hl := List.length_pos_of_ne_nil hd
  have hw := fillPartial_within legacy STEP native cfg h
  rw [show data.length - 1 + 1 = data.length by omega] at hw
  exact ⟨inRows_of hw, by rw [shapeRows_partial]; omega⟩

/-- Two items, the second one closing a hash of two blocks. -/
example {P : Type} (cfg : SpongeConfig P) : ∃ (data : List (RowData ℚ)) (w : _), data ≠ [] ∧ data.length = 2 ∧
    fillPartial false 62 (fun s => .ok s) cfg data true 5 = .ok w :=
  ⟨[⟨some (1, 2), some 150, none, none⟩, ⟨some (3, 4), some 60, none, none⟩], _, by simp, rfl, rfl⟩

/-- **C73.** The thread of a chunk of `n` permutations of the Septidon chip writes only rows `s` to
`s + 8 n - 1`, as it has shown to the floor planner. -/
theorem C73_rows_batch {F : Type} [Field F] (m : Base.Mds F 3) (rc : ℕ → Fin 3 → F) (cs : CS F)
    {ws : List (Fin 3 → ACell F)} (hws : ws ≠ []) (s : ℕ) :
    InRows s (8 * ws.length) (Septidon.batchBody m rc ((Septidon.chip m rc).configure cs).1 ws 0 s).ops ∧
    Layouter.shapeRows [Op.advice (((Septidon.chip m rc).configure cs).1.finalCells 0).column
      (ws.length * 8 - 1) (0 : F)] = 8 * ws.length := by
  have hl := List.length_pos_of_ne_nil hws
  have hc : ((Septidon.chip m rc).configure cs).1 = Septidon.config cs.numAdvice cs.numFixed := by
    show (Septidon.configure m rc cs).1 = _
    rw [Septidon.configure_eq]
  refine ⟨?_, ?_⟩
  · rw [hc]
    have := Septidon.batchBody_within m rc cs.numAdvice cs.numFixed (s := s) ws 0
    rw [Nat.zero_add] at this
    exact inRows_of this
  · simp only [Layouter.shapeRows, List.map_cons, List.map_nil, Op.bottom, List.foldl_cons, List.foldl_nil]
    omega

example (m : Base.Mds ℚ 3) (rc : ℕ → Fin 3 → ℚ) (cs : CS ℚ) (w : Fin 3 → ACell ℚ) :
    InRows 40 24 (Septidon.batchBody m rc ((Septidon.chip m rc).configure cs).1 [w, w, w] 0 40).ops :=
  (C73_rows_batch m rc cs (ws := [w, w, w]) (by simp) 40).1

/-- **C73.** The floor planner puts regions that show one cell of a column `c` each, in their last row, right
below each other; the first one at the first free row of the column. -/
theorem C73_ranges {F : Type} [Field F] (c : ℕ) : ∀ (heights : List ℕ), (∀ h ∈ heights, 0 < h) → ∀ L : Layouter F,
    (L.placeAll (heights.map fun h => [Op.advice c (h - 1) 0])).1 =
      (List.range heights.length).map fun i => L.colEnd (.advice c) + (heights.take i).sum
  | [], _, L => rfl
  | h :: hs, hpos, L => by
    have h0 := hpos h (by simp)
    have hst : L.startOf [Op.advice c (h - 1) (0 : F)] = L.colEnd (.advice c) := by
      simp [Layouter.startOf, Layouter.shapeCols, Op.rcol]
    have hr : Layouter.shapeRows [Op.advice c (h - 1) (0 : F)] = h := by
      simp only [Layouter.shapeRows, List.map_cons, List.map_nil, Op.bottom, List.foldl_cons, List.foldl_nil]
      omega
    have ih := C73_ranges c hs (fun h hh => hpos h (by simp [hh])) (L.reserve [Op.advice c (h - 1) (0 : F)] (L.colEnd (.advice c)))
    have hce : (L.reserve [Op.advice c (h - 1) (0 : F)] (L.colEnd (.advice c))).colEnd (.advice c) =
        L.colEnd (.advice c) + h := by
      simp only [Layouter.reserve, hr]
      rw [if_pos (by simp [Layouter.shapeCols, Op.rcol])]
    rw [hce] at ih
    simp only [List.map_cons, Layouter.placeAll, hst, ih, List.length_cons]
    rw [List.range_succ_eq_map, List.map_cons, List.map_map]
    simp [Function.comp_def, Nat.add_assoc]

example (L : Layouter ℚ) (h : L.colEnd (.advice 3) = 7) :
    (L.placeAll ([2, 1, 4].map fun h => [Op.advice 3 (h - 1) 0])).1 = [7, 9, 10] := by
  rw [C73_ranges 3 [2, 1, 4] (by simp) L, h]
  rfl

/-! ## Schedules matter for regions that overlap -/

private def race (rows : ℕ) : List (List (Op ℚ) × (ℕ → Except Panic (W ℚ Unit))) :=
  [1, 2].map fun v => ([Op.advice 0 (rows - 1) 0], fun s => .ok ⟨(), [.advice 0 s v, .advice 0 (s + 1) v]⟩)

/-- **C73.** The row ranges are what makes the threads safe: two closures that write two rows each but show only one row
to the floor planner leave different grids under different schedules; if they show both, they do not. -/
theorem C73_race :
    (∃ L L', Layouter.assignRegionsBy List.flatten ⟨fun _ => 0, none, []⟩ (race 1) = .ok ([(), ()], L) ∧
      Layouter.assignRegionsBy (fun ls => ls.reverse.flatten) ⟨fun _ => 0, none, []⟩ (race 1) = .ok ([(), ()], L') ∧
      finalAdvice L.ops 0 1 = 2 ∧ finalAdvice L'.ops 0 1 = 1) ∧
    ∃ L L', Layouter.assignRegionsBy List.flatten ⟨fun _ => 0, none, []⟩ (race 2) = .ok ([(), ()], L) ∧
      Layouter.assignRegionsBy (fun ls => ls.reverse.flatten) ⟨fun _ => 0, none, []⟩ (race 2) = .ok ([(), ()], L') ∧
      L.ops ≠ L'.ops ∧ ∀ c r, finalAdvice L.ops c r = finalAdvice L'.ops c r := by
  refine ⟨⟨_, _, rfl, rfl, ?_, ?_⟩, ⟨_, _, rfl, rfl, ?_, fun c r => ?_⟩⟩
  · show finalAdvice [Op.advice 0 0 (1 : ℚ), .advice 0 1 1, .advice 0 1 2, .advice 0 2 2] 0 1 = 2
    simp [finalAdvice]
  · show finalAdvice [Op.advice 0 1 (2 : ℚ), .advice 0 2 2, .advice 0 0 1, .advice 0 1 1] 0 1 = 1
    simp [finalAdvice]
  · show [Op.advice 0 0 (1 : ℚ), .advice 0 1 1, .advice 0 2 2, .advice 0 3 2] ≠
      [.advice 0 2 2, .advice 0 3 2, .advice 0 0 1, .advice 0 1 1]
    simp
  · show finalAdvice [Op.advice 0 0 (1 : ℚ), .advice 0 1 1, .advice 0 2 2, .advice 0 3 2] c r =
      finalAdvice [.advice 0 2 2, .advice 0 3 2, .advice 0 0 1, .advice 0 1 1] c r
    simp only [finalAdvice, List.foldl_cons, List.foldl_nil]
    split_ifs <;> first | rfl | omega

end Props
