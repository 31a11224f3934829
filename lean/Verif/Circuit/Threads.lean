import Verif.Circuit.TableRun

/-!
# The threads of the hash table and of the Septidon chip

Every closure passed to `assign_regions` writes only the rows it has shown to the floor planner, so the
order of the threads does not matter (`Halo2.Layouter.assignRegionsBy_sim`).
-/

set_option linter.unusedSectionVars false
set_option linter.unusedVariables false

open Halo2

namespace Circuit

variable {F : Type} [Field F]

/-- All operations write within rows `s` to `s + h - 1`. -/
def WithinW {α : Type} (s h : ℕ) (w : W F α) : Prop := ∀ o ∈ w.ops, o.Within s h

section
variable {α β : Type} {s h : ℕ}

theorem WithinW.pure (a : α) : WithinW (F := F) s h (pure a) := fun o ho => by simp at ho

theorem WithinW.bind {w : W F α} {f : α → W F β} (hw : WithinW s h w) (hf : ∀ a, WithinW s h (f a)) :
    WithinW s h (w >>= f) := fun o ho => by
  rw [W.bind_ops, List.mem_append] at ho
  exact ho.elim (hw o) (hf _ o)

theorem Op.Within.mono {o : Op F} {h' : ℕ} (ho : o.Within s h) (hle : h ≤ h') : o.Within s h' := by
  cases o <;> simp only [Op.Within] at ho ⊢ <;> omega

theorem WithinW.mono {w : W F α} {h' : ℕ} (hw : WithinW s h w) (hle : h ≤ h') : WithinW s h' w :=
  fun o ho => Op.Within.mono (hw o ho) hle

theorem withinW_advice (c k : ℕ) (v : F) (hk : k < h) : WithinW s h (assignAdvice s c k v) := by
  intro o ho
  obtain rfl := List.mem_singleton.mp ho
  exact ⟨by omega, by omega⟩

theorem withinW_fixed (c k : ℕ) (v : F) (hk : k < h) : WithinW s h (assignFixed s c k v) := by
  intro o ho
  obtain rfl := List.mem_singleton.mp ho
  exact ⟨by omega, by omega⟩

theorem withinW_selector (c k : ℕ) (hk : k < h) : WithinW (F := F) s h (enableSelector s c k) := by
  intro o ho
  obtain rfl := List.mem_singleton.mp ho
  exact ⟨by omega, by omega⟩

theorem withinW_copy (src : ACell F) (c k : ℕ) (hk : k < h) : WithinW s h (copyAdvice src s c k) := by
  intro o ho
  simp only [copyAdvice, List.mem_cons, List.not_mem_nil, or_false] at ho
  rcases ho with rfl | rfl
  · exact ⟨by omega, by omega⟩
  · trivial

theorem withinW_loop (f : ℕ → α → W F α) (n : ℕ) (a : α) (hf : ∀ i < n, ∀ a, WithinW s h (f i a)) :
    WithinW s h (W.loop f n a) := by
  induction n with
  | zero => exact .pure a
  | succ n ih => exact (ih fun i hi => hf i (by omega)).bind fun a => hf n (by omega) a
end

/-! ## Septidon -/

namespace Septidon
variable (m : Base.Mds F 3) (rc : ℕ → Fin 3 → F) (a f : ℕ) {s h : ℕ}

theorem sbox_within (b : SBox) (offset : ℕ) (k v : F) (hb : b.input.offset = 0) (ho : offset < h) :
    WithinW s h (b.assign s offset k v) := by
  have : offset + b.input.regionOffset < h := by simpa [RelCell.regionOffset, hb] using ho
  exact (withinW_fixed _ _ _ this).bind fun _ => (withinW_advice _ _ _ this).bind fun _ => .pure _

theorem relCell_within (c : RelCell) (origin : ℕ) (v : F) (ho : ((origin : ℤ) + c.offset).toNat < h) :
    WithinW s h (c.assign s origin v) :=
  (withinW_advice _ _ _ ho).bind fun _ => .pure _

theorem partialRounds_within (offset : ℕ) (ho : offset < h) : ∀ (l : List (SBox × F)) (st : Fin 3 → F),
    (∀ q ∈ l, q.1.input.offset = 0) → WithinW s h (assignPartialRounds m s offset l st)
  | [], st, _ => .pure st
  | (b, k) :: rest, st, hl =>
    (sbox_within b offset k _ (hl _ List.mem_cons_self) ho).bind fun _ =>
      partialRounds_within offset ho rest _ fun q hq => hl q (List.mem_cons_of_mem _ hq)

theorem transition_within (col k : ℕ) (hk : k < h) (h3 : 3 ≤ k) (v : Fin 3 → F) :
    WithinW s h (transitionAssignCells s col k v) := by
  refine (relCell_within _ _ _ ?_).bind fun _ => (relCell_within _ _ _ ?_).bind fun _ =>
    (relCell_within _ _ _ ?_).bind fun _ => relCell_within _ _ _ ?_ <;>
  simp [transitionInput, transitionHelper] <;> omega

theorem assignPermutation_within (st : Fin 3 → F) :
    WithinW s 8 (assignPermutation m rc (config a f) s st 0) := by
  refine ((withinW_fixed _ _ _ (by omega)).bind fun _ => .pure _).bind fun _ => ?_
  refine (withinW_loop _ _ _ fun i hi v => ?_).bind fun _ => ?_
  · exact (sbox_within _ _ _ _ rfl (by omega)).bind fun _ => (sbox_within _ _ _ _ rfl (by omega)).bind fun _ =>
      (sbox_within _ _ _ _ rfl (by omega)).bind fun _ => .pure _
  refine ((transition_within _ _ (by omega) (by omega) _).bind fun _ => .pure _).bind fun _ => ?_
  refine (withinW_loop _ _ _ fun i hi v => ?_).bind fun _ => ?_
  · refine (relCell_within _ _ _ ?_).bind fun _ => (relCell_within _ _ _ ?_).bind fun _ =>
      partialRounds_within m _ (by omega) _ _ fun q hq => ?_
    · simp [config]; omega
    · simp [config]; omega
    · have := (List.of_mem_zip hq).1
      simp only [config, List.mem_cons, List.not_mem_nil, or_false] at this
      rcases this with h | h | h | h | h | h | h <;> rw [h]
  refine (withinW_loop _ _ _ fun i hi v => ?_).bind fun _ => ?_
  · exact (sbox_within _ _ _ _ rfl (by omega)).bind fun _ => (sbox_within _ _ _ _ rfl (by omega)).bind fun _ =>
      (sbox_within _ _ _ _ rfl (by omega)).bind fun _ => .pure _
  exact (transition_within _ _ (by omega) (by omega) _).bind fun _ => .pure _

theorem permuteBody_within (w : Fin 3 → ACell F) : WithinW s 8 (permuteBody m rc (config a f) w 0 s) := by
  refine (withinW_copy _ _ _ (by simp [Config.initialCells, config])).bind fun _ =>
    (withinW_copy _ _ _ (by simp [Config.initialCells, config])).bind fun _ =>
    (withinW_copy _ _ _ (by simp [Config.initialCells, config])).bind fun _ =>
    (assignPermutation_within m rc a f _).bind fun _ =>
    (withinW_advice _ _ _ ?_).bind fun _ => (withinW_advice _ _ _ ?_).bind fun _ =>
    (withinW_advice _ _ _ ?_).bind fun _ => .pure _ <;>
  simp [Config.finalCells, transitionInput, RelCell.rotated, config]

theorem Op.Within.shift {o : Op F} {s b h h' : ℕ} (ho : o.Within (s + b) h) (hle : b + h ≤ h') : o.Within s h' := by
  cases o <;> simp only [Op.Within] at ho ⊢ <;> omega

/-- A chunk of `permute_batch` writes 8 rows per permutation. -/
theorem batchBody_within (ws : List (Fin 3 → ACell F)) : ∀ b : ℕ,
    WithinW s (b + 8 * ws.length) (batchBody m rc (config a f) ws b s) := by
  induction ws with
  | nil => exact fun b => .pure _
  | cons w ws ih =>
    intro b
    refine WithinW.bind (fun o ho => ?_) fun _ => WithinW.bind ?_ fun _ => .pure _
    · rw [permuteBody_shift] at ho
      exact Op.Within.shift (permuteBody_within m rc a f w o ho) (by simp only [List.length_cons]; omega)
    · refine (ih (b + 8)).mono ?_
      simp only [List.length_cons]; omega

end Septidon

/-! ## The table -/

namespace Table
variable [DecidableEq F] (legacy : Bool) (STEP : ℕ) (native : (Fin 3 → F) → Except Panic (Fin 3 → F)) {P : Type}
  (cfg : SpongeConfig P) {s h : ℕ}

theorem writeRow_within (offset : ℕ) (ho : offset < h) (a b : Fin 3 → F) (inp : F × F) (flag domain : F) (n : Bool) :
    WithinW s h (writeRow cfg s offset a b inp flag domain n) :=
  (withinW_fixed _ _ _ ho).bind fun _ => (withinW_advice _ _ _ ho).bind fun _ => (withinW_advice _ _ _ ho).bind fun _ =>
  (withinW_advice _ _ _ ho).bind fun _ => (withinW_advice _ _ _ ho).bind fun _ => (withinW_advice _ _ _ ho).bind fun _ =>
  (withinW_advice _ _ _ ho).bind fun _ => (withinW_advice _ _ _ ho).bind fun _ => (withinW_advice _ _ _ ho).bind fun _ =>
  (withinW_advice _ _ _ ho).bind fun _ => (withinW_advice _ _ _ ho).bind fun _ => (withinW_advice _ _ _ ho).bind fun _ =>
  (withinW_advice _ _ _ ho).bind fun _ => (withinW_advice _ _ _ ho).bind fun _ => .pure _

theorem writeIndex_within (k offset : ℕ) (ho : offset < h) (v : F) : WithinW s h (writeIndex cfg s k offset v) := by
  intro o hm
  obtain ⟨i, hi, hm⟩ := List.mem_flatMap.mp hm
  rw [List.mem_range'_1] at hi
  exact withinW_advice _ i _ (by omega) o hm

theorem bind_ok {α β : Type} {x : Except Panic α} {f : α → Except Panic β} {b : β} (e : (x >>= f) = .ok b) :
    ∃ a, x = .ok a ∧ f a = .ok b := by
  cases x with
  | error er => cases e
  | ok a => exact ⟨a, rfl, e⟩

theorem fillRowPartial_within {offset : ℕ} (ho : offset < h) {st : FillState F} {row : RowData F}
    {w : W F (WordPair F × FillState F)} (e : fillRowPartial legacy STEP native cfg s offset st row = .ok w) :
    WithinW s h w := by
  unfold fillRowPartial at e
  obtain ⟨v, -, e⟩ := bind_ok e
  have key : ∀ (a b : Fin 3 → F) (inp : F × F) (flag domain : F) (n : Bool) (isNew : Bool) (k : ℕ) (hash : F)
      (st' : FillState F), WithinW s h (do
        let words ← writeRow cfg s offset a b inp flag domain n
        if isNew then writeIndex cfg s k offset hash
        return (words, st')) := by
    intro a b inp flag domain n isNew k hash st'
    refine WithinW.bind (writeRow_within cfg offset ho _ _ _ _ _ _) fun _ => ?_
    cases isNew
    · exact WithinW.bind (.pure _) fun _ => .pure _
    · exact (writeIndex_within cfg _ offset ho _).bind fun _ => .pure _
  revert e
  cases row.check with
  | none =>
    intro e
    have e := Except.ok.inj e
    subst e
    exact key _ _ _ _ _ _ _ _ _ _
  | some ck =>
    intro e
    dsimp only at e
    by_cases hne : ck ≠ v 0
    · rw [if_pos hne] at e
      cases e
    · rw [if_neg hne] at e
      have e := Except.ok.inj e
      subst e
      exact key _ _ _ _ _ _ _ _ _ _

theorem fillRowsPartial_within (rows : List (RowData F)) : ∀ {offset : ℕ} {st : FillState F}
    {w : W F (List (WordPair F))}, fillRowsPartial legacy STEP native cfg s offset st rows = .ok w →
    WithinW s (offset + rows.length) w := by
  induction rows with
  | nil =>
    intro offset st w e
    have : (Except.ok (pure []) : Except Panic (W F (List (WordPair F)))) = .ok w := e
    injection this with this
    subst this
    exact .pure _
  | cons row rows ih =>
    intro offset st w e
    simp only [fillRowsPartial, bind, Except.bind, pure, Except.pure] at e
    split at e
    · cases e
    rename_i x hx
    split at e
    · cases e
    rename_i y hy
    injection e with e
    subst e
    intro o ho
    rcases List.mem_append.mp ho with ho | ho
    · exact fillRowPartial_within legacy STEP native cfg (by simp only [List.length_cons]; omega) hx o ho
    · refine Op.Within.mono (ih hy o ho) ?_
      simp only [List.length_cons]; omega

theorem shapeRows_partial (data : List (RowData F)) :
    Layouter.shapeRows (fillPartialShape cfg data) = data.length - 1 + 1 := by
  simp [Layouter.shapeRows, fillPartialShape, assignAdvice, Op.bottom]

/-- A chunk of the table writes one row per item. -/
theorem fillPartial_within {data : List (RowData F)} {last : Bool} {w : W F (List (WordPair F))}
    (e : fillPartial legacy STEP native cfg data last s = .ok w) : WithinW s (data.length - 1 + 1) w := by
  unfold fillPartial at e
  obtain ⟨x, hx, e⟩ := bind_ok e
  have e := Except.ok.inj e
  subst e
  have h1 : WithinW s (data.length - 1 + 1) x :=
    (fillRowsPartial_within legacy STEP native cfg data hx).mono (by omega)
  refine WithinW.bind h1 fun _ => ?_
  split_ifs
  · exact WithinW.bind (withinW_selector _ _ (by omega)) fun _ => .pure _
  · exact .pure _

end Table

/-! ## Chips -/

/-- Whatever the schedule, `permute_batch` of the configured chip has the same outcome up to the order of
the log. -/
def Chip.ThreadSafe (ch : Chip F 3) : Prop :=
  ∀ (cs : CS F) (p : List (Op F)) (L L' : Layouter F) (τ : Scheduler F) (threads : ℕ) (ws : List (Words F 3)),
    Layouter.Sim p L L' → τ.Fair → Layouter.SimOut p (ch.permuteBatchBy τ (ch.configure cs).1 threads L ws)
      (ch.permuteBatch (ch.configure cs).1 threads L' ws)

theorem mapPermute_sim {p : List (Op F)} {T : ℕ}
    (permute : Layouter F → Words F T → Except Panic (Words F T × Layouter F))
    (hp : ∀ L L' w, Layouter.Sim p L L' → Layouter.SimOut p (permute L w) (permute L' w)) :
    ∀ (ws : List (Words F T)) (L L' : Layouter F), Layouter.Sim p L L' →
      Layouter.SimOut p (mapPermute permute L ws) (mapPermute permute L' ws)
  | [], L, L', h => ⟨rfl, h⟩
  | w :: ws, L, L', h => by
    refine (hp L L' w h).bind fun o M M' hM => ?_
    exact (mapPermute_sim permute hp ws M M' hM).bind fun os N N' hN => ⟨rfl, hN⟩

theorem Pow5.threadSafe (S : Pow5.Params F 2) : (Pow5.chip S).ThreadSafe := by
  intro cs p L L' τ threads ws h _
  generalize ((Pow5.chip S).configure cs).1 = c
  exact mapPermute_sim (Pow5.permute S c) (fun L L' w h => Layouter.assignRegion_sim h _) ws L L' h

theorem Septidon.threadSafe (m : Base.Mds F 3) (rc : ℕ → Fin 3 → F) : (Septidon.chip m rc).ThreadSafe := by
  intro cs p L L' τ threads ws h hτ
  have hc : ((Septidon.chip m rc).configure cs).1 = Septidon.config cs.numAdvice cs.numFixed := by
    show (Septidon.configure m rc cs).1 = _
    rw [Septidon.configure_eq]
  rw [hc]
  refine Layouter.SimOut.bind (Layouter.assignRegionsBy_sim h hτ (.advice (cs.numAdvice + 12)) _ ?_ ?_)
    fun o M M' hM => ⟨rfl, hM⟩
  · intro it hit
    obtain ⟨chunk, -, rfl⟩ := List.mem_map.mp hit
    simp [Layouter.shapeCols, Op.rcol, Septidon.finalColumn]
  · intro it hit s w e o ho
    obtain ⟨chunk, hch, rfl⟩ := List.mem_map.mp hit
    injection e with e
    subst e
    have hw := Septidon.batchBody_within m rc cs.numAdvice cs.numFixed chunk 0 o ho
    refine Op.Within.mono hw ?_
    simp only [Layouter.shapeRows, List.map_cons, List.map_nil, Op.bottom, List.foldl_cons, List.foldl_nil]
    omega

/-! ## `load` -/

section
variable [DecidableEq F] (legacy : Bool) (STEP : ℕ) (native : (Fin 3 → F) → Except Panic (Fin 3 → F))

theorem assignParallelBy_sim {P : Type} (cfg : SpongeConfig P) {p : List (Op F)} {L : Layouter F} (h : p <+: L.ops)
    {σ : Scheduler F} (hσ : σ.Fair) (t : HashTable F) (calcs threads : ℕ) :
    Layouter.SimOut p (assignParallelBy legacy STEP native cfg σ t calcs threads L)
      (assignParallel legacy STEP native cfg t calcs threads L) := by
  refine Layouter.SimOut.bind (Layouter.assignRegion_sim (.refl L h) _) fun _ M M' hM => ?_
  refine Layouter.SimOut.bind (Layouter.assignRegionsBy_sim hM hσ (.advice (cfg.aux 0)) _ ?_ ?_)
    fun o N N' hN => ⟨rfl, hN⟩
  · intro it hit
    obtain ⟨q, -, rfl⟩ := List.mem_map.mp hit
    simp [Layouter.shapeCols, Op.rcol, fillPartialShape, assignAdvice]
  · intro it hit s w e o ho
    obtain ⟨q, -, rfl⟩ := List.mem_map.mp hit
    simp only [Table.shapeRows_partial]
    exact Table.fillPartial_within legacy STEP native cfg e o ho

end

theorem permuteConfig_eq (ch : Chip F 3) (legacy : Bool) (q : ℕ) (ht : Fin 6 → ℕ) (step : ℕ) (cs : CS F) :
    ∃ cs', (configureSub ch legacy q ht step cs).1.permuteConfig = (ch.configure cs').1 := by
  unfold configureSub
  simp only [bind, StateT.bind, pure, StateT.pure]
  exact ⟨_, rfl⟩

theorem Run.loadBy_serial [DecidableEq F] {x : Run F} (hm : x.mode = .serial) (σ τ : Scheduler F) :
    x.loadBy σ τ = x.load := by
  unfold Run.loadBy Run.load Circuit.loadBy Circuit.load
  rw [hm]

theorem Run.loadBy_sim [DecidableEq F] {x : Run F} (hch : x.ch.ThreadSafe) {threads : ℕ}
    (hm : x.mode = .parallel threads) {σ τ : Scheduler F} (hσ : σ.Fair) (hτ : τ.Fair) :
    match x.loadBy σ τ, x.load with
      | .ok L, .ok L' => Layouter.Sim x.before.ops L L'
      | .error e, .error e' => e = e'
      | _, _ => False := by
  have hpre : x.before.ops <+: (x.before.assignTable x.configured.1.stepRange (rangeEntries x.legacy x.STEP)).ops := by
    simp [Layouter.assignTable]
  obtain ⟨cs, hcfg⟩ := permuteConfig_eq x.ch x.legacy x.qEnable x.hashTable x.step x.cs
  have key : Layouter.SimOut x.before.ops (x.loadBy σ τ >>= fun L => .ok ((), L)) (x.load >>= fun L => .ok ((), L)) := by
    unfold Run.loadBy Run.load Circuit.loadBy Circuit.load
    rw [hm]
    simp only [bind_assoc, pure_bind]
    refine Layouter.SimOut.bind (assignParallelBy_sim _ _ _ _ hpre hσ _ _ _) fun pairs M M' hM => ?_
    have h2 := hch cs x.before.ops M M' τ threads (pairs.map Prod.fst) hM hτ
    rw [← hcfg] at h2
    refine Layouter.SimOut.bind h2 fun finals N N' hN => ?_
    exact Layouter.SimOut.bind (Layouter.assignRegion_sim hN _) fun _ O O' hO => ⟨rfl, hO⟩
  revert key
  cases x.loadBy σ τ <;> cases x.load <;> intro key
  · exact key
  · exact key
  · exact key
  · exact key.2

end Circuit
