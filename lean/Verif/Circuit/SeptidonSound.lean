import Verif.Circuit.SeptidonRun

/-!
# Septidon chip: from synthesis logs to grids
-/

set_option linter.unusedVariables false
set_option linter.unusedSectionVars false
set_option linter.unusedSimpArgs false

open Halo2

namespace Circuit.Septidon

variable {F : Type} [Field F]

/-- Value written to the advice cell `(c, r)` of the block at `p`. -/
def advAt (a : ℕ) (m : Base.Mds F 3) (rc : ℕ → Fin 3 → F) (x : Fin 3 → F) (p c r : ℕ) : F :=
  if c - a < 3 then St m rc (fullIdx (r - p)) x (Fin.ofNat 3 (c - a))
  else if c - a = 12 then
    if r - p = 0 ∨ r - p = 4 then 0
    else if r - p < 4 then St m rc 4 x (Fin.ofNat 3 (r - p - 1))
    else St m rc 65 x (Fin.ofNat 3 (r - p - 5))
  else if c - a = 4 then St m rc (5 + (r - p) * 7) x 1
  else if c - a = 5 then St m rc (5 + (r - p) * 7) x 2
  else if c - a = 3 then St m rc (5 + (r - p) * 7) x 0
  else St m rc (5 + (r - p) * 7 + (c - a - 5)) x 0

/-- Value written to the fixed cell `(c, r)` of the block at `p`. -/
def fixAt (f : ℕ) (rc : ℕ → Fin 3 → F) (p c r : ℕ) : F :=
  if c = f then 1
  else if c - f < 4 then rc (fullIdx (r - p)) (Fin.ofNat 3 (c - f - 1))
  else rc (5 + (r - p) * 7 + (c - f - 4)) 0

section
variable {a f : ℕ} {m : Base.Mds F 3} {rc : ℕ → Fin 3 → F} {x : Fin 3 → F} {p : ℕ}

theorem fin_ofNat (i : Fin 3) : Fin.ofNat 3 (i : ℕ) = i := by
  fin_cases i <;> rfl

theorem BlockOp.advice_value {c r : ℕ} {v : F} (h : BlockOp a f m rc x p (.advice c r v)) :
    v = advAt a m rc x p c r := by
  cases h with
  | fullIn o ho i =>
    simp only [advAt]
    rw [if_pos (by omega), show a + (i : ℕ) - a = i by omega, show p + o - p = o by omega, fin_ofNat]
  | mid i =>
    simp only [advAt]
    rw [if_neg (by omega), if_pos (by omega), if_neg (by omega), if_pos (by omega),
      show p + 1 + (i : ℕ) - p - 1 = i by omega, fin_ofNat]
  | midH =>
    simp only [advAt]
    rw [if_neg (by omega), if_pos (by omega), if_pos (by omega)]
  | lin o ho i =>
    simp only [advAt]
    rw [if_neg (by omega), if_neg (by omega), show p + o - p = o by omega]
    fin_cases i
    · rw [if_pos (by simp)]; rfl
    · rw [if_neg (by simp; omega), if_pos (by simp; omega)]; rfl
  | partIn o ho j hj =>
    simp only [advAt]
    by_cases h0 : j = 0
    · subst h0
      have e : sCol a 0 - a = 3 := by simp [sCol]
      simp only [e]
      simp [show p + o - p = o by omega]
    · have e : sCol a j - a = 5 + j := by simp only [sCol, h0, if_false]; omega
      simp only [e]
      rw [if_neg (by omega), if_neg (by omega), if_neg (by omega), if_neg (by omega),
        if_neg (by omega), show 5 + j - 5 = j by omega, show p + o - p = o by omega]
  | fin i =>
    simp only [advAt]
    rw [if_neg (by omega), if_pos (by omega), if_neg (by omega), if_neg (by omega),
      show p + 5 + (i : ℕ) - p - 5 = i by omega, fin_ofNat]
  | finH =>
    simp only [advAt]
    rw [if_neg (by omega), if_pos (by omega), if_pos (by omega)]

theorem BlockOp.fixed_value {c r : ℕ} {v : F} (h : BlockOp a f m rc x p (.fixed c r v)) :
    v = fixAt f rc p c r := by
  cases h with
  | mark => simp [fixAt]
  | fullRC o ho i =>
    simp only [fixAt]
    rw [if_neg (by omega), if_pos (by omega), show f + 1 + (i : ℕ) - f - 1 = i by omega,
      show p + o - p = o by omega, fin_ofNat]
  | partRC o ho j hj =>
    simp only [fixAt]
    rw [if_neg (by omega), if_neg (by omega), show f + 4 + j - f - 4 = j by omega,
      show p + o - p = o by omega]

theorem BlockOp.mark_row {r : ℕ} {v : F} (h : BlockOp a f m rc x p (.fixed f r v)) :
    r = p + 7 := by
  generalize ho : Op.fixed f r v = op at h
  cases h with
  | mark => cases ho; rfl
  | fullRC o h' i => injection ho with h1; omega
  | partRC o h' j hj => injection ho with h1; omega
  | _ => cases ho

/-- A grid that agrees with the fixed cells of a block. -/
theorem fixedOK_of (g : Grid F)
    (h : ∀ c r v, BlockOp a f m rc x p (.fixed c r v) → g.fixed c r = v) :
    FixedOK rc g (config a f) p := by
  have hfull : ∀ o < 8, fullRC g (config a f) (p + o) = rc (fullIdx o) := by
    intro o ho
    funext i
    have := h _ _ _ (BlockOp.fullRC o ho i)
    fin_cases i <;> exact this
  refine ⟨?_, ?_, ?_⟩
  · intro o ho
    rw [hfull o (by omega), fullIdx, if_pos ho]
  · intro o ho
    rw [Nat.add_assoc, hfull (4 + o) (by omega), fullIdx, if_neg (by omega)]
    congr 1; omega
  · intro o ho
    have hp : ∀ j < 7, g.fixed (f + 4 + j) (p + o) = rc (5 + o * 7 + j) 0 := fun j hj =>
      h _ _ _ (BlockOp.partRC o ho j hj)
    have e : (sboxes (config a f)).map (fun b => sRC g b (p + o)) =
        (List.range 7).map fun j => g.fixed (f + 4 + j) (p + o) := rfl
    rw [e]
    apply List.map_congr_left
    intro j hj
    exact hp j (List.mem_range.mp hj)

theorem partialCells_of (g : Grid F) (r : ℕ) : ∀ (l : List SBox) (y : Fin 3 → F),
    (∀ j (h : j < l.length), sIn g l[j] r = partialOut m g r (l.take j) y 0) →
    PartialCells m g r l y := by
  intro l
  induction l with
  | nil => intro y _; trivial
  | cons s l ih =>
    intro y h
    refine ⟨h 0 (by simp), ih _ fun j hj => ?_⟩
    exact h (j + 1) (by simpa using hj)

theorem traceOK_of (hc : Compact rc) (g : Grid F) (hf : FixedOK rc g (config a f) p)
    (h : ∀ c r v, BlockOp a f m rc x p (.advice c r v) → g.advice c r = v) :
    TraceOK m rc g (config a f) p x := by
  have hfull : ∀ o < 8, fullIn g (config a f) (p + o) = St m rc (fullIdx o) x := by
    intro o ho
    funext i
    have := h _ _ _ (BlockOp.fullIn o ho i)
    fin_cases i <;> exact this
  have hsept : ∀ o < 8, septIn g (config a f) (p + o) = St m rc (5 + o * 7) x := by
    intro o ho
    funext i
    have h0 := h _ _ _ (BlockOp.partIn o ho 0 (by omega))
    have h1 := h _ _ _ (BlockOp.lin o ho 0)
    have h2 := h _ _ _ (BlockOp.lin o ho 1)
    fin_cases i
    · exact h0
    · exact h1
    · exact h2
  refine ⟨?_, ?_, hsept, ?_, ?_, ?_⟩
  · intro o ho
    rw [hfull o (by omega), fullIdx, if_pos ho]
  · funext i
    have := h _ _ _ (BlockOp.mid i)
    simpa [transIn, config, show p + 3 - 2 = p + 1 by omega] using this
  · intro o ho
    apply partialCells_of
    intro j hj
    have hj7 : j < 7 := by simpa [sboxes, config] using hj
    have hin := h _ _ _ (BlockOp.partIn o ho j hj7)
    have e : (sboxes (config a f))[j] = ⟨⟨sCol a j, 0⟩, f + 4 + j⟩ := sbox_get a f j hj7
    have e' : sIn g (sboxes (config a f))[j] (p + o) = g.advice (sCol a j) (p + o) := by
      rw [e]; rfl
    refine e'.trans ?_
    rw [partialOut_eq, List.map_take, hf.part o ho, ← List.map_take, List.take_range,
      show min j 7 = j by omega, ← St_septuple m rc x hc (5 + o * 7) (by omega) j (by omega)]
    exact hin
  · intro o ho
    rw [Nat.add_assoc, hfull (4 + o) (by omega), fullIdx, if_neg (by omega)]
    congr 1; omega
  · funext i
    have := h _ _ _ (BlockOp.fin i)
    simpa [transIn, config, show p + 7 - 2 = p + 5 by omega] using this

end

/-! ## Placed blocks -/

/-- Log of blocks for the given words at the given rows, in any placement. -/
def placedOps (a f : ℕ) (m : Base.Mds F 3) (rc : ℕ → Fin 3 → F)
    (ps : List ((Fin 3 → ACell F) × ℕ)) : List (Op F) :=
  ps.flatMap fun q => (permuteBody m rc (config a f) q.1 0 q.2).ops

/-- The 8-row regions of different placed blocks are disjoint. -/
def Apart (ps : List ((Fin 3 → ACell F) × ℕ)) : Prop :=
  ps.Pairwise fun q q' => q.2 + 8 ≤ q'.2 ∨ q'.2 + 8 ≤ q.2

theorem Apart.mem {ps : List ((Fin 3 → ACell F) × ℕ)} (h : Apart ps) :
    ∀ q ∈ ps, ∀ q' ∈ ps, q = q' ∨ q.2 + 8 ≤ q'.2 ∨ q'.2 + 8 ≤ q.2 := by
  induction ps with
  | nil => simp
  | cons x ps ih =>
    obtain ⟨h1, h2⟩ := List.pairwise_cons.mp h
    intro q hq q' hq'
    rcases List.mem_cons.mp hq with e | hq1 <;> rcases List.mem_cons.mp hq' with e' | hq1'
    · exact Or.inl (e.trans e'.symm)
    · exact Or.inr (e ▸ h1 q' hq1')
    · exact Or.inr (e' ▸ (h1 q hq1).symm)
    · exact ih h2 q hq1 q' hq1'

section
variable (a f : ℕ) (m : Base.Mds F 3) (rc : ℕ → Fin 3 → F) (hc : Compact rc)
  (ps : List ((Fin 3 → ACell F) × ℕ))
include hc

theorem mem_placedOps (op : Op F) :
    op ∈ placedOps a f m rc ps ↔
      ∃ q ∈ ps, BlockOp a f m rc (fun k => (q.1 k).value) q.2 op ∨
          ∃ k : Fin 3, op = .copy ⟨.advice (a + k), q.2⟩ (q.1 k).cell := by
  simp only [placedOps, List.mem_flatMap, mem_permuteBody a f m rc hc]

variable (hd : Apart ps)
include hd

/-- The fixed cells of the blocks, in the final circuit. -/
theorem final_fixed (q : (Fin 3 → ACell F) × ℕ) (hq : q ∈ ps) (c r : ℕ) (v : F)
    (h : BlockOp a f m rc (fun k => (q.1 k).value) q.2 (.fixed c r v)) :
    finalFixed (placedOps a f m rc ps) c r = v := by
  apply finalFixed_eq
  · exact ⟨_, (mem_placedOps a f m rc hc ps _).mpr ⟨q, hq, Or.inl h⟩, Or.inl rfl⟩
  · intro o ho v' hw
    obtain ⟨q', hq', h' | ⟨k, h'⟩⟩ := (mem_placedOps a f m rc hc ps o).mp ho
    · rcases hw with rfl | ⟨r', _, rfl⟩
      · have hij : q = q' := by
          rcases h.shape with ⟨_, _, _, e, _⟩ | ⟨_, _, _, e, _, _, h1, h2⟩
          · cases e
          · rcases h'.shape with ⟨_, _, _, e', _⟩ | ⟨_, _, _, e', _, _, h1', h2'⟩
            · cases e'
            · cases e; cases e'
              rcases hd.mem q hq q' hq' with h | h | h
              · exact h
              · omega
              · omega
        subst hij
        rw [h.fixed_value, h'.fixed_value]
      · rcases h'.shape with ⟨_, _, _, e, _⟩ | ⟨_, _, _, e, _⟩ <;> cases e
    · subst h'
      rcases hw with h | ⟨_, _, h⟩ <;> cases h

theorem final_advice (q : (Fin 3 → ACell F) × ℕ) (hq : q ∈ ps) (c r : ℕ) (v : F)
    (h : BlockOp a f m rc (fun k => (q.1 k).value) q.2 (.advice c r v)) :
    finalAdvice (placedOps a f m rc ps) c r = v := by
  apply finalAdvice_eq
  · exact (mem_placedOps a f m rc hc ps _).mpr ⟨q, hq, Or.inl h⟩
  · intro v' ho
    obtain ⟨q', hq', h' | ⟨k, h'⟩⟩ := (mem_placedOps a f m rc hc ps _).mp ho
    · have hij : q = q' := by
        rcases h.shape with ⟨_, _, _, e, _, _, h1, h2⟩ | ⟨_, _, _, e, _⟩
        · rcases h'.shape with ⟨_, _, _, e', _, _, h1', h2'⟩ | ⟨_, _, _, e', _⟩
          · cases e; cases e'
            rcases hd.mem q hq q' hq' with h | h | h
            · exact h
            · omega
            · omega
          · cases e'
        · cases e
      subst hij
      rw [h.advice_value, h'.advice_value]
    · cases h'

omit hd in
theorem final_mark_zero (r : ℕ) (h : ∀ q ∈ ps, r ≠ q.2 + 7) :
    finalFixed (placedOps a f m rc ps) f r = 0 := by
  apply finalFixed_zero
  intro o ho v' hw
  obtain ⟨q, hq, h' | ⟨k, h'⟩⟩ := (mem_placedOps a f m rc hc ps o).mp ho
  · rcases hw with rfl | ⟨r', _, rfl⟩
    · exact h q hq h'.mark_row
    · rcases h'.shape with ⟨_, _, _, e, _⟩ | ⟨_, _, _, e, _⟩ <;> cases e
  · subst h'
    rcases hw with h | ⟨_, _, h⟩ <;> cases h

omit hd in
theorem fits_blocks (n : ℕ) (hfit : Fits (placedOps a f m rc ps) n)
    (q : (Fin 3 → ACell F) × ℕ) (hq : q ∈ ps) : q.2 + 8 ≤ n := by
  have := hfit _ ((mem_placedOps a f m rc hc ps _).mpr ⟨q, hq, Or.inl .mark⟩)
  simpa [Op.bottom] using this

theorem marks_of (g : Grid F) (hfit : Fits (placedOps a f m rc ps) g.n)
    (hfix : ∀ r < g.n, g.fixed f r = finalFixed (placedOps a f m rc ps) f r) :
    Marks g f (ps.map Prod.snd) := by
  have hfits := fits_blocks a f m rc hc ps g.n hfit
  refine ⟨?_, ?_, ?_, ?_⟩
  · intro t ht
    obtain ⟨q, hq, rfl⟩ := List.mem_map.mp ht
    exact hfits q hq
  · intro t ht u hu
    obtain ⟨q, hq, rfl⟩ := List.mem_map.mp ht
    obtain ⟨q', hq', rfl⟩ := List.mem_map.mp hu
    rcases hd.mem q hq q' hq' with rfl | h | h <;> omega
  · intro t ht
    obtain ⟨q, hq, rfl⟩ := List.mem_map.mp ht
    have := hfits q hq
    rw [hfix _ (by omega)]
    exact final_fixed a f m rc hc ps hd q hq _ _ _ .mark
  · intro r hr h
    rw [hfix r hr]
    exact final_mark_zero a f m rc hc ps r fun q hq => h _ (List.mem_map.mpr ⟨q, hq, rfl⟩)

/-- Soundness for placed blocks. -/
theorem placed_sound (g : Grid F) (hfit : Fits (placedOps a f m rc ps) g.n)
    (hfix : ∀ c, f ≤ c → c < f + 11 → ∀ r < g.n,
      g.fixed c r = finalFixed (placedOps a f m rc ps) c r)
    (hgates : ∀ p ∈ gates m rc (config a f), p.Holds g) (q : (Fin 3 → ACell F) × ℕ) (hq : q ∈ ps) :
    transIn g (config a f) (q.2 + 7) = perm m rc (fullIn g (config a f) q.2) := by
  have hm := marks_of a f m rc hc ps hd g hfit (fun r hr => hfix f le_rfl (by omega) r hr)
  have hb := (gates_iff a f m rc g _ hm).mp hgates q.2 (List.mem_map.mpr ⟨q, hq, rfl⟩)
  have hn := fits_blocks a f m rc hc ps g.n hfit q hq
  have hf : FixedOK rc g (config a f) q.2 := by
    refine fixedOK_of (a := a) (m := m) (x := fun k => (q.1 k).value) g fun c r v h => ?_
    rcases h.shape with ⟨_, _, _, e, _⟩ | ⟨_, _, _, e, h1, h2, h3, h4⟩
    · cases e
    · cases e
      rw [hfix c h1 h2 r (by omega)]
      exact final_fixed a f m rc hc ps hd q hq c r v h
  exact (trace_of_block hc hf hb).fin

/-- Completeness for placed blocks. -/
theorem placed_complete (g : Grid F)
    (hu : g.usable ≤ g.n) (hfit : Fits (placedOps a f m rc ps) g.usable)
    (hfix : ∀ c, f ≤ c → c < f + 11 → ∀ r < g.n,
      g.fixed c r = finalFixed (placedOps a f m rc ps) c r)
    (hadv : ∀ c, a ≤ c → c < a + 13 → ∀ r < g.usable,
      g.advice c r = finalAdvice (placedOps a f m rc ps) c r) :
    (∀ p ∈ gates m rc (config a f), p.Holds g) ∧
    ∀ q ∈ ps, fullIn g (config a f) q.2 = (fun k => (q.1 k).value) ∧
      transIn g (config a f) (q.2 + 7) = perm m rc (fun k => (q.1 k).value) := by
  have hfit' : Fits (placedOps a f m rc ps) g.n := fun o ho => le_trans (hfit o ho) hu
  have hm := marks_of a f m rc hc ps hd g hfit' (fun r hr => hfix f le_rfl (by omega) r hr)
  have htr : ∀ q ∈ ps, FixedOK rc g (config a f) q.2 ∧
      TraceOK m rc g (config a f) q.2 (fun k => (q.1 k).value) := by
    intro q hq
    have hn := fits_blocks a f m rc hc ps g.usable hfit q hq
    have hf : FixedOK rc g (config a f) q.2 := by
      refine fixedOK_of (a := a) (m := m) (x := fun k => (q.1 k).value) g fun c r v h => ?_
      rcases h.shape with ⟨_, _, _, e, _⟩ | ⟨_, _, _, e, h1, h2, h3, h4⟩
      · cases e
      · cases e
        rw [hfix c h1 h2 r (by omega)]
        exact final_fixed a f m rc hc ps hd q hq c r v h
    refine ⟨hf, traceOK_of hc g hf fun c r v h => ?_⟩
    rcases h.shape with ⟨_, _, _, e, h1, h2, h3, h4⟩ | ⟨_, _, _, e, _⟩
    · cases e
      rw [hadv c h1 h2 r (by omega)]
      exact final_advice a f m rc hc ps hd q hq c r v h
    · cases e
  refine ⟨(gates_iff a f m rc g _ hm).mpr fun t ht => ?_, fun q hq => ?_⟩
  · obtain ⟨q, hq, rfl⟩ := List.mem_map.mp ht
    exact block_of_trace hc (htr q hq).1 (htr q hq).2
  · have := (htr q hq).2
    exact ⟨by simpa using this.full1 0 (by norm_num), this.fin⟩

end

/-! ## Consecutive blocks -/

theorem blocksOps_eq (a f : ℕ) (m : Base.Mds F 3) (rc : ℕ → Fin 3 → F) :
    ∀ (ws : List (Fin 3 → ACell F)) (s : ℕ),
      blocksOps a f m rc ws s = placedOps a f m rc (placeAt ws (stack 8 s))
  | [], s => rfl
  | w :: ws, s => by
    rw [placeAt_stack]
    simp only [blocksOps, placedOps, List.flatMap_cons]
    rw [blocksOps_eq a f m rc ws (s + 8)]; rfl

theorem blocksOut_eq (a : ℕ) (m : Base.Mds F 3) (rc : ℕ → Fin 3 → F) :
    ∀ (ws : List (Fin 3 → ACell F)) (s : ℕ),
      blocksOut a m rc ws s = (placeAt ws (stack 8 s)).map fun q => outWords a m rc q.1 q.2
  | [], s => rfl
  | w :: ws, s => by
    rw [placeAt_stack]
    simp only [blocksOut, List.map_cons]
    rw [blocksOut_eq a m rc ws (s + 8)]

/-! ## Independence of the witness -/

section
variable (a f : ℕ) (m : Base.Mds F 3) (rc : ℕ → Fin 3 → F)

theorem loop_erase {α : Type} (k k' : ℕ → α → W F α)
    (h : ∀ o x y, (k o x).ops.map Op.erase = (k' o y).ops.map Op.erase) (n : ℕ) (x y : α) :
    (W.loop k n x).ops.map Op.erase = (W.loop k' n y).ops.map Op.erase := by
  induction n with
  | zero => rfl
  | succ n ih => simp only [W.loop, W.bind_ops, List.map_append, ih, h n _ (W.loop k' n y).val]

theorem fullAssign_erase (start : ℕ) (full : Fin 3 → SBox) (o : ℕ) (k x y : Fin 3 → F) :
    (fullAssign m start full o k x).ops.map Op.erase =
      (fullAssign m start full o k y).ops.map Op.erase := rfl

theorem assignPartialRounds_erase (start o : ℕ) (l : List (SBox × F)) : ∀ x y : Fin 3 → F,
    (assignPartialRounds m start o l x).ops.map Op.erase =
      (assignPartialRounds m start o l y).ops.map Op.erase := by
  induction l with
  | nil => intro x y; rfl
  | cons h l ih =>
    obtain ⟨s, k⟩ := h
    intro x y
    simp only [assignPartialRounds, W.bind_ops, List.map_append]
    congr 1
    exact ih _ _

theorem septupleAssign_erase (start : ℕ) (c : Septuple) (o : ℕ) (ks : List F) (x y : Fin 3 → F) :
    (septupleAssign m start c o ks x).ops.map Op.erase =
      (septupleAssign m start c o ks y).ops.map Op.erase := by
  simp only [septupleAssign, W.bind_ops, List.map_append]
  rw [assignPartialRounds_erase m start o _ x y]
  rfl

theorem bind_erase {α β : Type} (x x' : W F α) (k k' : α → W F β)
    (h : x.ops.map Op.erase = x'.ops.map Op.erase)
    (h' : ∀ u v, (k u).ops.map Op.erase = (k' v).ops.map Op.erase) :
    (x >>= k).ops.map Op.erase = (x' >>= k').ops.map Op.erase := by
  simp only [W.bind_ops, List.map_append, h, h' x.val x'.val]

theorem assignPermutation_erase (c : Config) (start b : ℕ) (x y : Fin 3 → F) :
    (assignPermutation m rc c start x b).ops.map Op.erase =
      (assignPermutation m rc c start y b).ops.map Op.erase := by
  unfold assignPermutation
  refine bind_erase _ _ _ _ rfl fun _ _ => ?_
  refine bind_erase _ _ _ _ ?_ fun u v => ?_
  · apply loop_erase
    intro o x y
    apply fullAssign_erase
  refine bind_erase _ _ _ _ rfl fun u v => ?_
  refine bind_erase _ _ _ _ ?_ fun u v => ?_
  · apply loop_erase
    intro o x y
    apply septupleAssign_erase
  refine bind_erase _ _ _ _ ?_ fun u v => ?_
  · apply loop_erase
    intro o x y
    apply fullAssign_erase
  exact bind_erase _ _ _ _ rfl fun _ _ => rfl

theorem copyAdvice_erase (w w' : ACell F) (h : w.cell = w'.cell) (start col o : ℕ) :
    (copyAdvice w start col o).ops.map Op.erase = (copyAdvice w' start col o).ops.map Op.erase := by
  simp only [copyAdvice, List.map_cons, List.map_nil, Op.erase, h]

theorem permuteBody_erase (c : Config) (w w' : Fin 3 → ACell F) (b start : ℕ)
    (h : ∀ k, (w k).cell = (w' k).cell) :
    (permuteBody m rc c w b start).ops.map Op.erase =
      (permuteBody m rc c w' b start).ops.map Op.erase := by
  unfold permuteBody
  refine bind_erase _ _ _ _ (copyAdvice_erase _ _ (h 0) _ _ _) fun _ _ => ?_
  refine bind_erase _ _ _ _ (copyAdvice_erase _ _ (h 1) _ _ _) fun _ _ => ?_
  refine bind_erase _ _ _ _ (copyAdvice_erase _ _ (h 2) _ _ _) fun _ _ => ?_
  refine bind_erase _ _ _ _ (assignPermutation_erase m rc c start b _ _) fun _ _ => ?_
  refine bind_erase _ _ _ _ rfl fun _ _ => ?_
  refine bind_erase _ _ _ _ rfl fun _ _ => ?_
  exact bind_erase _ _ _ _ rfl fun _ _ => rfl

theorem placedOps_erase (ws ws' : List (Fin 3 → ACell F)) (p : ℕ → ℕ) (h : cells ws = cells ws') :
    (placedOps a f m rc (placeAt ws p)).map Op.erase =
      (placedOps a f m rc (placeAt ws' p)).map Op.erase := by
  simp only [placedOps, List.map_flatMap]
  exact flatMap_placeAt _ (fun w w' s hw => permuteBody_erase m rc _ w w' 0 s hw) ws ws' p h

theorem placedOut_cells (ws ws' : List (Fin 3 → ACell F)) (p : ℕ → ℕ) (h : cells ws = cells ws') :
    cells ((placeAt ws p).map fun q => outWords a m rc q.1 q.2) =
      cells ((placeAt ws' p).map fun q => outWords a m rc q.1 q.2) := by
  simp only [cells, List.map_map]
  rw [List.map_eq_flatMap, List.map_eq_flatMap]
  exact flatMap_placeAt (fun q => [fun k => (outWords a m rc q.1 q.2 k).cell])
    (fun w w' s hw => rfl) ws ws' p h

end

/-! ## The chip -/

/-- `SeptidonChip` as a permutation chip: `impl PermuteChip`, instruction.rs:15-163. -/
def chip (m : Base.Mds F 3) (rc : ℕ → Fin 3 → F) : Chip F 3 where
  Config := Config
  configure := configure m rc
  permute := permute m rc
  permuteBatch := permuteBatch m rc
  permuteBatchBy := permuteBatchBy m rc

theorem outWords_cell (a : ℕ) (m : Base.Mds F 3) (rc : ℕ → Fin 3 → F) (f : ℕ) (g : Grid F)
    (w : Fin 3 → ACell F) (p : ℕ) (k : Fin 3) :
    g.cell (outWords a m rc w p k).cell = transIn g (config a f) (p + 7) k := by
  simp [outWords, Grid.cell, transIn, config, show p + 7 - 2 = p + 5 by omega]

theorem fullIn_apply (a f : ℕ) (g : Grid F) (p : ℕ) (k : Fin 3) :
    fullIn g (config a f) p k = g.advice (a + k) p := by
  fin_cases k <;> rfl

theorem septupleLoop_within (A B S : ℕ → Prop) (m : Base.Mds F 3) (ss : List SBox) :
    ∀ (ck : SBox) (st : Fin 3 → Expr F), (∀ s ∈ ck :: ss, A s.input.column ∧ B s.roundConstant) →
      (∀ i, (st i).Within A B S) →
      (∀ e ∈ (septupleLoop m ck st ss).1, e.Within A B S) ∧
        ∀ i, ((septupleLoop m ck st ss).2 i).Within A B S := by
  have hp : ∀ (ck : SBox) (st : Fin 3 → Expr F), A ck.input.column ∧ B ck.roundConstant →
      (∀ i, (st i).Within A B S) → ∀ i, (partialRoundExpr m ck st i).Within A B S := by
    intro ck st hck hst i
    simp [partialRoundExpr, matmulExpr, SBox.outputExpr, sboxExpr, pow5Expr, SBox.inputExpr, SBox.rcExpr,
      RelCell.query, hck, hst]
  induction ss with
  | nil => exact fun ck st hck hst => ⟨by simp [septupleLoop], hp ck st (hck ck (by simp)) hst⟩
  | cons s ss ih =>
    intro ck st hck hst
    have h1 := hp ck st (hck ck (by simp)) hst
    have h2 := ih s (partialRoundExpr m ck st) (fun s' hs' => hck s' (List.mem_cons_of_mem _ hs')) h1
    refine ⟨fun e he => ?_, h2.2⟩
    rcases List.mem_cons.mp he with rfl | he
    · rw [Expr.within_sub]
      exact ⟨h1 0, (hck s (by simp)).1⟩
    · exact h2.1 e he

theorem septExprs_within (a f : ℕ) (m : Base.Mds F 3) (S : ℕ → Prop) :
    (∀ e ∈ (septExprs m (config a f)).1, e.Within (fun c => a ≤ c ∧ c < a + 13)
      (fun c => f ≤ c ∧ c < f + 11) S) ∧
    ∀ i, ((septExprs m (config a f)).2 i).Within (fun c => a ≤ c ∧ c < a + 13)
      (fun c => f ≤ c ∧ c < f + 11) S := by
  refine septupleLoop_within _ _ S m _ _ _ ?_ ?_
  · simp [config]
  · intro i
    fin_cases i <;> simp [config, RelCell.query, Septuple.input]

theorem gates_within (a f : ℕ) (m : Base.Mds F 3) (rc : ℕ → Fin 3 → F) (S : ℕ → Prop) :
    ∀ p ∈ gates m rc (config a f), ∀ e ∈ p.polys, e.Within (fun c => a ≤ c ∧ c < a + 13)
      (fun c => f ≤ c ∧ c < f + 11) S := by
  have hq : (qExpr (F := F) (config a f)).Within (fun c => a ≤ c ∧ c < a + 13)
      (fun c => f ≤ c ∧ c < f + 11) S := by
    simp [qExpr, deriveSelector, config, List.range_succ]
  have hs := septExprs_within a f m S
  intro p hp e he
  simp only [gates, List.mem_cons, List.not_mem_nil, or_false] at hp
  rcases hp with rfl | rfl | rfl | rfl | rfl | rfl | rfl
  · simp only [gateQuery, List.mem_singleton] at he; subst he; trivial
  · simp only [gateQuery, List.mem_singleton] at he; subst he; trivial
  · simp only [gateQuery, List.mem_singleton] at he; subst he; trivial
  · obtain ⟨e', he', rfl⟩ := List.mem_map.mp he
    exact ⟨hq, hs.1 e' he'⟩
  · obtain ⟨e', he', rfl⟩ := List.mem_map.mp he
    obtain ⟨i, -, rfl⟩ := List.mem_map.mp he'
    fin_cases i <;> simp [firstPartialRoundExpr, matmulExpr, sboxExpr, pow5Expr, transitionInput, config,
      RelCell.query, Septuple.input]
  · obtain ⟨e', he', rfl⟩ := List.mem_map.mp he
    obtain ⟨i, -, rfl⟩ := List.mem_map.mp he'
    refine ⟨hq, ?_⟩
    fin_cases i <;> simp [fullRoundExpr, selectExpr, matmulExpr, sboxExpr, pow5Expr, transitionInput, config,
      RelCell.query, SBox.outputExpr, SBox.inputExpr, SBox.rcExpr]
  · obtain ⟨e', he', rfl⟩ := List.mem_map.mp he
    obtain ⟨i, -, rfl⟩ := List.mem_map.mp he'
    refine ⟨hq, ?_⟩
    have := hs.2 i
    rw [Expr.within_sub]
    refine ⟨?_, this⟩
    fin_cases i <;> simp [selectExpr, config, RelCell.query, RelCell.rotated, Septuple.input]

/-- The Septidon chip computes the textbook permutation, for all compact constants. -/
def lawful (m : Base.Mds F 3) (rc : ℕ → Fin 3 → F) (hc : Compact rc) :
    (chip m rc).Lawful (perm m rc) where
  nA := 13
  nF := 11
  nS := 0
  height := 8
  cfg a f _ := config a f
  gates a f _ := gates m rc (config a f)
  eqs a _ _ := [.advice a, .advice (a + 1), .advice (a + 2), .advice (a + 12), .advice (a + 12),
    .advice (a + 12)]
  ops a f _ ws p := placedOps a f m rc (placeAt ws p)
  outs a _ _ ws p := (placeAt ws p).map fun q => outWords a m rc q.1 q.2
  ops_nil _ _ _ _ := rfl
  ops_cons a f _ w ws p := by simp [placedOps, placeAt]
  outs_nil _ _ _ _ := rfl
  outs_cons _ _ _ _ _ _ := rfl
  configure_eq cs := configure_eq m rc cs
  within a f σ := gates_within a f m rc _
  eqs_own a f σ c hc := by
    simp only [List.mem_cons, List.not_mem_nil, or_false] at hc
    rcases hc with rfl | rfl | rfl | rfl | rfl | rfl <;>
      exact Or.inl ⟨_, rfl, by omega, by omega⟩
  keySerial a f _ := ChipCol a f
  keyBatch a _ _ k := k = .advice (a + 12)
  key_own a f _ k hk := by
    rcases hk with (h | h) | rfl
    · exact Or.inl h
    · exact Or.inr (Or.inl h)
    · exact Or.inl ⟨12, by norm_num, rfl⟩
  serial a f _ L ws := by
    cases ws with
    | nil => exact ⟨0, L, rfl, by simp [placedOps, placeAt], fun _ _ _ => rfl, fun h => absurd rfl h,
      fun _ _ => rfl⟩
    | cons w ws =>
      obtain ⟨s, h1, ⟨c, hc1, hc2⟩, L', e, o, -, hk, -⟩ := serial_ok a f m rc hc w ws L
      rw [blocksOut_eq] at e
      rw [blocksOps_eq] at o
      refine ⟨s, L', e, o, fun ha hf _ => ?_, fun _ => ⟨h1, c, hc1, hc2⟩, fun k h => hk k fun h' => h ?_⟩
      rw [← hc2]
      rcases hc1 with ⟨i, hi, rfl⟩ | ⟨i, hi, rfl⟩
      · exact ha i hi
      · exact hf i hi
      rcases h' with h' | h'
      · exact Or.inl h'
      · exact Or.inr (Or.inl h')
  batch a f _ L threads ws := by
    obtain ⟨L', e, o, -, hk, -⟩ := batch_ok a f m rc hc ws threads L _ rfl
    rw [blocksOut_eq] at e
    rw [blocksOps_eq] at o
    exact ⟨_, L', e, o, fun ha _ _ => ha 12 (by norm_num), fun _ => ⟨by rintro c rfl; rfl, _, rfl, rfl⟩,
      fun k h => hk k fun h' => h (Or.inl ⟨12, by norm_num, h'⟩)⟩
  shape a f _ ws p op hop := by
    rw [mem_placedOps a f m rc hc] at hop
    obtain ⟨q, hq, h | ⟨k, h⟩⟩ := hop
    · obtain ⟨-, i, hi, e'⟩ := placeAt_mem ws p q hq
      rw [e'] at h
      rcases h.shape with ⟨c, r, v, e, h4, h5, h6, h7⟩ | ⟨c, r, v, e, h4, h5, h6, h7⟩
      · exact Or.inl ⟨c, r, v, e, h4, h5, i, hi, by omega, by omega⟩
      · exact Or.inr (Or.inl ⟨c, r, v, e, h4, h5, i, hi, by omega, by omega⟩)
    · refine Or.inr (Or.inr (Or.inr ⟨_, _, q.1, k, h, (placeAt_mem ws p q hq).1, ?_⟩))
      fin_cases k <;> simp
  reach a f _ ws p i hi := by
    obtain ⟨q, hq, e⟩ := placeAt_get ws p i hi
    exact ⟨_, (mem_placedOps a f m rc hc _ _).mpr ⟨q, hq, Or.inl .mark⟩,
      by simp only [Op.bottom, e]⟩
  outs_eq a f _ ws p o ho k := by
    obtain ⟨q, -, rfl⟩ := List.mem_map.mp ho
    simp [outWords]
  outs_cells a f _ ws ws' p h := placedOut_cells a m rc ws ws' p h
  ops_erase a f _ ws ws' p h := placedOps_erase a f m rc ws ws' p h
  values a f _ ws p := forall₂_placeAt _ (fun q => outWords a m rc q.1 q.2) ws p fun q _ k => rfl
  sound a f _ ws p g hap hfit hfix _ hcp hg := by
    refine forall₂_placeAt _ _ ws p fun q hq k => ?_
    rw [outWords_cell a m rc f,
      placed_sound a f m rc hc _ (placeAt_apart 8 ws p hap) g hfit hfix hg q hq]
    congr 1
    funext k
    rw [fullIn_apply]
    exact hcp ⟨.advice (a + k), q.2⟩ _ ((mem_placedOps a f m rc hc _ _).mpr ⟨q, hq, Or.inr ⟨k, rfl⟩⟩)
  complete a f _ ws p g hap hu hfit hfix _ hadv := by
    obtain ⟨h1, h2⟩ := placed_complete a f m rc hc _ (placeAt_apart 8 ws p hap) g hu hfit hfix hadv
    refine ⟨h1, ?_, fun hin x y hxy => ?_⟩
    · intro o ho k
      obtain ⟨q, hq, rfl⟩ := List.mem_map.mp ho
      rw [outWords_cell a m rc f, (h2 q hq).2]; rfl
    · obtain ⟨q, hq, h | ⟨k, h⟩⟩ := (mem_placedOps a f m rc hc _ _).mp hxy
      · rcases h.shape with ⟨_, _, _, e, _⟩ | ⟨_, _, _, e, _⟩ <;> cases e
      · cases h
        have := congrFun (h2 q hq).1 k
        rw [fullIn_apply] at this
        exact this.trans (hin q.1 (placeAt_mem ws p q hq).1 k).symm

end Circuit.Septidon
