import Verif.Circuit.SeptidonTrace

/-!
# Septidon chip: exactly which cells `permute` writes
-/

set_option linter.unusedVariables false
set_option linter.unusedSectionVars false
set_option linter.unusedSimpArgs false

open Halo2

namespace Circuit.Septidon

variable {F : Type} [Field F]

/-- Round number of the full round placed on row `o` of a block. -/
def fullIdx (o : ℕ) : ℕ := if o < 4 then o else o + 57

/-- Column of the `j`-th S-box of the septuple round. -/
def sCol (a j : ℕ) : ℕ := if j = 0 then a + 3 else a + 5 + j

/-- The operations of a block placed at row `p` for the initial state `x`. -/
inductive BlockOp (a f : ℕ) (m : Base.Mds F 3) (rc : ℕ → Fin 3 → F) (x : Fin 3 → F) (p : ℕ) :
    Op F → Prop
  | mark : BlockOp a f m rc x p (.fixed f (p + 7) 1)
  | fullRC (o : ℕ) (ho : o < 8) (i : Fin 3) :
      BlockOp a f m rc x p (.fixed (f + 1 + i) (p + o) (rc (fullIdx o) i))
  | fullIn (o : ℕ) (ho : o < 8) (i : Fin 3) :
      BlockOp a f m rc x p (.advice (a + i) (p + o) (St m rc (fullIdx o) x i))
  | mid (i : Fin 3) : BlockOp a f m rc x p (.advice (a + 12) (p + 1 + i) (St m rc 4 x i))
  | midH : BlockOp a f m rc x p (.advice (a + 12) p 0)
  | lin (o : ℕ) (ho : o < 8) (i : Fin 2) :
      BlockOp a f m rc x p (.advice (a + 4 + i) (p + o) (St m rc (5 + o * 7) x i.succ))
  | partRC (o : ℕ) (ho : o < 8) (j : ℕ) (hj : j < 7) :
      BlockOp a f m rc x p (.fixed (f + 4 + j) (p + o) (rc (5 + o * 7 + j) 0))
  | partIn (o : ℕ) (ho : o < 8) (j : ℕ) (hj : j < 7) :
      BlockOp a f m rc x p (.advice (sCol a j) (p + o) (St m rc (5 + o * 7 + j) x 0))
  | fin (i : Fin 3) : BlockOp a f m rc x p (.advice (a + 12) (p + 5 + i) (St m rc 65 x i))
  | finH : BlockOp a f m rc x p (.advice (a + 12) (p + 4) 0)

section
variable (a f : ℕ) (m : Base.Mds F 3) (rc : ℕ → Fin 3 → F) (x : Fin 3 → F) (start b : ℕ)

theorem fullAssign_val (full : Fin 3 → SBox) (o : ℕ) (k : Fin 3 → F) :
    (fullAssign m start full o k x).val = fr m k x := by
  simp only [fullAssign, SBox.assign, W.bind_val, W.pure_val, sboxValue, pow5Value_eq,
    matmulValue_eq, fr, Spec.fullRound]
  congr 1
  funext i
  fin_cases i <;> rfl

theorem fullAssign_ops (o : ℕ) (k : Fin 3 → F) :
    (fullAssign m start (config a f).full o k x).ops =
      [.fixed (f + 1) (start + o) (k 0), .advice a (start + o) (x 0),
       .fixed (f + 2) (start + o) (k 1), .advice (a + 1) (start + o) (x 1),
       .fixed (f + 3) (start + o) (k 2), .advice (a + 2) (start + o) (x 2)] := rfl

theorem assignPartialRounds_val (o : ℕ) (l : List (SBox × F)) :
    ∀ x, (assignPartialRounds m start o l x).val = (l.map Prod.snd).foldl (fun y c => pr m c y) x := by
  induction l with
  | nil => intro x; rfl
  | cons h l ih =>
    obtain ⟨s, k⟩ := h
    intro x
    simp only [assignPartialRounds, W.bind_val, ih, List.map_cons, List.foldl_cons]
    congr 1
    rw [pr_eq, matmulValue_eq]
    simp [SBox.assign, sboxValue]

theorem septupleAssign_val (o : ℕ) (ks : List F) (h7 : ks.length = 7) :
    (septupleAssign m start (config a f).septuple o ks x).val =
      ks.foldl (fun y c => pr m c y) x := by
  simp only [septupleAssign, W.bind_val, assignPartialRounds_val]
  congr 1
  exact List.map_snd_zip (by simp [config, h7])

theorem assignPartialRounds_ops (o : ℕ) (l : List (SBox × F)) :
    ∀ (x : Fin 3 → F) (op : Op F), (∀ s ∈ l, s.1.input.offset = 0) →
      (op ∈ (assignPartialRounds m start o l x).ops ↔
      ∃ j, ∃ h : j < l.length,
        op = .fixed (l[j].1.roundConstant) (start + o) l[j].2 ∨
        op = .advice (l[j].1.input.column) (start + o)
          (((l.take j).map Prod.snd).foldl (fun y c => pr m c y) x 0)) := by
  induction l with
  | nil => intro x op _; simp [assignPartialRounds]
  | cons h l ih =>
    obtain ⟨s, k⟩ := h
    intro x op h0
    have hs : s.input.offset = 0 := h0 (s, k) (by simp)
    have e : matmulValue m ![sboxValue (x 0) k, x 1, x 2] = pr m k x := by
      rw [pr_eq, matmulValue_eq]; simp [sboxValue]
    simp only [assignPartialRounds, W.bind_ops, List.mem_append, SBox.assign, W.bind_val, W.pure_val,
      W.pure_ops, List.append_nil, e]
    rw [ih (pr m k x) op (fun s hs => h0 s (by simp [hs]))]
    simp only [assignFixed, assignAdvice, RelCell.regionOffset, hs, Int.toNat_zero, Nat.add_zero,
      List.mem_singleton]
    constructor
    · rintro ((h | h) | ⟨j, hj, h⟩)
      · exact ⟨0, by simp, Or.inl h⟩
      · exact ⟨0, by simp, Or.inr h⟩
      · exact ⟨j + 1, by simpa using hj, by simpa using h⟩
    · rintro ⟨j, hj, h⟩
      cases j with
      | zero =>
        rcases h with h | h
        · exact Or.inl (Or.inl h)
        · exact Or.inl (Or.inr h)
      | succ j => exact Or.inr ⟨j, by simpa using hj, by simpa using h⟩

/-- The septuple S-boxes of `config a f`, by index. -/
theorem sbox_get (j : ℕ) (hj : j < 7) :
    ((config a f).septuple.first :: (config a f).septuple.following)[j]'(by simpa [config] using hj) =
      ⟨⟨sCol a j, 0⟩, f + 4 + j⟩ := by
  interval_cases j <;> rfl

theorem septupleAssign_ops (o : ℕ) (ks : List F) (h7 : ks.length = 7) (op : Op F) :
    op ∈ (septupleAssign m start (config a f).septuple o ks x).ops ↔
      (op = .advice (a + 4) (start + o) (x 1) ∨ op = .advice (a + 5) (start + o) (x 2)) ∨
      ∃ j, ∃ h : j < 7, op = .fixed (f + 4 + j) (start + o) (ks[j]) ∨
        op = .advice (sCol a j) (start + o) ((ks.take j).foldl (fun y c => pr m c y) x 0) := by
  simp only [septupleAssign, W.bind_ops, List.mem_append]
  rw [assignPartialRounds_ops]
  · have e1 : ∀ v : F, (((config a f).septuple.linears 0).assign start o v).ops =
        [.advice (a + 4) (start + o) v] := by
      intro v
      simp [RelCell.assign, config, assignAdvice]
    have e2 : ∀ v : F, (((config a f).septuple.linears 1).assign start o v).ops =
        [.advice (a + 5) (start + o) v] := by
      intro v
      simp [RelCell.assign, config, assignAdvice]
    rw [e1, e2]
    simp only [List.mem_singleton, or_assoc]
    refine or_congr Iff.rfl (or_congr Iff.rfl ?_)
    have hlen : (((config a f).septuple.first :: (config a f).septuple.following).zip ks).length = 7 := by
      simp [config, h7]
    constructor
    · rintro ⟨j, hj, h⟩
      have hj7 : j < 7 := by omega
      refine ⟨j, hj7, ?_⟩
      simp only [List.getElem_zip, sbox_get a f j hj7] at h
      rcases h with h | h
      · exact Or.inl h
      · right
        rw [h]
        rw [List.map_take, List.map_snd_zip (by simp [config, h7])]
    · rintro ⟨j, hj7, h⟩
      refine ⟨j, by omega, ?_⟩
      simp only [List.getElem_zip, sbox_get a f j hj7]
      rcases h with h | h
      · exact Or.inl h
      · right
        rw [h]
        rw [List.map_take, List.map_snd_zip (by simp [config, h7])]
  · intro s hs
    have := (List.of_mem_zip (a := s.1) (b := s.2) hs).1
    rcases List.mem_cons.mp this with h | h
    · rw [h]; rfl
    · exact following_offset a f _ h

theorem transitionCells_ops (off : ℕ) (h3 : 3 ≤ off) (v : Fin 3 → F) :
    (transitionAssignCells start (a + 12) off v).ops =
      [.advice (a + 12) (start + (off - 2)) (v 0), .advice (a + 12) (start + (off - 1)) (v 1),
       .advice (a + 12) (start + off) (v 2), .advice (a + 12) (start + (off - 3)) 0] := by
  have e2 : ((off : ℤ) + -2).toNat = off - 2 := by omega
  have e1 : ((off : ℤ) + -1).toNat = off - 1 := by omega
  have e3 : ((off : ℤ) + -3).toNat = off - 3 := by omega
  simp [transitionAssignCells, RelCell.assign, transitionInput, transitionHelper, assignAdvice,
    e1, e2, e3]

variable (hc : Compact rc)

theorem loop1_val (o : ℕ) (ho : o ≤ 4) : (W.loop (fun o s => fullAssign m start (config a f).full
    (o + b) (rc o) s) o x).val = St m rc o x := by
  induction o with
  | zero => rfl
  | succ o ih => rw [W.loop_succ_val, ih (by omega), fullAssign_val, St_full m rc x o (by omega)]

theorem trans_val (y : Fin 3 → F) : (transitionAssign m (rc 4 0) start (a + 12) (3 + b) y).val =
    pr m (rc 4 0) y := by
  rw [pr_eq]
  simp [transitionAssign, matmulValue_eq, sboxValue]

include hc in
theorem loop2_val (o : ℕ) (ho : o ≤ 8) : (W.loop (fun o s => septupleAssign m start
    (config a f).septuple (o + b) ((List.range 7).map fun j => rc (5 + o * 7 + j) 0) s) o
    (St m rc 5 x)).val = St m rc (5 + o * 7) x := by
  induction o with
  | zero => rfl
  | succ o ih =>
    rw [W.loop_succ_val, ih (by omega), septupleAssign_val _ _ _ _ _ _ _ (by simp),
      show 5 + (o + 1) * 7 = (5 + o * 7) + 7 by ring,
      ← St_septuple m rc x hc (5 + o * 7) (by omega) 7 (by omega)]

theorem loop3_val (o : ℕ) (ho : o ≤ 4) : (W.loop (fun o s => fullAssign m start (config a f).full
    (o + 4 + b) (rc (o + 4 + 57)) s) o (St m rc 61 x)).val = St m rc (61 + o) x := by
  induction o with
  | zero => rfl
  | succ o ih =>
    rw [W.loop_succ_val, ih (by omega), fullAssign_val, ← Nat.add_assoc,
      St_full m rc x (61 + o) (by omega), show o + 4 + 57 = 61 + o by omega]

include hc in
theorem assignPermutation_val :
    (assignPermutation m rc (config a f) start x b).val = perm m rc x := by
  simp only [assignPermutation, W.bind_val, W.pure_val]
  rw [loop1_val a f m rc x start b 4 le_rfl, show (config a f).transition = a + 12 from rfl,
    trans_val, ← St_partial m rc x hc 4 (by omega) (by omega),
    loop2_val a f m rc x start b hc 8 le_rfl, loop3_val a f m rc x start b 4 le_rfl, perm_eq]

include hc in
theorem mem_assignPermutation (op : Op F) :
    op ∈ (assignPermutation m rc (config a f) start x b).ops ↔
      BlockOp a f m rc x (start + b) op := by
  simp only [assignPermutation, W.bind_ops, W.pure_ops, List.append_nil, List.mem_append, W.mem_loop]
  rw [loop1_val a f m rc x start b 4 le_rfl, show (config a f).transition = a + 12 from rfl,
    trans_val, ← St_partial m rc x hc 4 (by omega) (by omega),
    loop2_val a f m rc x start b hc 8 le_rfl, loop3_val a f m rc x start b 4 le_rfl]
  rw [transitionCells_ops _ _ _ (by omega)]
  simp only [transitionAssign, W.bind_ops, W.pure_ops, List.append_nil]
  rw [transitionCells_ops _ _ _ (by omega)]
  constructor
  · rintro (h | ⟨o, ho, h⟩ | h | ⟨o, ho, h⟩ | ⟨o, ho, h⟩ | h)
    · simp only [controlAssign, assignFixed, W.bind_ops, W.pure_ops, List.append_nil,
        List.mem_singleton] at h
      rw [h, show start + (7 + b) = start + b + 7 by omega]
      exact .mark
    · rw [loop1_val a f m rc x start b o (by omega), fullAssign_ops] at h
      have e : fullIdx o = o := by simp [fullIdx, ho]
      rw [show start + (o + b) = start + b + o by omega] at h
      simp only [List.mem_cons, List.not_mem_nil, or_false] at h
      rcases h with h | h | h | h | h | h <;> rw [h]
      · simpa [e] using BlockOp.fullRC (a := a) (f := f) (m := m) (rc := rc) (x := x)
          (p := start + b) o (by omega) 0
      · simpa [e] using BlockOp.fullIn (a := a) (f := f) (m := m) (rc := rc) (x := x)
          (p := start + b) o (by omega) 0
      · simpa [e] using BlockOp.fullRC (a := a) (f := f) (m := m) (rc := rc) (x := x)
          (p := start + b) o (by omega) 1
      · simpa [e] using BlockOp.fullIn (a := a) (f := f) (m := m) (rc := rc) (x := x)
          (p := start + b) o (by omega) 1
      · simpa [e] using BlockOp.fullRC (a := a) (f := f) (m := m) (rc := rc) (x := x)
          (p := start + b) o (by omega) 2
      · simpa [e] using BlockOp.fullIn (a := a) (f := f) (m := m) (rc := rc) (x := x)
          (p := start + b) o (by omega) 2
    · simp only [List.mem_cons, List.not_mem_nil, or_false] at h
      rcases h with h | h | h | h <;> rw [h]
      · rw [show start + (3 + b - 2) = start + b + 1 + ((0 : Fin 3) : ℕ) by simp; omega]
        exact .mid 0
      · rw [show start + (3 + b - 1) = start + b + 1 + ((1 : Fin 3) : ℕ) by simp; omega]
        exact .mid 1
      · rw [show start + (3 + b) = start + b + 1 + ((2 : Fin 3) : ℕ) by simp; omega]
        exact .mid 2
      · rw [show start + (3 + b - 3) = start + b by omega]
        exact .midH
    · rw [loop2_val a f m rc x start b hc o (by omega),
        septupleAssign_ops _ _ _ _ _ _ _ (by simp)] at h
      rw [show start + (o + b) = start + b + o by omega] at h
      rcases h with (h | h) | ⟨j, hj, h | h⟩ <;> rw [h]
      · exact .lin o ho 0
      · exact .lin o ho 1
      · simp only [List.getElem_map, List.getElem_range]
        exact .partRC o ho j hj
      · rw [← List.map_take, List.take_range, show min j 7 = j by omega,
          ← St_septuple m rc x hc (5 + o * 7) (by omega) j (by omega)]
        exact .partIn o ho j hj
    · rw [loop3_val a f m rc x start b o (by omega), fullAssign_ops] at h
      have e : fullIdx (o + 4) = 61 + o := by simp [fullIdx]; omega
      rw [show start + (o + 4 + b) = start + b + (o + 4) by omega,
        show o + 4 + 57 = 61 + o by omega] at h
      simp only [List.mem_cons, List.not_mem_nil, or_false] at h
      rcases h with h | h | h | h | h | h <;> rw [h]
      · simpa [e] using BlockOp.fullRC (a := a) (f := f) (m := m) (rc := rc) (x := x)
          (p := start + b) (o + 4) (by omega) 0
      · simpa [e] using BlockOp.fullIn (a := a) (f := f) (m := m) (rc := rc) (x := x)
          (p := start + b) (o + 4) (by omega) 0
      · simpa [e] using BlockOp.fullRC (a := a) (f := f) (m := m) (rc := rc) (x := x)
          (p := start + b) (o + 4) (by omega) 1
      · simpa [e] using BlockOp.fullIn (a := a) (f := f) (m := m) (rc := rc) (x := x)
          (p := start + b) (o + 4) (by omega) 1
      · simpa [e] using BlockOp.fullRC (a := a) (f := f) (m := m) (rc := rc) (x := x)
          (p := start + b) (o + 4) (by omega) 2
      · simpa [e] using BlockOp.fullIn (a := a) (f := f) (m := m) (rc := rc) (x := x)
          (p := start + b) (o + 4) (by omega) 2
    · simp only [List.mem_cons, List.not_mem_nil, or_false] at h
      rcases h with h | h | h | h <;> rw [h]
      · rw [show start + (7 + b - 2) = start + b + 5 + ((0 : Fin 3) : ℕ) by simp; omega]
        exact .fin 0
      · rw [show start + (7 + b - 1) = start + b + 5 + ((1 : Fin 3) : ℕ) by simp; omega]
        exact .fin 1
      · rw [show start + (7 + b) = start + b + 5 + ((2 : Fin 3) : ℕ) by simp; omega]
        exact .fin 2
      · rw [show start + (7 + b - 3) = start + b + 4 by omega]
        exact .finH
  · have full : ∀ o < 8, ∀ op, (op ∈ (fullAssign m start (config a f).full (o + b) (rc (fullIdx o))
        (St m rc (fullIdx o) x)).ops) →
        (∃ i < 4, op ∈ (fullAssign m start (config a f).full (i + b) (rc i) (W.loop (fun o s =>
          fullAssign m start (config a f).full (o + b) (rc o) s) i x).val).ops) ∨
        (∃ i < 4, op ∈ (fullAssign m start (config a f).full (i + 4 + b) (rc (i + 4 + 57))
          (W.loop (fun o s => fullAssign m start (config a f).full (o + 4 + b) (rc (o + 4 + 57)) s) i
            (St m rc 61 x)).val).ops) := by
      intro o ho op h
      by_cases h4 : o < 4
      · left
        refine ⟨o, h4, ?_⟩
        rw [loop1_val a f m rc x start b o (by omega)]
        simpa [fullIdx, h4] using h
      · right
        refine ⟨o - 4, by omega, ?_⟩
        rw [loop3_val a f m rc x start b (o - 4) (by omega), show o - 4 + 4 = o by omega]
        rw [show 61 + (o - 4) = o + 57 by omega]
        simpa [fullIdx, h4] using h
    intro h
    cases h with
    | mark =>
      left
      simp only [controlAssign, assignFixed, W.bind_ops, W.pure_ops, List.append_nil,
        List.mem_singleton]
      rw [show start + (7 + b) = start + b + 7 by omega]
      rfl
    | fullRC o ho i =>
      have := full o ho (.fixed (f + 1 + i) (start + b + o) (rc (fullIdx o) i)) (by
        rw [fullAssign_ops, show start + (o + b) = start + b + o by omega]
        fin_cases i <;> simp)
      rcases this with h | h
      · exact Or.inr (Or.inl h)
      · exact Or.inr (Or.inr (Or.inr (Or.inr (Or.inl h))))
    | fullIn o ho i =>
      have := full o ho (.advice (a + i) (start + b + o) (St m rc (fullIdx o) x i)) (by
        rw [fullAssign_ops, show start + (o + b) = start + b + o by omega]
        fin_cases i <;> simp)
      rcases this with h | h
      · exact Or.inr (Or.inl h)
      · exact Or.inr (Or.inr (Or.inr (Or.inr (Or.inl h))))
    | mid i =>
      right; right; left
      fin_cases i
      · simp [show start + (3 + b - 2) = start + b + 1 by omega]
      · rw [show start + (3 + b - 1) = start + b + 1 + 1 by omega]; simp
      · simp [show start + (3 + b) = start + b + 1 + 2 by omega]
    | midH =>
      right; right; left
      simp [show start + (3 + b - 3) = start + b by omega]
    | lin o ho i =>
      right; right; right; left
      refine ⟨o, ho, ?_⟩
      rw [loop2_val a f m rc x start b hc o (by omega),
        septupleAssign_ops _ _ _ _ _ _ _ (by simp), show start + (o + b) = start + b + o by omega]
      left
      fin_cases i
      · left; rfl
      · right; rfl
    | partRC o ho j hj =>
      right; right; right; left
      refine ⟨o, ho, ?_⟩
      rw [loop2_val a f m rc x start b hc o (by omega),
        septupleAssign_ops _ _ _ _ _ _ _ (by simp), show start + (o + b) = start + b + o by omega]
      right
      refine ⟨j, hj, Or.inl ?_⟩
      simp
    | partIn o ho j hj =>
      right; right; right; left
      refine ⟨o, ho, ?_⟩
      rw [loop2_val a f m rc x start b hc o (by omega),
        septupleAssign_ops _ _ _ _ _ _ _ (by simp), show start + (o + b) = start + b + o by omega]
      right
      refine ⟨j, hj, Or.inr ?_⟩
      rw [← List.map_take, List.take_range, show min j 7 = j by omega,
          ← St_septuple m rc x hc (5 + o * 7) (by omega) j (by omega)]
    | fin i =>
      right; right; right; right; right
      fin_cases i
      · simp [show start + (7 + b - 2) = start + b + 5 by omega]
      · rw [show start + (7 + b - 1) = start + b + 5 + 1 by omega]; simp
      · simp [show start + (7 + b) = start + b + 5 + 2 by omega]
    | finH =>
      right; right; right; right; right
      simp [show start + (7 + b - 3) = start + b + 4 by omega]

end

end Circuit.Septidon
