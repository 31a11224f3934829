import Verif.Circuit.SeptidonLemmas

/-!
# Septidon chip: the trace of one block and the cells written by `permute`
-/

set_option linter.unusedVariables false
set_option linter.unusedSectionVars false

open Halo2

namespace Circuit.Septidon

variable {F : Type} [Field F]

/-- The textbook permutation with the given constants: 8 full rounds around 57 partial rounds. -/
def perm (m : Base.Mds F 3) (rc : ℕ → Fin 3 → F) : (Fin 3 → F) → Fin 3 → F :=
  Spec.poseidon (fun v => v ^ 5) (Matrix.of m) 4 57 rc

/-- State after the first `k` rounds. -/
def St (m : Base.Mds F 3) (rc : ℕ → Fin 3 → F) (k : ℕ) (x : Fin 3 → F) : Fin 3 → F :=
  (List.range k).foldl (fun x r => Spec.round (fun v => v ^ 5) (Matrix.of m) 4 57 rc r x) x

/-- The constants of the partial rounds vanish outside word 0. -/
def Compact (rc : ℕ → Fin 3 → F) : Prop := ∀ r, 4 ≤ r → r < 61 → ∀ k, k ≠ 0 → rc r k = 0

section
variable (m : Base.Mds F 3) (rc : ℕ → Fin 3 → F) (x : Fin 3 → F)

theorem perm_eq : perm m rc x = St m rc 65 x := rfl

@[simp] theorem St_zero : St m rc 0 x = x := rfl

theorem St_succ (k : ℕ) :
    St m rc (k + 1) x = Spec.round (fun v => v ^ 5) (Matrix.of m) 4 57 rc k (St m rc k x) := by
  simp [St, List.range_succ]

theorem St_full (k : ℕ) (h : k < 4 ∨ 61 ≤ k) : St m rc (k + 1) x = fr m (rc k) (St m rc k x) := by
  rw [St_succ, Spec.round, if_pos (by omega)]; rfl

theorem St_partial (hc : Compact rc) (k : ℕ) (h1 : 4 ≤ k) (h2 : k < 61) :
    St m rc (k + 1) x = pr m (rc k 0) (St m rc k x) := by
  rw [St_succ, Spec.round, if_neg (by omega), pr]
  congr 1
  funext i
  fin_cases i
  · rfl
  · exact hc k h1 h2 1 (by decide)
  · exact hc k h1 h2 2 (by decide)

theorem St_septuple (hc : Compact rc) (k : ℕ) (h1 : 4 ≤ k) (n : ℕ) (h2 : k + n ≤ 61) :
    St m rc (k + n) x =
      ((List.range n).map fun j => rc (k + j) 0).foldl (fun y c => pr m c y) (St m rc k x) := by
  induction n with
  | zero => rfl
  | succ n ih =>
    rw [← Nat.add_assoc, St_partial m rc x hc (k + n) (by omega) (by omega), ih (by omega),
      List.range_succ, List.map_append, List.foldl_append]
    rfl

end

/-- The constants of one block are those of the table. -/
structure FixedOK (rc : ℕ → Fin 3 → F) (g : Grid F) (c : Config) (s : ℕ) : Prop where
  first : ∀ o < 4, fullRC g c (s + o) = rc o
  last : ∀ o < 4, fullRC g c (s + 4 + o) = rc (o + 61)
  part : ∀ o < 8, (sboxes c).map (fun b => sRC g b (s + o)) =
    (List.range 7).map fun j => rc (5 + o * 7 + j) 0

theorem partialOut_eq (m : Base.Mds F 3) (g : Grid F) (r : ℕ) (l : List SBox) (x : Fin 3 → F) :
    partialOut m g r l x = (l.map fun b => sRC g b r).foldl (fun y c => pr m c y) x := by
  rw [partialOut, List.foldl_map]

/-- The block holds the trace of the permutation of `x`. -/
structure TraceOK (m : Base.Mds F 3) (rc : ℕ → Fin 3 → F) (g : Grid F) (c : Config) (s : ℕ)
    (x : Fin 3 → F) : Prop where
  full1 : ∀ o < 4, fullIn g c (s + o) = St m rc o x
  mid : transIn g c (s + 3) = St m rc 4 x
  sept : ∀ o < 8, septIn g c (s + o) = St m rc (5 + o * 7) x
  cells : ∀ o < 8, PartialCells m g (s + o) (sboxes c) (St m rc (5 + o * 7) x)
  full2 : ∀ o < 4, fullIn g c (s + 4 + o) = St m rc (61 + o) x
  fin : transIn g c (s + 7) = St m rc 65 x

section
variable {m : Base.Mds F 3} {rc : ℕ → Fin 3 → F} {g : Grid F} {c : Config} {s : ℕ}

theorem part_fold (hc : Compact rc) (hf : FixedOK rc g c s) (x : Fin 3 → F) (o : ℕ) (ho : o < 8) :
    partialOut m g (s + o) (sboxes c) (St m rc (5 + o * 7) x) = St m rc (5 + (o + 1) * 7) x := by
  rw [partialOut_eq, hf.part o ho, show 5 + (o + 1) * 7 = (5 + o * 7) + 7 by ring,
    St_septuple m rc x hc (5 + o * 7) (by omega) 7 (by omega)]

/-- Soundness of one block. -/
theorem trace_of_block (hc : Compact rc) (hf : FixedOK rc g c s) (hb : BlockOK m (rc 4 0) g c s) :
    TraceOK m rc g c s (fullIn g c s) := by
  have full1 : ∀ o < 4, fullIn g c (s + o) = St m rc o (fullIn g c s) := by
    intro o
    induction o with
    | zero => intro _; rfl
    | succ o ih =>
      intro ho
      have := hb.full_step o (by omega) (by omega) (by omega)
      rw [← Nat.add_assoc, this, ih (by omega), hf.first o (by omega), St_full m rc _ o (by omega)]
  have mid : transIn g c (s + 3) = St m rc 4 (fullIn g c s) := by
    rw [hb.full_break 3 (by simp), full1 3 (by norm_num), hf.first 3 (by norm_num),
      St_full m rc _ 3 (by omega)]
  have sept : ∀ o < 8, septIn g c (s + o) = St m rc (5 + o * 7) (fullIn g c s) := by
    intro o
    induction o with
    | zero =>
      intro _
      rw [Nat.add_zero, hb.transition, mid, ← St_partial m rc _ hc 4 (by omega) (by omega)]
    | succ o ih =>
      intro ho
      rw [← Nat.add_assoc, hb.part_step o (by omega), ih (by omega),
        part_fold hc hf _ o (by omega)]
  have full2 : ∀ o < 4, fullIn g c (s + 4 + o) = St m rc (61 + o) (fullIn g c s) := by
    intro o
    induction o with
    | zero =>
      intro _
      rw [Nat.add_zero, hb.part_break, sept 7 (by norm_num), part_fold hc hf _ 7 (by norm_num)]
    | succ o ih =>
      intro ho
      have h1 := hb.full_step (4 + o) (by omega) (by omega) (by omega)
      rw [show s + (4 + o) + 1 = s + 4 + (o + 1) by omega,
        show s + (4 + o) = s + 4 + o by omega] at h1
      rw [h1, ih (by omega), hf.last o (by omega), show o + 61 = 61 + o by omega,
        ← St_full m rc _ (61 + o) (by omega)]
      rfl
  refine ⟨full1, mid, sept, ?_, full2, ?_⟩
  · intro o ho
    rw [← sept o ho]; exact hb.cells o ho
  · have h1 := hb.full_break 7 (by simp)
    rw [h1]
    have h2 := full2 3 (by norm_num)
    have h3 := hf.last 3 (by norm_num)
    rw [show s + 4 + 3 = s + 7 by omega] at h2 h3
    rw [h2, h3, ← St_full m rc _ 64 (by omega)]

/-- Completeness of one block. -/
theorem block_of_trace (hc : Compact rc) (hf : FixedOK rc g c s) {x : Fin 3 → F}
    (ht : TraceOK m rc g c s x) : BlockOK m (rc 4 0) g c s := by
  refine ⟨?_, ?_, ?_, ?_, ?_, ?_⟩
  · intro j hj h3 h7
    by_cases h : j < 3
    · rw [Nat.add_assoc, ht.full1 (j + 1) (by omega), ht.full1 j (by omega), hf.first j (by omega),
        St_full m rc _ j (by omega)]
    · obtain ⟨o, rfl⟩ : ∃ o, j = 4 + o := ⟨j - 4, by omega⟩
      have h1 := ht.full2 (o + 1) (by omega)
      have h2 := ht.full2 o (by omega)
      have h3 := hf.last o (by omega)
      rw [show s + (4 + o) + 1 = s + 4 + (o + 1) by omega, h1,
        show s + (4 + o) = s + 4 + o by omega, h2, h3, show o + 61 = 61 + o by omega,
        ← St_full m rc _ (61 + o) (by omega)]
      rfl
  · rintro j (rfl | rfl)
    · rw [ht.mid, ht.full1 3 (by norm_num), hf.first 3 (by norm_num), St_full m rc _ 3 (by omega)]
    · have h2 := ht.full2 3 (by norm_num)
      have h3 := hf.last 3 (by norm_num)
      rw [show s + 4 + 3 = s + 7 by omega] at h2 h3
      rw [ht.fin, h2, h3, ← St_full m rc _ 64 (by omega)]
  · have := ht.sept 0 (by norm_num)
    rw [Nat.add_zero] at this
    rw [this, ht.mid, ← St_partial m rc _ hc 4 (by omega) (by omega)]
  · intro j hj
    rw [ht.sept j hj]; exact ht.cells j hj
  · intro j hj
    rw [Nat.add_assoc, ht.sept (j + 1) (by omega), ht.sept j (by omega), part_fold hc hf _ j (by omega)]
  · have := ht.full2 0 (by norm_num)
    rw [Nat.add_zero] at this
    rw [this, ht.sept 7 (by norm_num), part_fold hc hf _ 7 (by norm_num)]

end

end Circuit.Septidon
