import Verif.Halo2.Core
import Mathlib.GroupTheory.Perm.Cycle.Basic
import Mathlib.Logic.Relation
import Mathlib.Data.Fintype.Prod

/-!
# Copy constraints in the key

Key generation turns the copy constraints of a circuit into one permutation of the cells of the equality-enabled
columns: `keygen_vk` and `keygen_pk` are called in `/repo/poseidon-circuit/tests/hash_proving.rs`, lines 84, 104, 143-144
and 162. No halo2 source lives in `/repo`; this file is a trusted model of `plonk::keygen::Assembly::copy` and
`plonk::permutation::keygen::Assembly::copy` of the halo2 version named in `/repo/Cargo.toml`, lines 14 and 29.
-/

set_option linter.unusedSectionVars false

namespace Halo2
variable {F : Type}

/-- `permutation::keygen::Assembly`: the permutation built so far, the representative of the cycle of every cell, and the
size of the cycle of every representative. -/
structure Assembly (α : Type) where
  mapping : α → α
  aux : α → α
  sizes : α → ℕ

namespace Assembly
variable {α : Type} [DecidableEq α]

/-- `Assembly::new`: every cell is a cycle of its own. -/
def new (α : Type) : Assembly α := ⟨id, id, fun _ => 1⟩

open Classical in
/-- The walk `loop { aux[i] = left_cycle; i = mapping[i]; if i == right_cycle { break } }` along a cycle, as one step. -/
noncomputable def relabel (s : Assembly α) (left right : α) : α → α :=
  fun i => if ∃ k : ℕ, s.mapping^[k] right = i then left else s.aux i

/-- `Assembly::copy` on two cells: nothing if they are in the same cycle; otherwise the smaller cycle takes the
representative of the larger one and the images of the two cells are exchanged. -/
noncomputable def join (s : Assembly α) (a b : α) : Assembly α :=
  if s.aux a = s.aux b then s
  else
    let (left, right) :=
      if s.sizes (s.aux a) < s.sizes (s.aux b) then (s.aux b, s.aux a) else (s.aux a, s.aux b)
    { mapping := Function.update (Function.update s.mapping a (s.mapping b)) b (s.mapping a)
      aux := s.relabel left right
      sizes := Function.update s.sizes left (s.sizes left + s.sizes right) }

end Assembly

/-! ### Cells -/

/-- `position(column)`. -/
def colIndex (cols : List Col) (c : Col) : Option (Fin cols.length) :=
  (List.finRange cols.length).find? fun j => cols.get j = c

/-- Errors of `copy`. -/
inductive CopyError where
  | columnNotInPermutation (c : Col)
  | notEnoughRowsAvailable
  deriving DecidableEq

/-- The cell in the tables of the assembly; a row that cannot be assigned or a column without equality is an error. -/
def cellIndex (cols : List Col) (n usable : ℕ) (c : Cell) : Except CopyError (Fin cols.length × Fin n) :=
  if h : c.row < usable ∧ c.row < n then
    match colIndex cols c.col with
    | some j => .ok (j, ⟨c.row, h.2⟩)
    | none => .error (.columnNotInPermutation c.col)
  else .error .notEnoughRowsAvailable

/-- `keygen::Assembly::copy`. -/
noncomputable def Assembly.copy {cols : List Col} {n : ℕ} (usable : ℕ) (s : Assembly (Fin cols.length × Fin n)) (a b : Cell) :
    Except CopyError (Assembly (Fin cols.length × Fin n)) := do
  let i ← cellIndex cols n usable a
  let j ← cellIndex cols n usable b
  return s.join i j

/-- The copy constraints of a synthesis, in order. -/
noncomputable def assemble (cols : List Col) (n usable : ℕ) :
    List (Op F) → Assembly (Fin cols.length × Fin n) → Except CopyError (Assembly (Fin cols.length × Fin n))
  | [], s => .ok s
  | .copy a b :: os, s => do assemble cols n usable os (← s.copy usable a b)
  | _ :: os, s => assemble cols n usable os s

/-! ### Lemmas -/

section
variable {α : Type} [DecidableEq α] [Finite α]
open Equiv

theorem sameCycle_le {τ : Perm α} {R : α → α → Prop} (hR : Equivalence R) (h : ∀ x, R x (τ x)) {x y : α}
    (hxy : τ.SameCycle x y) : R x y := by
  obtain ⟨k, rfl⟩ := hxy.exists_nat_pow_eq
  clear hxy
  induction k with
  | zero => exact hR.refl x
  | succ k ih => rw [pow_succ', Perm.mul_apply]; exact hR.trans ih (h _)

/-- Exchanging the images of two cells of different cycles joins the two cycles. -/
theorem sameCycle_join {σ : Perm α} {a b : α} (hab : ¬ σ.SameCycle a b) (x y : α) :
    (σ * swap a b).SameCycle x y ↔
      σ.SameCycle x y ∨ (σ.SameCycle x a ∧ σ.SameCycle y b) ∨ (σ.SameCycle x b ∧ σ.SameCycle y a) := by
  have hne : a ≠ b := fun h => hab (h ▸ Perm.SameCycle.refl _ _)
  have ta : (σ * swap a b) a = σ b := by simp
  have tb : (σ * swap a b) b = σ a := by simp
  have tx : ∀ x, x ≠ a → x ≠ b → (σ * swap a b) x = σ x := fun x h h' => by simp [swap_apply_of_ne_of_ne h h']
  constructor
  · refine sameCycle_le (R := fun x y => σ.SameCycle x y ∨ (σ.SameCycle x a ∧ σ.SameCycle y b) ∨
      (σ.SameCycle x b ∧ σ.SameCycle y a)) ⟨fun x => Or.inl (.refl _ _), ?_, ?_⟩ ?_
    · rintro x y (h | h | h)
      · exact Or.inl h.symm
      · exact Or.inr (Or.inr ⟨h.2, h.1⟩)
      · exact Or.inr (Or.inl ⟨h.2, h.1⟩)
    · rintro x y z (h | h | h) (h' | h' | h')
      · exact Or.inl (h.trans h')
      · exact Or.inr (Or.inl ⟨h.trans h'.1, h'.2⟩)
      · exact Or.inr (Or.inr ⟨h.trans h'.1, h'.2⟩)
      · exact Or.inr (Or.inl ⟨h.1, h'.symm.trans h.2⟩)
      · exact absurd (h'.1.symm.trans h.2) hab
      · exact Or.inl (h.1.trans h'.2.symm)
      · exact Or.inr (Or.inr ⟨h.1, h'.symm.trans h.2⟩)
      · exact Or.inl (h.1.trans h'.2.symm)
      · exact absurd (h.2.symm.trans h'.1) hab
    · intro x
      by_cases h1 : x = a
      · subst h1; rw [ta]
        exact Or.inr (Or.inl ⟨.refl _ _, (Perm.sameCycle_apply_left).mpr (.refl _ _)⟩)
      · by_cases h2 : x = b
        · subst h2; rw [tb]
          exact Or.inr (Or.inr ⟨.refl _ _, (Perm.sameCycle_apply_left).mpr (.refl _ _)⟩)
        · rw [tx x h1 h2]
          exact Or.inl ((Perm.sameCycle_apply_right).mpr (.refl _ _))
  · have step : ∀ x, (σ * swap a b).SameCycle x ((σ * swap a b) x) := fun x =>
      (Perm.sameCycle_apply_right).mpr (.refl _ _)
    have join : (σ * swap a b).SameCycle a b := by
      have key : ∀ j : ℕ, (σ * swap a b).SameCycle a b ∨ (σ * swap a b).SameCycle a ((σ ^ (j + 1)) b) := by
        intro j
        induction j with
        | zero => right; have := step a; rw [ta] at this; simpa using this
        | succ j ih =>
          rcases ih with h | h
          · exact Or.inl h
          · by_cases hb : (σ ^ (j + 1)) b = b
            · left; rwa [hb] at h
            · right
              have ha : (σ ^ (j + 1)) b ≠ a := fun ha => hab (by
                rw [← ha]; exact (Perm.sameCycle_pow_left).mpr (.refl _ _))
              rw [pow_succ', Perm.mul_apply, ← tx _ ha hb]
              exact h.trans (step _)
      obtain ⟨m, hm, e⟩ := (isOfFinOrder_of_finite σ).exists_pow_eq_one
      have := key (m - 1)
      rw [Nat.sub_add_cancel hm, e] at this
      simpa using this
    have up : ∀ x, (σ * swap a b).SameCycle x (σ x) := by
      intro x
      by_cases h1 : x = a
      · subst h1; rw [← tb]; exact join.trans (step b)
      · by_cases h2 : x = b
        · subst h2; rw [← ta]; exact join.symm.trans (step a)
        · rw [← tx x h1 h2]; exact step x
    have sub : ∀ {x y}, σ.SameCycle x y → (σ * swap a b).SameCycle x y := fun h =>
      sameCycle_le ⟨fun x => .refl _ x, fun h => h.symm, fun h h' => h.trans h'⟩ up h
    rintro (h | h | h)
    · exact sub h
    · exact ((sub h.1).trans join).trans (sub h.2).symm
    · exact ((sub h.1).trans join.symm).trans (sub h.2).symm

/-- What the tables of an assembly say about the copy constraints `C` made so far. -/
structure Assembly.Inv (s : Assembly α) (C : α → α → Prop) (σ : Perm α) : Prop where
  mapping : s.mapping = σ
  cycles : ∀ x y, σ.SameCycle x y ↔ Relation.EqvGen C x y
  aux : ∀ x y, s.aux x = s.aux y ↔ σ.SameCycle x y
  rep : ∀ x, σ.SameCycle x (s.aux x)

theorem Assembly.inv_new : (Assembly.new α).Inv (fun _ _ => False) 1 where
  mapping := rfl
  cycles x y := by
    rw [Perm.sameCycle_one]
    refine ⟨fun h => h ▸ .refl _, fun h => ?_⟩
    induction h with
    | rel _ _ h => exact h.elim
    | refl => rfl
    | symm _ _ _ h => exact h.symm
    | trans _ _ _ _ _ h h' => exact h.trans h'
  aux x y := by rw [Perm.sameCycle_one]; rfl
  rep x := .refl _ _

theorem eqvGen_or {C : α → α → Prop} (a b x y : α) :
    Relation.EqvGen (fun u v => C u v ∨ (u = a ∧ v = b)) x y ↔
      Relation.EqvGen C x y ∨ (Relation.EqvGen C x a ∧ Relation.EqvGen C y b) ∨
        (Relation.EqvGen C x b ∧ Relation.EqvGen C y a) := by
  constructor
  · intro h
    induction h with
    | rel x y h =>
      rcases h with h | ⟨rfl, rfl⟩
      · exact Or.inl (.rel _ _ h)
      · exact Or.inr (Or.inl ⟨.refl _, .refl _⟩)
    | refl => exact Or.inl (.refl _)
    | symm x y _ h =>
      rcases h with h | h | h
      · exact Or.inl (.symm _ _ h)
      · exact Or.inr (Or.inr ⟨h.2, h.1⟩)
      · exact Or.inr (Or.inl ⟨h.2, h.1⟩)
    | trans x y z _ _ h h' =>
      rcases h with h | h | h <;> rcases h' with h' | h' | h'
      · exact Or.inl (.trans _ _ _ h h')
      · exact Or.inr (Or.inl ⟨.trans _ _ _ h h'.1, h'.2⟩)
      · exact Or.inr (Or.inr ⟨.trans _ _ _ h h'.1, h'.2⟩)
      · exact Or.inr (Or.inl ⟨h.1, .trans _ _ _ (.symm _ _ h') h.2⟩)
      · exact Or.inr (Or.inl ⟨h.1, h'.2⟩)
      · exact Or.inl (.trans _ _ _ h.1 (.symm _ _ h'.2))
      · exact Or.inr (Or.inr ⟨h.1, .trans _ _ _ (.symm _ _ h') h.2⟩)
      · exact Or.inl (.trans _ _ _ h.1 (.symm _ _ h'.2))
      · exact Or.inr (Or.inr ⟨h.1, h'.2⟩)
  · have sub : ∀ {x y}, Relation.EqvGen C x y → Relation.EqvGen (fun u v => C u v ∨ (u = a ∧ v = b)) x y :=
      fun h => h.mono fun _ _ => Or.inl
    have hab : Relation.EqvGen (fun u v => C u v ∨ (u = a ∧ v = b)) a b := .rel _ _ (Or.inr ⟨rfl, rfl⟩)
    rintro (h | h | h)
    · exact sub h
    · exact .trans _ _ _ (.trans _ _ _ (sub h.1) hab) (.symm _ _ (sub h.2))
    · exact .trans _ _ _ (.trans _ _ _ (sub h.1) (.symm _ _ hab)) (.symm _ _ (sub h.2))

theorem Assembly.Inv.join {s : Assembly α} {C : α → α → Prop} {σ : Perm α} (h : s.Inv C σ) (a b : α) :
    ∃ σ', (s.join a b).Inv (fun u v => C u v ∨ (u = a ∧ v = b)) σ' := by
  classical
  by_cases hab : s.aux a = s.aux b
  · refine ⟨σ, ?_⟩
    have e : s.join a b = s := by rw [Assembly.join, if_pos hab]
    rw [e]
    have hs := (h.cycles a b).mp ((h.aux a b).mp hab)
    refine ⟨h.mapping, fun x y => ?_, h.aux, h.rep⟩
    rw [eqvGen_or, h.cycles]
    constructor
    · exact Or.inl
    · rintro (h | h | h)
      · exact h
      · exact .trans _ _ _ (.trans _ _ _ h.1 hs) (.symm _ _ h.2)
      · exact .trans _ _ _ (.trans _ _ _ h.1 (.symm _ _ hs)) (.symm _ _ h.2)
  · have hne : ¬ σ.SameCycle a b := fun h' => hab ((h.aux a b).mpr h')
    refine ⟨σ * swap a b, ?_⟩
    obtain ⟨left, right, hlr, hm, ha⟩ : ∃ left right,
        ((left = s.aux a ∧ right = s.aux b) ∨ (left = s.aux b ∧ right = s.aux a)) ∧
        (s.join a b).mapping = Function.update (Function.update s.mapping a (s.mapping b)) b (s.mapping a) ∧
        (s.join a b).aux = s.relabel left right := by
      rw [Assembly.join, if_neg hab]
      by_cases hc : s.sizes (s.aux a) < s.sizes (s.aux b)
      · exact ⟨s.aux b, s.aux a, Or.inr ⟨rfl, rfl⟩, by simp, by simp [hc]⟩
      · exact ⟨s.aux a, s.aux b, Or.inl ⟨rfl, rfl⟩, by simp, by simp [hc]⟩
    have walk : ∀ i, (∃ k : ℕ, s.mapping^[k] right = i) ↔ σ.SameCycle right i := by
      intro i
      rw [h.mapping]
      constructor
      · rintro ⟨k, rfl⟩
        rw [← Perm.coe_pow]
        exact (Perm.sameCycle_pow_right).mpr (.refl _ _)
      · intro hi
        obtain ⟨k, hk⟩ := hi.exists_nat_pow_eq
        exact ⟨k, by rw [← Perm.coe_pow]; exact hk⟩
    have haux : ∀ i, (s.join a b).aux i = if σ.SameCycle right i then left else s.aux i := by
      intro i
      rw [ha]
      unfold Assembly.relabel
      by_cases hi : σ.SameCycle right i
      · rw [if_pos ((walk i).mpr hi), if_pos hi]
      · rw [if_neg (fun h' => hi ((walk i).mp h')), if_neg hi]
    refine ⟨?_, ?_, ?_, ?_⟩
    · rw [hm, h.mapping]
      funext x
      rw [Perm.mul_apply]
      by_cases h2 : x = b
      · subst h2; simp
      · rw [Function.update_of_ne h2]
        by_cases h1 : x = a
        · subst h1; simp
        · rw [Function.update_of_ne h1, swap_apply_of_ne_of_ne h1 h2]
    · intro x y
      rw [sameCycle_join hne, eqvGen_or]
      simp only [h.cycles]
    · intro x y
      rw [sameCycle_join hne, haux, haux]
      have hx := h.aux
      have hr := h.rep
      rcases hlr with ⟨rfl, rfl⟩ | ⟨rfl, rfl⟩
      · have e1 : ∀ i, σ.SameCycle (s.aux b) i ↔ σ.SameCycle i b := fun i =>
          ⟨fun h' => h'.symm.trans (hr b).symm, fun h' => (hr b).symm.trans h'.symm⟩
        have e2 : ∀ i, s.aux a = s.aux i ↔ σ.SameCycle i a := fun i => by rw [hx]; exact ⟨.symm, .symm⟩
        simp only [e1]
        split_ifs with c1 c2 c2
        · simp [c1.trans c2.symm]
        · rw [e2]
          refine ⟨fun h' => Or.inr (Or.inr ⟨c1, h'⟩), ?_⟩
          rintro (h' | h' | h')
          · exact absurd (h'.symm.trans c1) c2
          · exact absurd h'.2 c2
          · exact h'.2
        · rw [eq_comm, e2]
          refine ⟨fun h' => Or.inr (Or.inl ⟨h', c2⟩), ?_⟩
          rintro (h' | h' | h')
          · exact absurd (h'.trans c2) c1
          · exact h'.1
          · exact absurd h'.1 c1
        · rw [hx]
          refine ⟨Or.inl, ?_⟩
          rintro (h' | h' | h')
          · exact h'
          · exact absurd h'.2 c2
          · exact absurd h'.1 c1
      · have e1 : ∀ i, σ.SameCycle (s.aux a) i ↔ σ.SameCycle i a := fun i =>
          ⟨fun h' => h'.symm.trans (hr a).symm, fun h' => (hr a).symm.trans h'.symm⟩
        have e2 : ∀ i, s.aux b = s.aux i ↔ σ.SameCycle i b := fun i => by rw [hx]; exact ⟨.symm, .symm⟩
        simp only [e1]
        split_ifs with c1 c2 c2
        · simp [c1.trans c2.symm]
        · rw [e2]
          refine ⟨fun h' => Or.inr (Or.inl ⟨c1, h'⟩), ?_⟩
          rintro (h' | h' | h')
          · exact absurd (h'.symm.trans c1) c2
          · exact h'.2
          · exact absurd h'.2 c2
        · rw [eq_comm, e2]
          refine ⟨fun h' => Or.inr (Or.inr ⟨h', c2⟩), ?_⟩
          rintro (h' | h' | h')
          · exact absurd (h'.trans c2) c1
          · exact absurd h'.1 c1
          · exact h'.1
        · rw [hx]
          refine ⟨Or.inl, ?_⟩
          rintro (h' | h' | h')
          · exact h'
          · exact absurd h'.1 c1
          · exact absurd h'.2 c2
    · intro x
      rw [sameCycle_join hne, haux]
      have hr := h.rep
      split_ifs with c
      · rcases hlr with ⟨rfl, rfl⟩ | ⟨rfl, rfl⟩
        · exact Or.inr (Or.inr ⟨c.symm.trans (hr b).symm, (hr a).symm⟩)
        · exact Or.inr (Or.inl ⟨c.symm.trans (hr a).symm, (hr b).symm⟩)
      · exact Or.inl (hr x)

end

theorem colIndex_some {cols : List Col} {c : Col} {j : Fin cols.length} (h : colIndex cols c = some j) :
    cols.get j = c := by
  simpa using List.find?_some h

theorem colIndex_exists {cols : List Col} {c : Col} (h : c ∈ cols) : ∃ j, colIndex cols c = some j := by
  obtain ⟨j, hj⟩ := List.get_of_mem h
  have : (colIndex cols c).isSome := by
    rw [colIndex, List.find?_isSome]
    exact ⟨j, List.mem_finRange j, by simpa using hj⟩
  exact Option.isSome_iff_exists.mp this

theorem cellIndex_ok {cols : List Col} {n usable : ℕ} {c : Cell} {i : Fin cols.length × Fin n}
    (h : cellIndex cols n usable c = .ok i) : cols.get i.1 = c.col ∧ (i.2 : ℕ) = c.row ∧ c.row < usable := by
  unfold cellIndex at h
  split_ifs at h with hc
  cases hj : colIndex cols c.col with
  | none => rw [hj] at h; cases h
  | some j =>
    rw [hj] at h
    cases h
    exact ⟨colIndex_some hj, rfl, hc.1⟩

theorem cellIndex_exists {cols : List Col} {n usable : ℕ} {c : Cell} (h : c.col ∈ cols) (hu : usable ≤ n)
    (hr : c.row < usable) : ∃ i, cellIndex cols n usable c = .ok i := by
  obtain ⟨j, hj⟩ := colIndex_exists h
  unfold cellIndex
  rw [dif_pos ⟨hr, by omega⟩, hj]
  exact ⟨_, rfl⟩

/-- Two cells of the tables are asked to be equal. -/
def Copied (cols : List Col) (n usable : ℕ) (ops : List (Op F)) (x y : Fin cols.length × Fin n) : Prop :=
  ∃ a b, Op.copy a b ∈ ops ∧ cellIndex cols n usable a = .ok x ∧ cellIndex cols n usable b = .ok y

theorem assemble_inv {cols : List Col} {n usable : ℕ} : ∀ {ops : List (Op F)} {s s' : Assembly (Fin cols.length × Fin n)}
    {C : Fin cols.length × Fin n → Fin cols.length × Fin n → Prop} {σ : Equiv.Perm (Fin cols.length × Fin n)},
    s.Inv C σ → assemble cols n usable ops s = .ok s' →
      (∃ σ', s'.Inv (fun x y => C x y ∨ Copied cols n usable ops x y) σ') ∧
      ∀ a b, Op.copy a b ∈ ops → (∃ x, cellIndex cols n usable a = .ok x) ∧ ∃ y, cellIndex cols n usable b = .ok y
  | [], s, s', C, σ, hs, h => by
    cases h
    refine ⟨⟨σ, ?_⟩, by simp⟩
    have : (fun x y => C x y ∨ Copied cols n usable ([] : List (Op F)) x y) = C := by
      funext x y
      simp [Copied]
    rwa [this]
  | o :: os, s, s', C, σ, hs, h => by
    by_cases ho : ∃ a b, o = .copy a b
    · obtain ⟨a, b, rfl⟩ := ho
      simp only [assemble, Assembly.copy, bind, Except.bind, pure, Except.pure] at h
      cases ha : cellIndex cols n usable a with
      | error e => rw [ha] at h; cases h
      | ok x =>
        rw [ha] at h
        cases hb : cellIndex cols n usable b with
        | error e => rw [hb] at h; cases h
        | ok y =>
          rw [hb] at h
          obtain ⟨σ', h'⟩ := hs.join x y
          obtain ⟨⟨τ, ht⟩, hr⟩ := assemble_inv h' h
          refine ⟨⟨τ, ?_⟩, ?_⟩
          · have : (fun u v => C u v ∨ Copied cols n usable (.copy a b :: os) u v) =
                fun u v => (C u v ∨ (u = x ∧ v = y)) ∨ Copied cols n usable os u v := by
              funext u v
              apply propext
              constructor
              · rintro (h | ⟨a', b', hm, h1, h2⟩)
                · exact Or.inl (Or.inl h)
                · rcases List.mem_cons.mp hm with e | hm
                  · cases e
                    rw [ha] at h1; rw [hb] at h2
                    cases h1; cases h2
                    exact Or.inl (Or.inr ⟨rfl, rfl⟩)
                  · exact Or.inr ⟨a', b', hm, h1, h2⟩
              · rintro ((h | ⟨rfl, rfl⟩) | ⟨a', b', hm, h1, h2⟩)
                · exact Or.inl h
                · exact Or.inr ⟨a, b, by simp, ha, hb⟩
                · exact Or.inr ⟨a', b', by simp [hm], h1, h2⟩
            rwa [this]
          · intro a' b' hm
            rcases List.mem_cons.mp hm with e | hm
            · cases e; exact ⟨⟨x, ha⟩, y, hb⟩
            · exact hr a' b' hm
    · have e : assemble cols n usable (o :: os) s = assemble cols n usable os s := by
        cases o <;> first | rfl | (exfalso; exact ho ⟨_, _, rfl⟩)
      rw [e] at h
      have hmem : ∀ a b, Op.copy a b ∈ o :: os ↔ Op.copy a b ∈ os := by
        intro a b
        rw [List.mem_cons]
        exact ⟨fun h => h.resolve_left fun h => ho ⟨a, b, h.symm⟩, Or.inr⟩
      obtain ⟨⟨τ, ht⟩, hr⟩ := assemble_inv hs h
      refine ⟨⟨τ, ?_⟩, fun a b hm => hr a b ((hmem a b).mp hm)⟩
      have : Copied cols n usable (o :: os) = Copied cols n usable os := by
        funext u v
        simp only [Copied, hmem]
      rwa [this]

/-- Synthesis succeeds on copy constraints between assignable cells of equality-enabled columns. -/
theorem assemble_ok {cols : List Col} {n usable : ℕ} : ∀ {ops : List (Op F)} (s : Assembly (Fin cols.length × Fin n)),
    (∀ a b, Op.copy a b ∈ ops → (∃ x, cellIndex cols n usable a = .ok x) ∧ ∃ y, cellIndex cols n usable b = .ok y) →
      ∃ s', assemble cols n usable ops s = .ok s'
  | [], s, _ => ⟨s, rfl⟩
  | o :: os, s, h => by
    have ih := fun s => assemble_ok (ops := os) s fun a b hm => h a b (by simp [hm])
    by_cases ho : ∃ a b, o = .copy a b
    · obtain ⟨a, b, rfl⟩ := ho
      obtain ⟨⟨x, hx⟩, y, hy⟩ := h a b (by simp)
      simp only [assemble, Assembly.copy, bind, Except.bind, pure, Except.pure, hx, hy]
      exact ih _
    · have e : assemble cols n usable (o :: os) s = assemble cols n usable os s := by
        cases o <;> first | rfl | (exfalso; exact ho ⟨_, _, rfl⟩)
      rw [e]
      exact ih s

end Halo2
