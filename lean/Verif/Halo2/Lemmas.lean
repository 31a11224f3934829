import Verif.Halo2.Core
import Mathlib.Data.Set.Basic

/-!
# Facts about synthesis logs and the grids they produce
-/

set_option linter.unusedVariables false
set_option linter.unusedSectionVars false

namespace Halo2

variable {F : Type} [Field F]

theorem foldl_last {α β : Type} (f : α → β → α) (P : β → Prop) (v : α)
    (hw : ∀ o, P o → ∀ acc, f acc o = v) (hn : ∀ o acc, ¬ P o → f acc o = acc) (l : List β) (a : α)
    (h : (∃ o ∈ l, P o) ∨ a = v) : l.foldl f a = v := by
  induction l generalizing a with
  | nil => simpa using h
  | cons o l ih =>
    simp only [List.foldl_cons]
    apply ih
    by_cases ho : P o
    · right; exact hw o ho a
    · rcases h with ⟨o', hm, ho'⟩ | h
      · rcases List.mem_cons.mp hm with rfl | hm
        · exact absurd ho' ho
        · exact Or.inl ⟨o', hm, ho'⟩
      · right; rw [hn o a ho, h]

theorem foldl_none {α β : Type} (f : α → β → α) (l : List β) (a : α)
    (h : ∀ o ∈ l, ∀ acc, f acc o = acc) : l.foldl f a = a := by
  induction l generalizing a with
  | nil => rfl
  | cons o l ih =>
    simp only [List.foldl_cons]
    rw [h o (by simp) a]
    exact ih a fun o ho => h o (by simp [ho])

/-- The writes an operation makes to a fixed cell. -/
def Op.FixedWrite (o : Op F) (c r : ℕ) (v : F) : Prop :=
  o = .fixed c r v ∨ ∃ r' ≤ r, o = .fill c r' v

theorem finalFixed_eq {ops : List (Op F)} {c r : ℕ} {v : F}
    (h : ∃ o ∈ ops, o.FixedWrite c r v)
    (hu : ∀ o ∈ ops, ∀ v', o.FixedWrite c r v' → v' = v) : finalFixed ops c r = v := by
  unfold finalFixed
  have key : ∀ (l : List (Op F)), (∀ o ∈ l, ∀ v', o.FixedWrite c r v' → v' = v) → ∀ a,
      ((∃ o ∈ l, o.FixedWrite c r v) ∨ a = v) →
      l.foldl (fun acc o => match o with
        | .fixed c' r' v => if c' = c ∧ r' = r then v else acc
        | .fill c' r' v => if c' = c ∧ r' ≤ r then v else acc
        | _ => acc) a = v := by
    intro l
    induction l with
    | nil => intro _ a h; simpa using h
    | cons o l ih =>
      intro hu a h
      simp only [List.foldl_cons]
      apply ih (fun o ho => hu o (by simp [ho]))
      have huo := hu o (by simp)
      have hcase : (∃ o' ∈ l, o'.FixedWrite c r v) ∨ o.FixedWrite c r v ∨ a = v := by
        rcases h with ⟨o', hm, ho'⟩ | h
        · rcases List.mem_cons.mp hm with rfl | hm
          · exact Or.inr (Or.inl ho')
          · exact Or.inl ⟨o', hm, ho'⟩
        · exact Or.inr (Or.inr h)
      rcases hcase with h | h
      · exact Or.inl h
      · right
        cases o with
        | fixed c' r' w =>
          by_cases e : c' = c ∧ r' = r
          · obtain ⟨rfl, rfl⟩ := e
            simpa using huo w (Or.inl rfl)
          · simp only [if_neg e]
            rcases h with h | h
            · rcases h with h | ⟨_, _, h⟩
              · injection h with h1 h2 h3; exact absurd ⟨h1, h2⟩ e
              · cases h
            · exact h
        | fill c' r' w =>
          by_cases e : c' = c ∧ r' ≤ r
          · obtain ⟨rfl, e⟩ := e
            simpa [e] using huo w (Or.inr ⟨r', e, rfl⟩)
          · simp only [if_neg e]
            rcases h with h | h
            · rcases h with h | ⟨_, hle, h⟩
              · cases h
              · injection h with h1 h2 h3; exact absurd ⟨h1, h2 ▸ hle⟩ e
            · exact h
        | _ =>
          rcases h with (h | ⟨_, _, h⟩) | h
          · cases h
          · cases h
          · exact h
  exact key ops hu 0 (Or.inl h)

theorem finalFixed_zero {ops : List (Op F)} {c r : ℕ}
    (hu : ∀ o ∈ ops, ∀ v', ¬ o.FixedWrite c r v') : finalFixed ops c r = 0 := by
  unfold finalFixed
  apply foldl_none
  intro o ho acc
  cases o with
  | fixed c' r' w =>
    by_cases e : c' = c ∧ r' = r
    · obtain ⟨rfl, rfl⟩ := e
      exact absurd (Or.inl rfl) (hu _ ho w)
    · simp [e]
  | fill c' r' w =>
    by_cases e : c' = c ∧ r' ≤ r
    · obtain ⟨rfl, e⟩ := e
      exact absurd (Or.inr ⟨r', e, rfl⟩) (hu _ ho w)
    · simp [e]
  | _ => rfl

theorem finalAdvice_eq {ops : List (Op F)} {c r : ℕ} {v : F} (h : Op.advice c r v ∈ ops)
    (hu : ∀ v', Op.advice c r v' ∈ ops → v' = v) : finalAdvice ops c r = v := by
  unfold finalAdvice
  have key : ∀ (l : List (Op F)), (∀ v', Op.advice c r v' ∈ l → v' = v) → ∀ a,
      (Op.advice c r v ∈ l ∨ a = v) →
      l.foldl (fun acc o => match o with
        | .advice c' r' v => if c' = c ∧ r' = r then v else acc
        | _ => acc) a = v := by
    intro l
    induction l with
    | nil => intro _ a h; simpa using h
    | cons o l ih =>
      intro hu a h
      simp only [List.foldl_cons]
      apply ih (fun v' ho => hu v' (by simp [ho]))
      have hcase : Op.advice c r v ∈ l ∨ o = Op.advice c r v ∨ a = v := by
        rcases h with hm | h
        · rcases List.mem_cons.mp hm with h' | hm
          · exact Or.inr (Or.inl h'.symm)
          · exact Or.inl hm
        · exact Or.inr (Or.inr h)
      rcases hcase with h | h
      · exact Or.inl h
      · right
        cases o with
        | advice c' r' w =>
          by_cases e : c' = c ∧ r' = r
          · obtain ⟨rfl, rfl⟩ := e
            simpa using hu w (by simp)
          · simp only [if_neg e]
            rcases h with h | h
            · injection h with h1 h2 h3; exact absurd ⟨h1, h2⟩ e
            · exact h
        | _ =>
          rcases h with h | h
          · cases h
          · exact h
  exact key ops hu 0 (Or.inl h)

theorem finalSelector_iff {ops : List (Op F)} {s r : ℕ} :
    finalSelector ops s r = true ↔ Op.selector s r ∈ ops := by
  unfold finalSelector
  rw [List.any_eq_true]
  constructor
  · rintro ⟨o, ho, h⟩
    cases o with
    | selector s' r' =>
      simp only [decide_eq_true_eq] at h
      obtain ⟨rfl, rfl⟩ := h
      exact ho
    | _ => simp at h
  · intro h
    exact ⟨_, h, by simp⟩

/-- Operations that leave a fixed column alone, before and after, do not matter. -/
theorem finalFixed_between {pre new post : List (Op F)} {c : ℕ}
    (h1 : ∀ o ∈ pre, ∀ r v, ¬ o.FixedWrite c r v) (h2 : ∀ o ∈ post, ∀ r v, ¬ o.FixedWrite c r v)
    (r : ℕ) : finalFixed (pre ++ new ++ post) c r = finalFixed new c r := by
  have e1 : finalFixed pre c r = 0 := finalFixed_zero fun o ho v => h1 o ho r v
  unfold finalFixed at e1 ⊢
  rw [List.foldl_append, List.foldl_append, e1]
  apply foldl_none
  intro o ho acc
  cases o with
  | fixed c' r' w =>
    by_cases e : c' = c ∧ r' = r
    · obtain ⟨rfl, rfl⟩ := e
      exact absurd (Or.inl rfl) (h2 _ ho r' w)
    · simp [e]
  | fill c' r' w =>
    by_cases e : c' = c ∧ r' ≤ r
    · obtain ⟨rfl, e⟩ := e
      exact absurd (Or.inr ⟨r', e, rfl⟩) (h2 _ ho r w)
    · simp [e]
  | _ => rfl

theorem finalAdvice_zero {ops : List (Op F)} {c r : ℕ} (h : ∀ v, Op.advice c r v ∉ ops) :
    finalAdvice ops c r = 0 := by
  unfold finalAdvice
  apply foldl_none
  intro o ho acc
  cases o with
  | advice c' r' w =>
    by_cases e : c' = c ∧ r' = r
    · obtain ⟨rfl, rfl⟩ := e
      exact absurd ho (h w)
    · simp [e]
  | _ => rfl

theorem finalAdvice_between {pre new post : List (Op F)} {c : ℕ}
    (h1 : ∀ r v, Op.advice c r v ∉ pre) (h2 : ∀ r v, Op.advice c r v ∉ post)
    (r : ℕ) : finalAdvice (pre ++ new ++ post) c r = finalAdvice new c r := by
  have e1 : finalAdvice pre c r = 0 := finalAdvice_zero (h1 r)
  unfold finalAdvice at e1 ⊢
  rw [List.foldl_append, List.foldl_append, e1]
  apply foldl_none
  intro o ho acc
  cases o with
  | advice c' r' w =>
    by_cases e : c' = c ∧ r' = r
    · obtain ⟨rfl, rfl⟩ := e
      exact absurd ho (h2 r' w)
    · simp [e]
  | _ => rfl

theorem finalSelector_between {pre new post : List (Op F)} {s : ℕ}
    (h1 : ∀ r, Op.selector s r ∉ pre) (h2 : ∀ r, Op.selector s r ∉ post)
    (r : ℕ) : finalSelector (pre ++ new ++ post) s r = finalSelector new s r := by
  rw [Bool.eq_iff_iff, finalSelector_iff, finalSelector_iff]
  simp [h1 r, h2 r]

/-- Two writes of a log to the same cell write the same value. -/
structure Consistent (ops : List (Op F)) : Prop where
  advice : ∀ c r v v', Op.advice c r v ∈ ops → Op.advice c r v' ∈ ops → v = v'
  fixed : ∀ c r v v', (∃ o ∈ ops, o.FixedWrite c r v) → (∃ o ∈ ops, o.FixedWrite c r v') → v = v'

/-- What it means for a grid to agree with one operation. -/
def Grid.Obeys (g : Grid F) : Op F → Prop
  | .advice c r v => g.advice c r = v
  | .fixed c r v => g.fixed c r = v
  | .selector s r => g.selector s r = true
  | .copy a b => g.cell a = g.cell b
  | .constant _ _ => True
  | .fill c r v => ∀ r', r ≤ r' → r' < g.n → g.fixed c r' = v

end Halo2

namespace Halo2
variable {F : Type} [Field F]

theorem foldl_max_le {l : List ℕ} {a s : ℕ} (ha : a ≤ s) (h : ∀ x ∈ l, x ≤ s) : l.foldl max a ≤ s := by
  induction l generalizing a with
  | nil => simpa
  | cons b l ih =>
    simp only [List.foldl_cons]
    exact ih (by have := h b (by simp); omega) fun x hx => h x (by simp [hx])

theorem le_foldl_max {l : List ℕ} {a x : ℕ} (h : x ∈ l ∨ x ≤ a) : x ≤ l.foldl max a := by
  induction l generalizing a with
  | nil => simpa using h
  | cons b l ih =>
    simp only [List.foldl_cons]
    apply ih
    rcases h with h | h
    · rcases List.mem_cons.mp h with rfl | h
      · right; omega
      · left; exact h
    · right; omega

theorem foldl_max_mem {l : List ℕ} {a : ℕ} : l.foldl max a ∈ l ∨ l.foldl max a = a := by
  induction l generalizing a with
  | nil => simp
  | cons b l ih =>
    simp only [List.foldl_cons]
    rcases ih (a := max a b) with h | h
    · left; simp [h]
    · rcases max_choice a b with h' | h'
      · right; rw [h, h']
      · left; rw [h, h']; simp

namespace Layouter

theorem mem_shapeCols {shape : List (Op F)} {c : RCol} :
    c ∈ shapeCols shape ↔ ∃ o ∈ shape, o.rcol = some c := List.mem_filterMap

theorem le_startOf (L : Layouter F) {shape : List (Op F)} {c : RCol} (h : c ∈ shapeCols shape) :
    L.colEnd c ≤ L.startOf shape :=
  le_foldl_max (Or.inl (List.mem_map.mpr ⟨c, h, rfl⟩))

theorem startOf_eq (L : Layouter F) {shape : List (Op F)} {s : ℕ}
    (hle : ∀ c ∈ shapeCols shape, L.colEnd c ≤ s) (hex : ∃ c ∈ shapeCols shape, L.colEnd c = s) :
    L.startOf shape = s := by
  apply le_antisymm
  · refine foldl_max_le (by omega) fun x hx => ?_
    obtain ⟨c, hc, rfl⟩ := List.mem_map.mp hx
    exact hle c hc
  · obtain ⟨c, hc, rfl⟩ := hex
    exact L.le_startOf hc

theorem startOf_mem (L : Layouter F) {shape : List (Op F)} (hne : shapeCols shape ≠ []) :
    ∃ c ∈ shapeCols shape, L.colEnd c = L.startOf shape := by
  have h : L.startOf shape ∈ (shapeCols shape).map L.colEnd ∨ L.startOf shape = 0 := foldl_max_mem
  rcases h with h | h
  · obtain ⟨c, hc, e⟩ := List.mem_map.mp h
    exact ⟨c, hc, e⟩
  · obtain ⟨c, hc⟩ := List.exists_mem_of_ne_nil _ hne
    have := L.le_startOf hc
    exact ⟨c, hc, by omega⟩

theorem startOf_top (L : Layouter F) {shape : List (Op F)} {K : RCol → Prop}
    (hK : ∀ c, c ∈ shapeCols shape ↔ K c) (hne : ∃ c, K c) : Top L.colEnd K (L.startOf shape) := by
  obtain ⟨c, hc⟩ := hne
  obtain ⟨c', h1, h2⟩ := L.startOf_mem (List.ne_nil_of_mem ((hK c).mpr hc))
  exact ⟨fun c hc => L.le_startOf ((hK c).mpr hc), c', (hK c').mp h1, h2⟩

theorem shapeRows_eq {shape : List (Op F)} {h : ℕ} (hle : ∀ o ∈ shape, o.bottom ≤ h)
    (hex : ∃ o ∈ shape, o.bottom = h) : shapeRows shape = h := by
  apply le_antisymm
  · refine foldl_max_le (by omega) fun x hx => ?_
    obtain ⟨c, hc, rfl⟩ := List.mem_map.mp hx
    exact hle c hc
  · obtain ⟨o, ho, rfl⟩ := hex
    exact le_foldl_max (Or.inl (List.mem_map.mpr ⟨o, ho, rfl⟩))

theorem serveConstants_none (L : Layouter F) (ops : List (Op F))
    (h : ∀ c v, Op.constant c v ∉ ops) : L.serveConstants ops = .ok L := by
  induction ops with
  | nil => rfl
  | cons o os ih =>
    have ih := ih fun c v hm => h c v (by simp [hm])
    cases o with
    | constant c v => exact absurd (by simp) (h c v)
    | _ => simpa [serveConstants] using ih

/-- A region whose body cannot fail and requests no constants. -/
theorem assignRegion_ok {α : Type} (L : Layouter F) (body : ℕ → W F α)
    (h : ∀ s c v, Op.constant c v ∉ (body s).ops) :
    L.assignRegion (fun s => .ok (body s)) =
      .ok ((body (L.startOf (body 0).ops)).val,
        { colEnd := fun c => if c ∈ shapeCols (body 0).ops then
            L.startOf (body 0).ops + shapeRows (body 0).ops else L.colEnd c
          constCol := L.constCol
          ops := L.ops ++ (body (L.startOf (body 0).ops)).ops }) := by
  unfold assignRegion
  simp only [bind, Except.bind]
  rw [serveConstants_none _ _ (h _)]
  rfl

end Layouter

theorem mapM_ok {α β : Type} (f : α → Except Panic β) (g : α → β) (l : List α)
    (h : ∀ x ∈ l, f x = .ok (g x)) : l.mapM f = .ok (l.map g) := by
  induction l with
  | nil => rfl
  | cons x l ih =>
    rw [List.mapM_cons, h x (by simp), ih fun y hy => h y (by simp [hy])]
    rfl

/-- Regions whose bodies do not fail at their starts. -/
theorem Layouter.assignRegions_ok {α β : Type} (L : Layouter F) (xs : List β)
    (sh : β → List (Op F)) (b : β → ℕ → Except Panic (W F α)) (body : β → ℕ → W F α)
    (starts : List ℕ) (L' : Layouter F) (h : L.placeAll (xs.map sh) = (starts, L'))
    (hb : ∀ q ∈ xs.zip starts, b q.1 q.2 = .ok (body q.1 q.2)) :
    L.assignRegions (xs.map fun x => (sh x, b x)) =
      .ok ((xs.zip starts).map (fun q => (body q.1 q.2).val),
        {L' with ops := L'.ops ++ ((xs.zip starts).map fun q => (body q.1 q.2).ops).flatten}) := by
  unfold Layouter.assignRegions
  have e : (xs.map fun x => (sh x, b x)).map Prod.fst = xs.map sh := by
    rw [List.map_map]; rfl
  have hz : (List.zip (xs.map fun x => (sh x, b x)) starts) =
      (xs.zip starts).map fun q => ((sh q.1, b q.1), q.2) := by
    rw [List.zip_map_left]; rfl
  simp only [e, h, hz, List.mapM_map]
  rw [mapM_ok _ (fun q : β × ℕ => body q.1 q.2)]
  · simp only [bind, Except.bind, pure, Except.pure, List.map_map, List.flatMap_def]
    rfl
  · intro q hq
    exact hb q hq

end Halo2
