import Verif.Halo2.Core
import Mathlib.Data.List.Perm.Basic

/-!
# Threads of `assign_regions`

`layouter.assign_regions` of the scroll fork of halo2 (used in `/repo/poseidon-circuit/src/hash.rs` line 845
and `/repo/poseidon-circuit/src/septidon/instruction.rs` line 100) runs the second calls of the closures in
parallel threads. `Halo2.Layouter.assignRegions` logs their operations one closure after the other; here
they are logged in the order of an arbitrary schedule.
-/

set_option linter.unusedSectionVars false

namespace Halo2

/-- `l` is an interleaving of the lists `ls`: the elements of every list occur in their order. -/
inductive Interleaves {α : Type} : List (List α) → List α → Prop
  /-- every list is used up -/
  | done {ls : List (List α)} : (∀ l ∈ ls, l = []) → Interleaves ls []
  /-- the next element is the first one of list number `i` -/
  | step {ls : List (List α)} {i : ℕ} {a : α} {rest l : List α} :
      ls[i]? = some (a :: rest) → Interleaves (ls.set i rest) l → Interleaves ls (a :: l)

/-- A scheduler: the order in which the operations of the threads happen. -/
abbrev Scheduler (F : Type) := List (List (Op F)) → List (Op F)

/-- A scheduler may order the operations of different threads as it likes, but not those of one thread. -/
def Scheduler.Fair {F : Type} (σ : Scheduler F) : Prop := ∀ ls, Interleaves ls (σ ls)

variable {F : Type} [Field F]

namespace Layouter
variable {α : Type}

/-- `layouter.assign_regions(bodies)` of the scroll fork, as `Layouter.assignRegions`, with the operations
of the parallel second calls in the order of a scheduler. A closure that panics makes the call panic; of
several panics the model reports the first one. -/
def assignRegionsBy (σ : Scheduler F) (L : Layouter F)
    (items : List (List (Op F) × (ℕ → Except Panic (W F α)))) : Except Panic (List α × Layouter F) := do
  let (starts, L') := L.placeAll (items.map Prod.fst)
  let outs ← (List.zip items starts).mapM fun (it, s) => it.2 s
  return (outs.map W.val, {L' with ops := L'.ops ++ σ (outs.map W.ops)})

/-- One closure after the other. -/
theorem assignRegionsBy_flatten (L : Layouter F)
    (items : List (List (Op F) × (ℕ → Except Panic (W F α)))) :
    L.assignRegionsBy List.flatten items = L.assignRegions items := rfl

end Layouter

/-! ## Interleavings -/

section
variable {α : Type}

theorem Interleaves.perm {ls : List (List α)} {l : List α} (h : Interleaves ls l) : l.Perm ls.flatten := by
  induction h with
  | done h => rw [List.flatten_eq_nil_iff.mpr h]
  | @step ls i a rest l hi _ ih =>
    obtain ⟨hlt, e⟩ := List.getElem?_eq_some_iff.mp hi
    have h1 : ls = ls.take i ++ (a :: rest) :: ls.drop (i + 1) := by
      rw [← e, List.getElem_cons_drop, List.take_append_drop]
    have h2 : ls.set i rest = ls.take i ++ rest :: ls.drop (i + 1) := List.set_eq_take_append_cons_drop.trans
      (if_pos hlt)
    rw [h2] at ih
    rw [h1]
    simp only [List.flatten_append, List.flatten_cons] at ih ⊢
    refine (ih.cons a).trans ?_
    exact List.perm_middle.symm

theorem Interleaves.filter {ls : List (List α)} {l : List α} (h : Interleaves ls l) (p : α → Bool)
    (hp : ls.Pairwise fun l₁ l₂ => (∀ a ∈ l₁, p a = false) ∨ ∀ a ∈ l₂, p a = false) :
    l.filter p = ls.flatten.filter p := by
  induction h with
  | done h => rw [List.flatten_eq_nil_iff.mpr h]
  | @step ls i a rest l hi _ ih =>
    obtain ⟨hlt, e⟩ := List.getElem?_eq_some_iff.mp hi
    have h1 : ls = ls.take i ++ (a :: rest) :: ls.drop (i + 1) := by
      rw [← e, List.getElem_cons_drop, List.take_append_drop]
    have h2 : ls.set i rest = ls.take i ++ rest :: ls.drop (i + 1) := List.set_eq_take_append_cons_drop.trans
      (if_pos hlt)
    rw [h2] at ih
    generalize ls.take i = us at h1 h2 ih
    generalize ls.drop (i + 1) = vs at h1 h2 ih
    subst h1
    rw [List.pairwise_append, List.pairwise_cons] at hp ih
    obtain ⟨p1, ⟨p2, p3⟩, p4⟩ := hp
    have ih := ih ⟨p1, ⟨fun v hv => (p2 v hv).imp_left fun h x hx => h x (by simp [hx]), p3⟩, fun u hu v hv => by
      rcases List.mem_cons.mp hv with rfl | hv
      · exact (p4 u hu (a :: _) List.mem_cons_self).imp_right fun h x hx => h x (List.mem_cons_of_mem _ hx)
      · exact p4 u hu v (by simp [hv])⟩
    cases ha : p a with
    | false =>
      rw [List.filter_cons_of_neg (by simp [ha]), ih]
      simp [ha]
    | true =>
      rw [List.filter_cons_of_pos ha, ih]
      have hu : us.flatten.filter p = [] := by
        rw [List.filter_eq_nil_iff]
        intro x hx
        obtain ⟨u, hu, hxu⟩ := List.mem_flatten.mp hx
        rcases p4 u hu (a :: rest) List.mem_cons_self with h | h
        · simp [h x hxu]
        · rw [h a (by simp)] at ha; cases ha
      simp [hu, ha]

/-- One list after the other is an interleaving. -/
theorem interleaves_flatten (ls : List (List α)) : Interleaves ls ls.flatten := by
  have key : ∀ (n k : ℕ) (ls : List (List α)), ls.flatten.length = n → Interleaves ls ls.flatten := by
    intro n
    induction n with
    | zero =>
      intro _ ls h
      rw [List.length_eq_zero_iff] at h
      rw [h]
      exact .done (List.flatten_eq_nil_iff.mp h)
    | succ n ih =>
      intro _ ls h
      have hex : ∃ us a rest vs, ls = us ++ (a :: rest) :: vs ∧ ∀ u ∈ us, u = [] := by
        clear ih
        induction ls with
        | nil => simp at h
        | cons l ls ih =>
          cases l with
          | nil =>
            obtain ⟨us, a, rest, vs, e, hu⟩ := ih (by simpa using h)
            exact ⟨[] :: us, a, rest, vs, by rw [e]; rfl, by simpa using hu⟩
          | cons a rest => exact ⟨[], a, rest, ls, rfl, by simp⟩
      obtain ⟨us, a, rest, vs, rfl, hu⟩ := hex
      have hu' : us.flatten = [] := List.flatten_eq_nil_iff.mpr hu
      have e : (us ++ (a :: rest) :: vs).flatten = a :: (us ++ rest :: vs).flatten := by simp [hu']
      rw [e]
      refine .step (i := us.length) (rest := rest) (by simp) ?_
      have : (us ++ (a :: rest) :: vs).set us.length rest = us ++ rest :: vs := by simp
      rw [this]
      exact ih 0 _ (by rw [e] at h; simpa using h)
  exact key _ 0 ls rfl

theorem List.set_reverse {β : Type} (l : List β) (i : ℕ) (hi : i < l.length) (x : β) :
    (l.set i x).reverse = l.reverse.set (l.length - 1 - i) x := by
  apply List.ext_getElem
  · simp
  · intro k h1 h2
    simp only [List.length_reverse, List.length_set] at h1
    simp only [List.getElem_reverse, List.getElem_set, List.length_set]
    split_ifs <;> first | rfl | omega

/-- Reversing the order of the threads does not change the interleavings. -/
theorem Interleaves.reverse {ls : List (List α)} {l : List α} (h : Interleaves ls l) :
    Interleaves ls.reverse l := by
  induction h with
  | done h => exact .done fun l hl => h l (List.mem_reverse.mp hl)
  | @step ls i a rest l hi _ ih =>
    obtain ⟨hlt, e⟩ := List.getElem?_eq_some_iff.mp hi
    rw [List.set_reverse _ _ hlt] at ih
    refine .step ?_ ih
    rw [List.getElem?_reverse (by omega), show ls.length - 1 - (ls.length - 1 - i) = i by omega, hi]

end

theorem fair_flatten : Scheduler.Fair (F := F) List.flatten := interleaves_flatten

/-- The last thread first. -/
theorem fair_reverse : Scheduler.Fair (F := F) fun ls => ls.reverse.flatten := fun ls => by
  have := (interleaves_flatten ls.reverse).reverse
  rwa [List.reverse_reverse] at this

/-! ## Logs with the same effect -/

/-- The operation writes the given row of the given column. -/
def Op.hits (t : RCol) (r : ℕ) : Op F → Bool
  | .advice c r' _ => decide (t = .advice c ∧ r' = r)
  | .fixed c r' _ => decide (t = .fixed c ∧ r' = r)
  | .selector s r' => decide (t = .selector s ∧ r' = r)
  | .fill c r' _ => decide (t = .fixed c ∧ r' ≤ r)
  | _ => false

/-- The same operations, and every cell sees the same writes in the same order. -/
structure SameWrites (l l' : List (Op F)) : Prop where
  perm : l.Perm l'
  writes : ∀ t r, l.filter (Op.hits t r) = l'.filter (Op.hits t r)

theorem SameWrites.refl (l : List (Op F)) : SameWrites l l := ⟨.refl _, fun _ _ => rfl⟩

theorem SameWrites.trans {a b c : List (Op F)} (h : SameWrites a b) (h' : SameWrites b c) : SameWrites a c :=
  ⟨h.1.trans h'.1, fun t r => (h.2 t r).trans (h'.2 t r)⟩

theorem SameWrites.append {a b c d : List (Op F)} (h : SameWrites a b) (h' : SameWrites c d) :
    SameWrites (a ++ c) (b ++ d) :=
  ⟨h.1.append h'.1, fun t r => by rw [List.filter_append, List.filter_append, h.2, h'.2]⟩

theorem foldl_filter_hits {β : Type} (f : β → Op F → β) (p : Op F → Bool) (h : ∀ b o, p o = false → f b o = b)
    (l : List (Op F)) (b : β) : l.foldl f b = (l.filter p).foldl f b := by
  induction l generalizing b with
  | nil => rfl
  | cons o l ih =>
    cases ho : p o with
    | false => rw [List.filter_cons_of_neg (by simp [ho]), List.foldl_cons, h b o ho, ih]
    | true => rw [List.filter_cons_of_pos ho, List.foldl_cons, List.foldl_cons, ih]

theorem finalAdvice_filter (l : List (Op F)) (c r : ℕ) :
    finalAdvice l c r = finalAdvice (l.filter (Op.hits (.advice c) r)) c r := by
  refine foldl_filter_hits _ _ (fun b o ho => ?_) l 0
  cases o <;> simp only [Op.hits, RCol.advice.injEq, decide_eq_false_iff_not] at ho ⊢
  rw [if_neg]
  rintro ⟨rfl, rfl⟩
  exact ho ⟨rfl, rfl⟩

theorem finalFixed_filter (l : List (Op F)) (c r : ℕ) :
    finalFixed l c r = finalFixed (l.filter (Op.hits (.fixed c) r)) c r := by
  refine foldl_filter_hits _ _ (fun b o ho => ?_) l 0
  cases o <;> simp only [Op.hits, RCol.fixed.injEq, decide_eq_false_iff_not] at ho ⊢
  all_goals
    rw [if_neg]
    rintro ⟨rfl, h⟩
    exact ho ⟨rfl, h⟩

theorem SameWrites.finalAdvice {l l' : List (Op F)} (h : SameWrites l l') (c r : ℕ) :
    finalAdvice l c r = finalAdvice l' c r := by
  rw [finalAdvice_filter l, finalAdvice_filter l', h.2]

theorem SameWrites.finalFixed {l l' : List (Op F)} (h : SameWrites l l') (c r : ℕ) :
    finalFixed l c r = finalFixed l' c r := by
  rw [finalFixed_filter l, finalFixed_filter l', h.2]

theorem SameWrites.finalSelector {l l' : List (Op F)} (h : SameWrites l l') (s r : ℕ) :
    finalSelector l s r = finalSelector l' s r := by
  unfold Halo2.finalSelector
  rw [Bool.eq_iff_iff, List.any_eq_true, List.any_eq_true]
  exact ⟨fun ⟨o, h1, h2⟩ => ⟨o, h.1.mem_iff.mp h1, h2⟩, fun ⟨o, h1, h2⟩ => ⟨o, h.1.mem_iff.mpr h1, h2⟩⟩

/-! ## Regions on disjoint rows -/

/-- Every cell the operation writes is in rows `s` to `s + h - 1`. -/
def Op.Within (s h : ℕ) : Op F → Prop
  | .advice _ r _ => s ≤ r ∧ r < s + h
  | .fixed _ r _ => s ≤ r ∧ r < s + h
  | .selector _ r => s ≤ r ∧ r < s + h
  | .fill _ _ _ => False
  | .copy _ _ => True
  | .constant _ _ => True

theorem Op.Within.hits {s h : ℕ} {o : Op F} (w : o.Within s h) {t : RCol} {r : ℕ} (hr : Op.hits t r o = true) :
    s ≤ r ∧ r < s + h := by
  cases o <;> simp only [Op.Within, Op.hits, decide_eq_true_eq, Bool.false_eq_true] at w hr
  · exact hr.2 ▸ w
  · exact hr.2 ▸ w
  · exact hr.2 ▸ w

namespace Layouter
variable {α : Type}

/-- Regions that show a common column to the floor planner are put one below the other. -/
theorem placeAll_apart (C : RCol) (shapes : List (List (Op F))) :
    ∀ L : Layouter F, (∀ sh ∈ shapes, C ∈ shapeCols sh) →
      (L.placeAll shapes).1.length = shapes.length ∧
      (∀ q ∈ shapes.zip (L.placeAll shapes).1, L.colEnd C ≤ q.2) ∧
      (shapes.zip (L.placeAll shapes).1).Pairwise fun q q' => q.2 + shapeRows q.1 ≤ q'.2 := by
  induction shapes with
  | nil => exact fun L _ => ⟨rfl, by simp, by simp [placeAll]⟩
  | cons sh shapes ih =>
    intro L h
    obtain ⟨i1, i2, i3⟩ := ih (L.reserve sh (L.startOf sh)) fun s hs => h s (by simp [hs])
    have hC := h sh (by simp)
    have h0 : L.colEnd C ≤ L.startOf sh := by
      unfold startOf
      have : ∀ (l : List ℕ) (b x : ℕ), x ∈ l ∨ x ≤ b → x ≤ l.foldl max b := by
        intro l
        induction l with
        | nil => intro b x h; simpa using h
        | cons y l ih =>
          intro b x h
          refine ih _ _ ?_
          rcases h with h | h
          · rcases List.mem_cons.mp h with rfl | h
            · exact Or.inr (le_max_right _ _)
            · exact Or.inl h
          · exact Or.inr (h.trans (le_max_left _ _))
      exact this _ _ _ (Or.inl (List.mem_map_of_mem hC))
    have h1 : (L.reserve sh (L.startOf sh)).colEnd C = L.startOf sh + shapeRows sh := by
      simp [reserve, hC]
    have e : (L.placeAll (sh :: shapes)).1 = L.startOf sh :: ((L.reserve sh (L.startOf sh)).placeAll shapes).1 := rfl
    rw [h1] at i2
    rw [e, List.zip_cons_cons]
    refine ⟨by simp [i1], fun q hq => ?_, List.pairwise_cons.mpr ⟨fun q hq => i2 q hq, i3⟩⟩
    rcases List.mem_cons.mp hq with rfl | hq
    · exact h0
    · have := i2 q hq; omega

/-- Layouters that differ only in the order of the operations after a common start `p` of the log. -/
structure Sim (p : List (Op F)) (L L' : Layouter F) : Prop where
  colEnd : L.colEnd = L'.colEnd
  constCol : L.constCol = L'.constCol
  ops : ∃ l l', L.ops = p ++ l ∧ L'.ops = p ++ l' ∧ SameWrites l l'

theorem Sim.refl {p : List (Op F)} (L : Layouter F) (h : p <+: L.ops) : Sim p L L := by
  obtain ⟨l, h⟩ := h
  exact ⟨rfl, rfl, l, l, h.symm, h.symm, .refl l⟩

theorem Sim.trans {p : List (Op F)} {L₁ L₂ L₃ : Layouter F} (h : Sim p L₁ L₂) (h' : Sim p L₂ L₃) : Sim p L₁ L₃ := by
  obtain ⟨a, b, l, l', e, e', s⟩ := h
  obtain ⟨a', b', m, m', d, d', t⟩ := h'
  rw [e'] at d
  have := List.append_cancel_left d
  subst this
  exact ⟨a.trans a', b.trans b', l, m', e, d', s.trans t⟩

/-- Two outcomes that differ only in the order of the logged operations. -/
def SimOut (p : List (Op F)) : Except Panic (α × Layouter F) → Except Panic (α × Layouter F) → Prop
  | .ok (a, L), .ok (a', L') => a = a' ∧ Sim p L L'
  | .error e, .error e' => e = e'
  | _, _ => False

theorem SimOut.trans {p : List (Op F)} {x y z : Except Panic (α × Layouter F)} (h : SimOut p x y)
    (h' : SimOut p y z) : SimOut p x z := by
  cases x <;> cases y <;> cases z <;> simp only [SimOut] at h h' ⊢
  · exact h.trans h'
  · exact ⟨h.1.trans h'.1, h.2.trans h'.2⟩

theorem SimOut.bind {β : Type} {p : List (Op F)} {x y : Except Panic (α × Layouter F)} (h : SimOut p x y)
    {f g : α × Layouter F → Except Panic (β × Layouter F)}
    (hfg : ∀ a L L', Sim p L L' → SimOut p (f (a, L)) (g (a, L'))) : SimOut p (x >>= f) (y >>= g) := by
  cases x <;> cases y <;> simp only [SimOut] at h
  · exact h
  · obtain ⟨h1, h2⟩ := h
    rename_i u v
    obtain ⟨a, L⟩ := u
    obtain ⟨a', L'⟩ := v
    obtain rfl : a = a' := h1
    exact hfg a L L' h2

theorem startOf_congr {L L' : Layouter F} (h : L.colEnd = L'.colEnd) (sh : List (Op F)) :
    L.startOf sh = L'.startOf sh := by simp only [startOf, h]

theorem serveConstants_sim {p : List (Op F)} (os : List (Op F)) : ∀ {L L' : Layouter F}, Sim p L L' →
    match L.serveConstants os, L'.serveConstants os with
    | .ok M, .ok M' => Sim p M M'
    | .error e, .error e' => e = e'
    | _, _ => False := by
  induction os with
  | nil => exact fun h => h
  | cons o os ih =>
    intro L L' h
    cases o with
    | constant c v =>
      simp only [serveConstants, ← h.constCol]
      cases hk : L.constCol with
      | none => rfl
      | some k =>
        refine ih ⟨?_, ?_, ?_⟩
        · simp only [h.colEnd]
        · rfl
        · obtain ⟨l, l', e, e', s⟩ := h.ops
          simp only [h.colEnd, e, e', List.append_assoc]
          exact ⟨_, _, rfl, rfl, s.append (.refl _)⟩
    | _ => exact ih h

theorem assignRegion_sim {p : List (Op F)} {L L' : Layouter F} (h : Sim p L L') (body : ℕ → Except Panic (W F α)) :
    SimOut p (L.assignRegion body) (L'.assignRegion body) := by
  unfold assignRegion
  simp only [bind, Except.bind, pure, Except.pure, ← startOf_congr h.colEnd]
  cases body 0 with
  | error e => exact rfl
  | ok shape =>
    simp only
    cases body (L.startOf shape.ops) with
    | error e => exact rfl
    | ok out =>
      simp only
      have hs : Sim p {L.reserve shape.ops (L.startOf shape.ops) with
          ops := (L.reserve shape.ops (L.startOf shape.ops)).ops ++ out.ops}
          {L'.reserve shape.ops (L.startOf shape.ops) with
          ops := (L'.reserve shape.ops (L.startOf shape.ops)).ops ++ out.ops} := by
        obtain ⟨l, l', e, e', s⟩ := h.ops
        refine ⟨by simp only [reserve, h.colEnd], h.constCol, l ++ out.ops, l' ++ out.ops, ?_, ?_, s.append (.refl _)⟩
        · simp [reserve, e]
        · simp [reserve, e']
      have := serveConstants_sim out.ops hs
      revert this
      cases serveConstants _ out.ops <;> cases serveConstants _ out.ops <;> intro this
      · exact this
      · exact this.elim
      · exact this.elim
      · exact ⟨rfl, this⟩

theorem placeAll_sim {p : List (Op F)} (shapes : List (List (Op F))) : ∀ {L L' : Layouter F}, Sim p L L' →
    (L.placeAll shapes).1 = (L'.placeAll shapes).1 ∧ Sim p (L.placeAll shapes).2 (L'.placeAll shapes).2 := by
  induction shapes with
  | nil => exact fun h => ⟨rfl, h⟩
  | cons sh shapes ih =>
    intro L L' h
    have hs : Sim p (L.reserve sh (L.startOf sh)) (L'.reserve sh (L'.startOf sh)) :=
      ⟨by simp only [reserve, h.colEnd, startOf_congr h.colEnd], h.constCol, h.ops⟩
    obtain ⟨h1, h2⟩ := ih hs
    exact ⟨congrArg₂ List.cons (startOf_congr h.colEnd sh) h1, h2⟩

/-- The outputs of the closures, by region. -/
theorem mapM_outs {β : Type} (f : β → Except Panic α) : ∀ {l : List β} {outs : List α}, l.mapM f = .ok outs →
    List.Forall₂ (fun b a => f b = .ok a) l outs := by
  intro l
  induction l with
  | nil =>
    intro outs h
    obtain rfl : outs = [] := by
      have : (Except.ok [] : Except Panic (List α)) = .ok outs := h
      injection this with this
      exact this.symm
    exact .nil
  | cons b l ih =>
    intro outs h
    rw [List.mapM_cons] at h
    simp only [bind, Except.bind, pure, Except.pure] at h
    split at h
    · cases h
    · rename_i a ha
      split at h
      · cases h
      · rename_i as has
        injection h with h
        subst h
        exact .cons ha (ih has)

/-- Whatever the schedule, `assign_regions` has the same outcome up to the order of the log, provided that
the regions show a common column to the floor planner and that the closures write within the rows they
have shown to it. -/
theorem assignRegionsBy_sim {p : List (Op F)} {L L' : Layouter F} (h : Sim p L L') {σ : Scheduler F} (hσ : σ.Fair)
    (C : RCol) (items : List (List (Op F) × (ℕ → Except Panic (W F α))))
    (hC : ∀ it ∈ items, C ∈ shapeCols it.1)
    (hw : ∀ it ∈ items, ∀ s w, it.2 s = .ok w → ∀ o ∈ w.ops, o.Within s (shapeRows it.1)) :
    SimOut p (L.assignRegionsBy σ items) (L'.assignRegions items) := by
  obtain ⟨p1, p2⟩ := placeAll_sim (items.map Prod.fst) h
  obtain ⟨hl, -, hap⟩ := L'.placeAll_apart C (items.map Prod.fst) (by simpa using fun a b hm => hC (a, b) hm)
  unfold assignRegionsBy assignRegions
  simp only [p1]
  generalize L.placeAll (items.map Prod.fst) = q at p1 p2
  generalize L'.placeAll (items.map Prod.fst) = q' at p1 p2 hl hap
  obtain ⟨starts, M⟩ := q'
  simp only at hl hap p1 p2 ⊢
  simp only [bind, Except.bind, pure, Except.pure]
  cases hm : (List.zip items starts).mapM fun (it, s) => it.2 s with
  | error e => exact rfl
  | ok outs =>
    refine ⟨rfl, p2.colEnd, p2.constCol, ?_⟩
    obtain ⟨l, l', e, e', s⟩ := p2.ops
    refine ⟨l ++ σ (outs.map W.ops), l' ++ outs.flatMap W.ops, by simp [e], by simp [e'], s.append ?_⟩
    have hf := mapM_outs _ hm
    have hint := hσ (outs.map W.ops)
    refine ⟨hint.perm, fun t r => hint.filter _ ?_⟩
    -- the logs of two closures write disjoint rows
    rw [List.pairwise_map]
    have hap' : (List.zip items starts).Pairwise fun q q' => q.2 + shapeRows q.1.1 ≤ q'.2 := by
      rw [List.zip_map_left, List.pairwise_map] at hap
      exact hap
    have hw' : ∀ q ∈ List.zip items starts, ∀ w, q.1.2 q.2 = .ok w → ∀ o ∈ w.ops, o.Within q.2 (shapeRows q.1.1) :=
      fun q hq w e => hw q.1 (List.of_mem_zip hq).1 q.2 w e
    clear hm hint hap
    generalize List.zip items starts = z at hf hap' hw'
    induction hf with
    | nil => exact .nil
    | @cons a b la lb hab _ ih =>
      rw [List.pairwise_cons] at hap' ⊢
      refine ⟨fun w hwm => ?_, ih hap'.2 fun q hq => hw' q (by simp [hq])⟩
      rename_i hrest
      obtain ⟨a', ha', hab'⟩ : ∃ a' ∈ la, a'.1.2 a'.2 = .ok w := by
        clear ih hap' hw' hab
        induction hrest with
        | nil => simp at hwm
        | cons h1 _ ih =>
          rcases List.mem_cons.mp hwm with rfl | hwm
          · exact ⟨_, by simp, h1⟩
          · obtain ⟨a', h2, h3⟩ := ih hwm
            exact ⟨a', by simp [h2], h3⟩
      have hle := hap'.1 a' ha'
      by_cases hr : r < a.2 + shapeRows a.1.1
      · refine Or.inr fun o ho => ?_
        by_contra hne
        have := (hw' a' (by simp [ha']) w hab' o ho).hits (by simpa using hne)
        omega
      · refine Or.inl fun o ho => ?_
        by_contra hne
        have := (hw' a (by simp) b hab o ho).hits (by simpa using hne)
        omega

end Layouter
end Halo2
