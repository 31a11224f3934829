import Verif.Circuit.Values
import Mathlib.Tactic.FinCases

/-!
# Values and known values

The code with values that may be unknown (`Circuit/Values.lean`) follows the code with known values: the same
operations on the same cells, every value either the same or unknown.
-/

set_option linter.unusedVariables false
set_option linter.unusedSectionVars false

open Halo2

namespace Circuit.Vals

variable {F : Type} {b d : Prop} {α α' β β' : Type}

/-- `v` is the known value `x`, or `v` is unknown and `b` holds. -/
def Tracks (b : Prop) (v : Value F) (x : F) : Prop := v = some x ∨ (b ∧ v = none)

/-- The same operation, where only the value of an advice cell may be unknown (if `b` holds). -/
def OpTracks (b : Prop) : Op (Value F) → Op F → Prop
  | .advice c r v, .advice c' r' x => c = c' ∧ r = r' ∧ Tracks b v x
  | .fixed c r v, .fixed c' r' x => c = c' ∧ r = r' ∧ v = some x
  | .selector s r, .selector s' r' => s = s' ∧ r = r'
  | .copy a d, .copy a' d' => a = a' ∧ d = d'
  | .constant c v, .constant c' x => c = c' ∧ v = some x
  | .fill c r v, .fill c' r' x => c = c' ∧ r = r' ∧ v = some x
  | _, _ => False

/-- The same cell, the value tracked. -/
def CellTracks (b : Prop) (c : ACell (Value F)) (c' : ACell F) : Prop :=
  c.cell = c'.cell ∧ Tracks b c.value c'.value

/-- Related results and operations. -/
def WTracks (b : Prop) (R : α → α' → Prop) (w : W (Value F) α) (w' : W F α') : Prop :=
  R w.val w'.val ∧ List.Forall₂ (OpTracks b) w.ops w'.ops

/-- The same column ends and constants column, and related operations. -/
def LTracks (b : Prop) (L : Layouter (Value F)) (L' : Layouter F) : Prop :=
  L.colEnd = L'.colEnd ∧ L.constCol = L'.constCol ∧ List.Forall₂ (OpTracks b) L.ops L'.ops

/-- Both succeed with related results, or both panic in the same way. -/
def ETracks (R : α → α' → Prop) : Except Panic α → Except Panic α' → Prop
  | .ok a, .ok a' => R a a'
  | .error e, .error e' => e = e'
  | _, _ => False

/-! ## Values -/

theorem tracks_known (x : F) : Tracks b (Value.known x) x := Or.inl rfl

theorem Tracks.map (f : F → F) {v : Value F} {x : F} (h : Tracks b v x) : Tracks b (Value.map f v) (f x) := by
  rcases h with rfl | ⟨hb, rfl⟩
  · exact Or.inl rfl
  · exact Or.inr ⟨hb, rfl⟩

theorem Tracks.add [Add F] {v w : Value F} {x y : F} (h : Tracks b v x) (h' : Tracks b w y) :
    Tracks b (Value.add v w) (x + y) := by
  rcases h with rfl | ⟨hb, rfl⟩ <;> rcases h' with rfl | ⟨hb', rfl⟩
  · exact Or.inl rfl
  · exact Or.inr ⟨hb', rfl⟩
  · exact Or.inr ⟨hb, rfl⟩
  · exact Or.inr ⟨hb, rfl⟩

theorem Tracks.mul [Mul F] {v w : Value F} {x y : F} (h : Tracks b v x) (h' : Tracks b w y) :
    Tracks b (Value.mul v w) (x * y) := by
  rcases h with rfl | ⟨hb, rfl⟩ <;> rcases h' with rfl | ⟨hb', rfl⟩
  · exact Or.inl rfl
  · exact Or.inr ⟨hb', rfl⟩
  · exact Or.inr ⟨hb, rfl⟩
  · exact Or.inr ⟨hb, rfl⟩

theorem add_none_left [Add F] (v : Value F) : Value.add none v = none := by cases v <;> rfl
theorem add_none_right [Add F] (v : Value F) : Value.add v none = none := by cases v <;> rfl
theorem mul_none_right [Mul F] (v : Value F) : Value.mul v none = none := by cases v <;> rfl

/-! ## Operations -/

theorem wtracks_pure {R : α → α' → Prop} {a : α} {a' : α'} (h : R a a') :
    WTracks (F := F) b R (pure a) (pure a') := ⟨h, .nil⟩

theorem WTracks.bind {R : α → α' → Prop} {R' : β → β' → Prop} {w : W (Value F) α} {w' : W F α'}
    {f : α → W (Value F) β} {f' : α' → W F β'} (h : WTracks b R w w')
    (hf : ∀ a a', R a a' → WTracks b R' (f a) (f' a')) : WTracks b R' (w >>= f) (w' >>= f') :=
  ⟨(hf _ _ h.1).1, List.rel_append h.2 (hf _ _ h.1).2⟩

theorem wtracks_loop {R : α → α' → Prop} {f : ℕ → α → W (Value F) α} {f' : ℕ → α' → W F α'}
    (hf : ∀ i a a', R a a' → WTracks b R (f i a) (f' i a')) (n : ℕ) {a : α} {a' : α'} (h : R a a') :
    WTracks b R (W.loop f n a) (W.loop f' n a') := by
  induction n with
  | zero => exact wtracks_pure h
  | succ n ih => exact ih.bind (hf n)

theorem wtracks_forFin {R : α → α' → Prop} {n : ℕ} {f : Fin n → W (Value F) α} {f' : Fin n → W F α'}
    (hf : ∀ i, WTracks b R (f i) (f' i)) :
    WTracks b (fun u u' => ∀ i, R (u i) (u' i)) (forFin n f) (forFin n f') := by
  refine ⟨fun i => (hf i).1, ?_⟩
  simp only [forFin]
  induction List.finRange n with
  | nil => exact .nil
  | cons i l ih =>
    rw [List.flatMap_cons, List.flatMap_cons]
    exact List.rel_append (hf i).2 ih

theorem wtracks_advice (start col offset : ℕ) {v : Value F} {x : F} (h : Tracks b v x) :
    WTracks b (CellTracks b) (assignAdvice start col offset v) (assignAdvice start col offset x) :=
  ⟨⟨rfl, h⟩, .cons ⟨rfl, rfl, h⟩ .nil⟩

theorem wtracks_fixed (start col offset : ℕ) (x : F) :
    WTracks b (CellTracks b) (assignFixed start col offset (Value.known x)) (assignFixed start col offset x) :=
  ⟨⟨rfl, Or.inl rfl⟩, .cons ⟨rfl, rfl, rfl⟩ .nil⟩

theorem wtracks_selector (start sel offset : ℕ) :
    WTracks (F := F) b (fun _ _ => True) (enableSelector start sel offset) (enableSelector start sel offset) :=
  ⟨trivial, .cons ⟨rfl, rfl⟩ .nil⟩

theorem wtracks_copy {c : ACell (Value F)} {c' : ACell F} (h : CellTracks b c c') (start col offset : ℕ) :
    WTracks b (CellTracks b) (copyAdvice c start col offset) (copyAdvice c' start col offset) :=
  ⟨⟨rfl, h.2⟩, .cons ⟨rfl, rfl, h.2⟩ (.cons ⟨rfl, h.1⟩ .nil)⟩

theorem wtracks_constant (start col offset : ℕ) (x : F) :
    WTracks b (CellTracks b) (assignAdviceFromConstant start col offset (Value.known x))
      (assignAdviceFromConstant start col offset x) :=
  ⟨⟨rfl, Or.inl rfl⟩, .cons ⟨rfl, rfl, Or.inl rfl⟩ (.cons ⟨rfl, rfl⟩ .nil)⟩

/-! ## The layouter -/

theorem OpTracks.rcol {o : Op (Value F)} {o' : Op F} (h : OpTracks b o o') : o.rcol = o'.rcol := by
  cases o <;> cases o' <;> simp only [OpTracks] at h <;> simp [Op.rcol, h]

theorem OpTracks.bottom {o : Op (Value F)} {o' : Op F} (h : OpTracks b o o') : o.bottom = o'.bottom := by
  cases o <;> cases o' <;> simp only [OpTracks] at h <;> simp [Op.bottom, h]

theorem tracks_shapeCols {s : List (Op (Value F))} {s' : List (Op F)} (h : List.Forall₂ (OpTracks b) s s') :
    Layouter.shapeCols s = Layouter.shapeCols s' := by
  induction h with
  | nil => rfl
  | cons h _ ih => simp only [Layouter.shapeCols, List.filterMap_cons, h.rcol] at ih ⊢; rw [ih]

theorem tracks_shapeRows {s : List (Op (Value F))} {s' : List (Op F)} (h : List.Forall₂ (OpTracks b) s s') :
    Layouter.shapeRows s = Layouter.shapeRows s' := by
  have : s.map Op.bottom = s'.map Op.bottom := by
    induction h with
    | nil => rfl
    | cons h _ ih => simp only [List.map_cons, h.bottom, ih]
  simp only [Layouter.shapeRows, this]

theorem OpTracks.mono [hbd : Fact (b → d)] {o : Op (Value F)} {o' : Op F} (h : OpTracks b o o') : OpTracks d o o' := by
  cases o <;> cases o' <;> simp only [OpTracks] at h ⊢ <;> try exact h
  exact ⟨h.1, h.2.1, h.2.2.imp id fun h => ⟨hbd.out h.1, h.2⟩⟩

instance : Fact (b → b) := ⟨id⟩
instance : Fact (b → True) := ⟨fun _ => trivial⟩

variable [Fact (b → d)]

theorem ltracks_serve {s : List (Op (Value F))} {s' : List (Op F)} (h : List.Forall₂ (OpTracks b) s s') :
    ∀ {L : Layouter (Value F)} {L' : Layouter F}, LTracks d L L' →
      ETracks (LTracks d) (L.serveConstants s) (L'.serveConstants s') := by
  induction h with
  | nil => exact fun hL => hL
  | @cons o o' s s' h hs ih =>
    intro L L' hL
    cases o <;> cases o' <;> simp only [OpTracks] at h
    case constant.constant c v c' x =>
      obtain ⟨rfl, rfl⟩ := h
      obtain ⟨e1, e2, e3⟩ := hL
      simp only [Layouter.serveConstants, e2]
      cases L'.constCol with
      | none => rfl
      | some k =>
        simp only
        refine ih ⟨?_, rfl, List.rel_append e3 (.cons ⟨rfl, ?_, rfl⟩ (.cons ⟨?_, rfl⟩ .nil))⟩
        · simp only [e1]
        · simp only [e1]
        · simp only [e1]
    all_goals exact ih hL

theorem ltracks_region {R : α → α' → Prop} {body : ℕ → W (Value F) α} {body' : ℕ → W F α'}
    (hb : ∀ s, WTracks b R (body s) (body' s)) {L : Layouter (Value F)} {L' : Layouter F} (hL : LTracks d L L') :
    ETracks (fun u u' => R u.1 u'.1 ∧ LTracks d u.2 u'.2) (L.assignRegion fun s => .ok (body s))
      (L'.assignRegion fun s => .ok (body' s)) := by
  obtain ⟨e1, e2, e3⟩ := hL
  have hst : L.startOf (body 0).ops = L'.startOf (body' 0).ops := by
    simp only [Layouter.startOf, tracks_shapeCols (hb 0).2, e1]
  simp only [Layouter.assignRegion, bind, Except.bind, pure, Except.pure, hst]
  have := ltracks_serve (b := b) (hb (L'.startOf (body' 0).ops)).2
    (L := { L.reserve (body 0).ops (L'.startOf (body' 0).ops) with
      ops := (L.reserve (body 0).ops (L'.startOf (body' 0).ops)).ops ++ (body (L'.startOf (body' 0).ops)).ops })
    (L' := { L'.reserve (body' 0).ops (L'.startOf (body' 0).ops) with
      ops := (L'.reserve (body' 0).ops (L'.startOf (body' 0).ops)).ops ++ (body' (L'.startOf (body' 0).ops)).ops })
    ⟨by simp only [Layouter.reserve, tracks_shapeCols (hb 0).2, tracks_shapeRows (hb 0).2, e1], e2,
      List.rel_append e3 ((hb _).2.imp fun _ _ h => h.mono)⟩
  revert this
  generalize Layouter.serveConstants _ _ = x
  generalize Layouter.serveConstants _ _ = y
  intro h
  cases x <;> cases y <;> simp only [ETracks] at h ⊢
  · exact h
  · exact ⟨(hb _).1, h⟩

theorem ETracks.bind {R : α → α' → Prop} {R' : β → β' → Prop} {x : Except Panic α} {y : Except Panic α'}
    {f : α → Except Panic β} {f' : α' → Except Panic β'} (h : ETracks R x y)
    (hf : ∀ a a', R a a' → ETracks R' (f a) (f' a')) : ETracks R' (x >>= f) (y >>= f') := by
  cases x <;> cases y <;> simp only [ETracks] at h
  · exact h
  · exact hf _ _ h

/-! ## Septidon -/

section
variable [Field F]

theorem joinValues_some (w : Fin 3 → F) : joinValues (fun i => some (w i)) = some w := by
  have : ![w 0, w 1, w 2] = w := by funext i; fin_cases i <;> rfl
  simp [joinValues, Value.zip, Value.map, this]

theorem joinValues_none {v : Fin 3 → Value F} {i : Fin 3} (h : v i = none) : joinValues v = none := by
  simp only [joinValues]
  fin_cases i
  · rw [show v 0 = none from h]; cases v 1 <;> cases v 2 <;> rfl
  · rw [show v 1 = none from h]; cases v 0 <;> cases v 2 <;> rfl
  · rw [show v 2 = none from h]; cases v 0 <;> cases v 1 <;> rfl

theorem splitValues_some (w : Fin 3 → F) : splitValues (some w) = fun i => some (w i) := by
  funext i; fin_cases i <;> rfl

theorem splitValues_none : splitValues (none : Value (Fin 3 → F)) = fun _ => none := by
  funext i; fin_cases i <;> rfl

theorem matmulValues_none (m : Base.Mds F 3) {v : Fin 3 → Value F} {i : Fin 3} (h : v i = none) (j : Fin 3) :
    matmulValues m v j = none := by
  simp only [matmulValues, joinValues_none h, Value.map, splitValues_none]

theorem tracks_matmul (m : Base.Mds F 3) {v : Fin 3 → Value F} {w : Fin 3 → F} (h : ∀ i, Tracks b (v i) (w i))
    (j : Fin 3) : Tracks b (matmulValues m v j) (Septidon.matmulValue m w j) := by
  by_cases hn : ∃ i, v i = none
  · obtain ⟨i, hi⟩ := hn
    rw [matmulValues_none m hi]
    refine Or.inr ⟨?_, rfl⟩
    rcases h i with e | e
    · rw [hi] at e; cases e
    · exact e.1
  · have : v = fun i => some (w i) := by
      funext i
      rcases h i with e | e
      · exact e
      · exact absurd ⟨i, e.2⟩ hn
    rw [this]
    simp only [matmulValues, joinValues_some, Value.map, splitValues_some]
    exact Or.inl rfl

theorem vec_tracks {u0 u1 u2 : Value F} {x0 x1 x2 : F} (h0 : Tracks b u0 x0) (h1 : Tracks b u1 x1)
    (h2 : Tracks b u2 x2) (i : Fin 3) : Tracks b (![u0, u1, u2] i) (![x0, x1, x2] i) := by
  fin_cases i
  · exact h0
  · exact h1
  · exact h2

theorem wtracks_cell (start : ℕ) (c : Septidon.RelCell) (origin : ℕ) {v : Value F} {x : F} (h : Tracks b v x) :
    WTracks b (fun _ _ => True) (cellAssign start c origin v) (c.assign start origin x) :=
  (wtracks_advice _ _ _ h).bind fun _ _ _ => wtracks_pure trivial

theorem wtracks_sbox (start : ℕ) (s : Septidon.SBox) (offset : ℕ) (rc : F) {v : Value F} {x : F}
    (h : Tracks b v x) :
    WTracks b (Tracks b) (sboxAssign start s offset rc v) (s.assign start offset rc x) :=
  (wtracks_fixed _ _ _ _).bind fun _ _ _ => (wtracks_advice _ _ _ h).bind fun _ _ _ =>
    wtracks_pure (h.map fun i => Septidon.sboxValue i rc)

theorem wtracks_full (m : Base.Mds F 3) (start : ℕ) (full : Fin 3 → Septidon.SBox) (offset : ℕ) (rc : Fin 3 → F)
    {v : Fin 3 → Value F} {x : Fin 3 → F} (h : ∀ i, Tracks b (v i) (x i)) :
    WTracks b (fun u y => ∀ i, Tracks b (u i) (y i)) (fullAssign m start full offset rc v)
      (Septidon.fullAssign m start full offset rc x) :=
  (wtracks_sbox _ _ _ _ (h 0)).bind fun _ _ h0 => (wtracks_sbox _ _ _ _ (h 1)).bind fun _ _ h1 =>
    (wtracks_sbox _ _ _ _ (h 2)).bind fun _ _ h2 => wtracks_pure (tracks_matmul m (vec_tracks h0 h1 h2))

theorem wtracks_partials (m : Base.Mds F 3) (start offset : ℕ) (l : List (Septidon.SBox × F)) :
    ∀ {v : Fin 3 → Value F} {x : Fin 3 → F}, (∀ i, Tracks b (v i) (x i)) →
    WTracks b (fun u y => ∀ i, Tracks b (u i) (y i)) (assignPartialRounds m start offset l v)
      (Septidon.assignPartialRounds m start offset l x) := by
  induction l with
  | nil => exact fun h => wtracks_pure h
  | cons p l ih =>
    exact fun h => (wtracks_sbox _ _ _ _ (h 0)).bind fun _ _ h0 =>
      ih (tracks_matmul m (vec_tracks h0 (h 1) (h 2)))

theorem wtracks_septuple (m : Base.Mds F 3) (start : ℕ) (c : Septidon.Septuple) (offset : ℕ) (rcs : List F)
    {v : Fin 3 → Value F} {x : Fin 3 → F} (h : ∀ i, Tracks b (v i) (x i)) :
    WTracks b (fun u y => ∀ i, Tracks b (u i) (y i)) (septupleAssign m start c offset rcs v)
      (Septidon.septupleAssign m start c offset rcs x) :=
  (wtracks_cell _ _ _ (h 1)).bind fun _ _ _ => (wtracks_cell _ _ _ (h 2)).bind fun _ _ _ =>
    wtracks_partials m start offset _ h

theorem wtracks_cells (start col offset : ℕ) {v : Fin 3 → Value F} {x : Fin 3 → F} (h : ∀ i, Tracks b (v i) (x i)) :
    WTracks b (fun _ _ => True) (transitionAssignCells start col offset v)
      (Septidon.transitionAssignCells start col offset x) :=
  (wtracks_cell _ _ _ (h 0)).bind fun _ _ _ => (wtracks_cell _ _ _ (h 1)).bind fun _ _ _ =>
    (wtracks_cell _ _ _ (h 2)).bind fun _ _ _ => wtracks_cell _ _ _ (tracks_known 0)

theorem wtracks_transition (m : Base.Mds F 3) (rc4 : F) (start col middle : ℕ)
    {v : Fin 3 → Value F} {x : Fin 3 → F} (h : ∀ i, Tracks b (v i) (x i)) :
    WTracks b (fun u y => ∀ i, Tracks b (u i) (y i)) (transitionAssign m rc4 start col middle v)
      (Septidon.transitionAssign m rc4 start col middle x) :=
  (wtracks_cells _ _ _ h).bind fun _ _ _ =>
    wtracks_pure (tracks_matmul m (vec_tracks ((h 0).map fun f => Septidon.sboxValue f rc4) (h 1) (h 2)))

theorem wtracks_permutation (m : Base.Mds F 3) (rc : ℕ → Fin 3 → F) (c : Septidon.Config) (start : ℕ)
    {v : Fin 3 → Value F} {x : Fin 3 → F} (h : ∀ i, Tracks b (v i) (x i)) (begin_ : ℕ) :
    WTracks b (fun u y => ∀ i, Tracks b (u i) (y i)) (assignPermutation m rc c start v begin_)
      (Septidon.assignPermutation m rc c start x begin_) := by
  unfold assignPermutation Septidon.assignPermutation
  refine WTracks.bind (R := fun _ _ => True) ?_ fun _ _ _ => ?_
  · unfold controlAssign Septidon.controlAssign
    exact (wtracks_fixed _ _ _ _).bind fun _ _ _ => wtracks_pure trivial
  refine WTracks.bind (R := fun u y => ∀ i, Tracks b (u i) (y i)) ?_ fun _ _ h => ?_
  · refine wtracks_loop (fun i u y h => ?_) 4 h
    exact wtracks_full m _ _ _ _ h
  refine (wtracks_transition m _ _ _ _ h).bind fun _ _ h => ?_
  refine WTracks.bind (R := fun u y => ∀ i, Tracks b (u i) (y i)) ?_ fun _ _ h => ?_
  · refine wtracks_loop (fun i u y h => ?_) 8 h
    exact wtracks_septuple m _ _ _ _ h
  refine WTracks.bind (R := fun u y => ∀ i, Tracks b (u i) (y i)) ?_ fun _ _ h => ?_
  · refine wtracks_loop (fun i u y h => ?_) 4 h
    exact wtracks_full m _ _ _ _ h
  exact (wtracks_cells _ _ _ h).bind fun _ _ _ => wtracks_pure h

theorem wtracks_septidon (m : Base.Mds F 3) (rc : ℕ → Fin 3 → F) (c : Septidon.Config)
    {v : Words (Value F) 3} {x : Words F 3} (h : ∀ i, CellTracks b (v i) (x i)) (last start : ℕ) :
    WTracks b (fun u y => ∀ i, CellTracks b (u i) (y i)) (septidonBody m rc c v last start)
      (Septidon.permuteBody m rc c x last start) := by
  refine (wtracks_copy (h 0) _ _ _).bind fun _ _ _ => (wtracks_copy (h 1) _ _ _).bind fun _ _ _ =>
    (wtracks_copy (h 2) _ _ _).bind fun _ _ _ => ?_
  have h' : ∀ i, Tracks b (mapArray v (fun w => w.value) i) ((fun i => (x i).value) i) := by
    intro i; fin_cases i
    · exact (h 0).2
    · exact (h 1).2
    · exact (h 2).2
  refine (wtracks_permutation m rc c start h' last).bind fun _ _ h => ?_
  refine (wtracks_advice _ _ _ (h 0)).bind fun _ _ h0 => (wtracks_advice _ _ _ (h 1)).bind fun _ _ h1 =>
    (wtracks_advice _ _ _ (h 2)).bind fun _ _ h2 => wtracks_pure fun i => ?_
  fin_cases i
  · exact h0
  · exact h1
  · exact h2

/-! ## Pow5 -/

variable {t : ℕ}
open Pow5 (Config Params)

theorem mulMds_none (m : Base.Mds F (t + 1)) {r : Fin (t + 1) → Value F} {k : Fin (t + 1)} (h : r k = none)
    (i : Fin (t + 1)) : mulMds m r i = none := by
  have key : ∀ (l : List (Fin (t + 1))) (a : Value F), (k ∈ l ∨ a = none) →
      l.foldl (fun acc j => Value.add acc (Value.mul (Value.known (m i j)) (r j))) a = none := by
    intro l
    induction l with
    | nil => intro a ha; simpa using ha
    | cons j l ih =>
      intro a ha
      rw [List.foldl_cons]
      refine ih _ ?_
      rcases ha with ha | rfl
      · rcases List.mem_cons.mp ha with rfl | ha
        · exact Or.inr (by rw [h, mul_none_right, add_none_right])
        · exact Or.inl ha
      · exact Or.inr (add_none_left _)
  exact key _ _ (Or.inl (List.mem_finRange k))

theorem tracks_mulMds (m : Base.Mds F (t + 1)) {r : Fin (t + 1) → Value F} {x : Fin (t + 1) → F}
    (h : ∀ i, Tracks b (r i) (x i)) (i : Fin (t + 1)) : Tracks b (mulMds m r i) (Pow5.mulMds m x i) := by
  have key : ∀ (l : List (Fin (t + 1))) (a : Value F) (y : F), Tracks b a y →
      Tracks b (l.foldl (fun acc j => Value.add acc (Value.mul (Value.known (m i j)) (r j))) a)
        (l.foldl (fun acc j => acc + m i j * x j) y) := by
    intro l
    induction l with
    | nil => exact fun _ _ h => h
    | cons j l ih => exact fun a y ha => ih _ _ (ha.add ((tracks_known _).mul (h j)))
  exact key _ _ _ (tracks_known 0)

theorem wtracks_round (c : Config F t) (start round offset gate : ℕ) {f : W (Value F) (Fin (t + 1) → Value F)}
    {f' : W F (Fin (t + 1) → F)} (h : WTracks b (fun u y => ∀ i, Tracks b (u i) (y i)) f f') :
    WTracks b (fun u y => ∀ i, CellTracks b (u i) (y i)) (roundRow c start round offset gate f)
      (Pow5.roundRow c start round offset gate f') :=
  (wtracks_selector _ _ _).bind fun _ _ _ =>
    (wtracks_forFin fun i => wtracks_fixed _ _ _ _).bind fun _ _ _ =>
      h.bind fun _ _ h => wtracks_forFin fun i => wtracks_advice _ _ _ (h i)

theorem wtracks_fullRound (c : Config F t) (start : ℕ) {s : Words (Value F) (t + 1)} {s' : Words F (t + 1)}
    (h : ∀ i, CellTracks b (s i) (s' i)) (round offset : ℕ) :
    WTracks b (fun u y => ∀ i, CellTracks b (u i) (y i)) (fullRound c start s round offset)
      (Pow5.fullRound c start s' round offset) :=
  wtracks_round c _ _ _ _ (wtracks_pure (tracks_mulMds _ fun i =>
    ((h i).2.add (tracks_known _)).map fun q => q ^ 5))

theorem wtracks_single (c : Config F t) (start : ℕ) {s : Words (Value F) (t + 1)} {s' : Words F (t + 1)}
    (h : ∀ i, CellTracks b (s i) (s' i)) (round offset : ℕ) :
    WTracks b (fun u y => ∀ i, CellTracks b (u i) (y i)) (partialRoundSingle c start s round offset)
      (Pow5.partialRoundSingle c start s' round offset) := by
  refine wtracks_round c _ _ _ _ (wtracks_pure (tracks_mulMds _ fun i => ?_))
  have := ((h i).2.map fun v => v + c.rc round i).map fun v => if i = 0 then v ^ 5 else v
  exact this

theorem wtracks_partial (c : Config F t) (start : ℕ) {s : Words (Value F) (t + 1)} {s' : Words F (t + 1)}
    (h : ∀ i, CellTracks b (s i) (s' i)) (round offset : ℕ) :
    WTracks b (fun u y => ∀ i, CellTracks b (u i) (y i)) (partialRound c start s round offset)
      (Pow5.partialRound c start s' round offset) := by
  have key : ∀ (rd : ℕ) (v : Fin (t + 1) → Value F) (x : Fin (t + 1) → F), (∀ i, Tracks b (v i) (x i)) → ∀ i,
      Tracks b (if i = 0 then Value.map (fun v => v ^ 5) (Value.add (v i) (Value.known (c.rc rd i)))
        else Value.add (Value.known (c.rc rd i)) (v i))
        (if i = 0 then (x i + c.rc rd i) ^ 5 else c.rc rd i + x i) := by
    intro rd v x h i
    split
    · exact ((h i).add (tracks_known _)).map fun v => v ^ 5
    · exact (tracks_known _).add (h i)
  have hr := key round _ _ fun i => (h i).2
  refine wtracks_round c _ _ _ _ ((wtracks_advice _ _ _ (hr 0)).bind fun _ _ _ =>
    (wtracks_forFin fun i => wtracks_fixed _ _ _ _).bind fun _ _ _ => wtracks_pure ?_)
  exact tracks_mulMds _ (key (round + 1) _ _ (tracks_mulMds _ hr))

theorem wtracks_pow5 (S : Params F t) (c : Config F t) {v : Words (Value F) (t + 1)} {x : Words F (t + 1)}
    (h : ∀ i, CellTracks b (v i) (x i)) (start : ℕ) :
    WTracks b (fun u y => ∀ i, CellTracks b (u i) (y i)) (pow5Body S c v start)
      (Pow5.permuteBody S c x start) := by
  refine WTracks.bind (R := fun u y => ∀ i, CellTracks b (u i) (y i))
    (wtracks_forFin fun i => wtracks_copy (h i) _ _ _) fun _ _ h => ?_
  refine WTracks.bind (R := fun u y => ∀ i, CellTracks b (u i) (y i)) ?_ fun _ _ h => ?_
  · refine wtracks_loop (fun i u y h => ?_) _ h
    exact wtracks_fullRound c _ h _ _
  refine WTracks.bind (R := fun u y => ∀ i, CellTracks b (u i) (y i)) ?_ fun _ _ h => ?_
  · refine wtracks_loop (fun i u y h => ?_) _ h
    exact wtracks_partial c _ h _ _
  refine WTracks.bind (R := fun u y => ∀ i, CellTracks b (u i) (y i)) ?_ fun _ _ h => ?_
  rotate_left
  · refine wtracks_loop (fun i u y h => ?_) _ h
    exact wtracks_fullRound c _ h _ _
  unfold oddRound Pow5.oddRound
  split
  · exact wtracks_single c _ h _ _
  · exact wtracks_pure h

/-! ## Batches -/

theorem wtracks_batch (m : Base.Mds F 3) (rc : ℕ → Fin 3 → F) (c : Septidon.Config)
    {l : List (Words (Value F) 3)} {l' : List (Words F 3)}
    (h : List.Forall₂ (fun u y => ∀ i, CellTracks b (u i) (y i)) l l') :
    ∀ last start, WTracks b (List.Forall₂ fun u y => ∀ i, CellTracks b (u i) (y i)) (batchBody m rc c l last start)
      (Septidon.batchBody m rc c l' last start) := by
  induction h with
  | nil => exact fun _ _ => wtracks_pure .nil
  | cons h _ ih =>
    exact fun last start => (wtracks_septidon m rc c h last start).bind fun _ _ h => (ih _ _).bind fun _ _ hs =>
      wtracks_pure (.cons h hs)

theorem tracks_chunks {R : α → α' → Prop} (n : ℕ) : ∀ (k : ℕ) {l : List α} {l' : List α'}, l.length ≤ k →
    List.Forall₂ R l l' → List.Forall₂ (List.Forall₂ R) (chunksOf n l) (chunksOf n l') := by
  intro k
  induction k with
  | zero =>
    intro l l' hk h
    cases l with
    | nil => cases h; unfold chunksOf; simp
    | cons _ _ => simp at hk
  | succ k ih =>
    intro l l' hk h
    have he : l = [] ↔ l' = [] := by cases h <;> simp
    have e1 := chunksOf.eq_1 n l
    have e2 := chunksOf.eq_1 n l'
    rw [e1, e2]
    by_cases h0 : l = [] ∨ n = 0
    · rw [dif_pos h0, dif_pos (by rwa [← he])]; exact .nil
    · rw [dif_neg h0, dif_neg (by rwa [← he])]
      refine .cons (List.forall₂_take n h) (ih ?_ (List.forall₂_drop n h))
      have : l.length ≠ 0 := by simpa using fun h' => h0 (Or.inl h')
      simp only [List.length_drop]; omega

theorem ltracks_place {s : List (List (Op (Value F)))} {s' : List (List (Op F))}
    (h : List.Forall₂ (List.Forall₂ (OpTracks b)) s s') :
    ∀ {L : Layouter (Value F)} {L' : Layouter F}, LTracks d L L' →
      (L.placeAll s).1 = (L'.placeAll s').1 ∧ LTracks d (L.placeAll s).2 (L'.placeAll s').2 := by
  induction h with
  | nil => exact fun hL => ⟨rfl, hL⟩
  | @cons x x' _ _ h _ ih =>
    intro L L' hL
    obtain ⟨e1, e2, e3⟩ := hL
    have hst : L.startOf x = L'.startOf x' := by simp only [Layouter.startOf, tracks_shapeCols h, e1]
    have := ih (L := L.reserve x (L.startOf x)) (L' := L'.reserve x' (L'.startOf x'))
      ⟨by simp only [Layouter.reserve, tracks_shapeCols h, tracks_shapeRows h, e1, hst], e2, e3⟩
    simp only [Layouter.placeAll]
    exact ⟨by rw [this.1, hst], this.2⟩

theorem ltracks_regions {R : α → α' → Prop} {items : List (List (Op (Value F)) × (ℕ → W (Value F) α))}
    {items' : List (List (Op F) × (ℕ → W F α'))}
    (h : List.Forall₂ (fun u u' => List.Forall₂ (OpTracks b) u.1 u'.1 ∧ ∀ s, WTracks b R (u.2 s) (u'.2 s))
      items items') {L : Layouter (Value F)} {L' : Layouter F} (hL : LTracks d L L') :
    ETracks (fun u u' => List.Forall₂ R u.1 u'.1 ∧ LTracks d u.2 u'.2)
      (L.assignRegions (items.map fun it => (it.1, fun s => .ok (it.2 s))))
      (L'.assignRegions (items'.map fun it => (it.1, fun s => .ok (it.2 s)))) := by
  have hs : List.Forall₂ (List.Forall₂ (OpTracks b)) (items.map Prod.fst) (items'.map Prod.fst) := by
    rw [List.forall₂_map_left_iff, List.forall₂_map_right_iff]
    exact h.imp fun _ _ h => h.1
  obtain ⟨e1, e2⟩ := ltracks_place hs hL
  have key : ∀ (st : List ℕ) {items : List (List (Op (Value F)) × (ℕ → W (Value F) α))}
      {items' : List (List (Op F) × (ℕ → W F α'))},
      List.Forall₂ (fun u u' => List.Forall₂ (OpTracks b) u.1 u'.1 ∧ ∀ s, WTracks b R (u.2 s) (u'.2 s)) items items' →
      ∃ o o', List.mapM (m := Except Panic) (fun x : (List (Op (Value F)) × (ℕ → Except Panic (W (Value F) α))) × ℕ => x.1.2 x.2)
          (List.zip (items.map fun it => (it.1, fun s => .ok (it.2 s))) st) = .ok o ∧
        List.mapM (m := Except Panic) (fun x : (List (Op F) × (ℕ → Except Panic (W F α'))) × ℕ => x.1.2 x.2)
          (List.zip (items'.map fun it => (it.1, fun s => .ok (it.2 s))) st) = .ok o' ∧
        List.Forall₂ (WTracks b R) o o' := by
    intro st
    induction st with
    | nil => intro items items' h; exact ⟨[], [], by simp [pure, Except.pure], by simp [pure, Except.pure], .nil⟩
    | cons s st ih =>
      intro items items' h
      cases h with
      | nil => exact ⟨[], [], by simp [pure, Except.pure], by simp [pure, Except.pure], .nil⟩
      | cons h hs =>
        obtain ⟨o, o', h1, h2, h3⟩ := ih hs
        refine ⟨_ :: o, _ :: o', ?_, ?_, .cons (h.2 s) h3⟩
        · rw [List.map_cons, List.zip_cons_cons, List.mapM_cons, h1]; rfl
        · rw [List.map_cons, List.zip_cons_cons, List.mapM_cons, h2]; rfl
  obtain ⟨o, o', h1, h2, h3⟩ := key (L'.placeAll (items'.map Prod.fst)).1 h
  have m1 : (items.map fun it => (it.1, fun s => (Except.ok (it.2 s) : Except Panic _))).map Prod.fst =
      items.map Prod.fst := by simp
  have m2 : (items'.map fun it => (it.1, fun s => (Except.ok (it.2 s) : Except Panic _))).map Prod.fst =
      items'.map Prod.fst := by simp
  simp only [Layouter.assignRegions, m1, m2, e1, h1, h2, bind, Except.bind, pure, Except.pure, ETracks]
  refine ⟨?_, e2.1, e2.2.1, List.rel_append e2.2.2 ?_⟩
  · rw [List.forall₂_map_left_iff, List.forall₂_map_right_iff]
    exact h3.imp fun _ _ h => h.1
  · exact List.rel_flatMap (R := WTracks b R) h3 fun _ _ h => h.2.imp fun _ _ h => h.mono

theorem tracks_septidonBatch (m : Base.Mds F 3) (rc : ℕ → Fin 3 → F) (c : Septidon.Config) (threads : ℕ)
    {L : Layouter (Value F)} {L' : Layouter F} (hL : LTracks d L L')
    {l : List (Words (Value F) 3)} {l' : List (Words F 3)}
    (h : List.Forall₂ (fun u y => ∀ i, CellTracks b (u i) (y i)) l l') :
    ETracks (fun u u' => List.Forall₂ (fun u y => ∀ i, CellTracks b (u i) (y i)) u.1 u'.1 ∧ LTracks d u.2 u'.2)
      (septidonBatch m rc c threads L l) (Septidon.permuteBatch m rc c threads L' l') := by
  have hc := tracks_chunks (l'.length / threads + 2) _ le_rfl h
  have := ltracks_regions (b := b) (R := List.Forall₂ fun u y => ∀ i, CellTracks b (u i) (y i))
    (items := (chunksOf (l'.length / threads + 2) l).map fun chunk =>
      ([Op.advice (c.finalCells 0).column (chunk.length * 8 - 1) (Value.known 0)], batchBody m rc c chunk 0))
    (items' := (chunksOf (l'.length / threads + 2) l').map fun chunk =>
      ([Op.advice (c.finalCells 0).column (chunk.length * 8 - 1) 0], Septidon.batchBody m rc c chunk 0)) (by
    rw [List.forall₂_map_left_iff, List.forall₂_map_right_iff]
    exact hc.imp fun u y h => ⟨.cons ⟨rfl, by rw [h.length_eq], Or.inl rfl⟩ .nil,
      fun s => wtracks_batch m rc c h 0 s⟩) hL
  simp only [List.map_map, Function.comp_def] at this
  unfold septidonBatch Septidon.permuteBatch
  rw [h.length_eq]
  exact this.bind fun _ _ h => ⟨List.rel_flatten h.1, h.2⟩

/-! ## The gadget -/

/-- Related padded words. -/
def PTracks (b : Prop) : PaddedWord F → Pow5.PaddedWord F → Prop
  | .message c, .message c' => CellTracks b c c'
  | .padding v, .padding v' => v = v'
  | _, _ => False

/-- Related optional entries. -/
def OTracks (R : α → α' → Prop) : Option α → Option α' → Prop
  | some a, some a' => R a a'
  | none, none => True
  | _, _ => False

theorem OTracks.isSome {R : α → α' → Prop} {x : Option α} {y : Option α'} (h : OTracks R x y) :
    x.isSome = y.isSome := by cases x <;> cases y <;> simp [OTracks] at h ⊢

theorem OTracks.isNone {R : α → α' → Prop} {x : Option α} {y : Option α'} (h : OTracks R x y) :
    x.isNone = y.isNone := by cases x <;> cases y <;> simp [OTracks] at h ⊢

/-- Related words. -/
def WordsTracks (b : Prop) {n : ℕ} (s : Words (Value F) n) (s' : Words F n) : Prop := ∀ i, CellTracks b (s i) (s' i)

/-- Related absorbing modes. -/
def ATracks (b : Prop) (m : AMode F t) (m' : Gadget.AMode F t) : Prop := ∀ k, OTracks (PTracks b) (m k) (m' k)

/-- Related squeezing modes. -/
def STracks (b : Prop) (m : SMode F t) (m' : Gadget.SMode F t) : Prop := ∀ k, OTracks (CellTracks b) (m k) (m' k)

theorem tracks_allSome {m : AMode F t} {m' : Gadget.AMode F t} (h : ATracks b m m') :
    OTracks (fun u u' => ∀ k, PTracks b (u k) (u' k)) (Pow5.allSome m) (Pow5.allSome m') := by
  unfold Pow5.allSome
  by_cases hs : ∀ k, (m k).isSome
  · have hs' : ∀ k, (m' k).isSome := fun k => by rw [← (h k).isSome]; exact hs k
    rw [dif_pos hs, dif_pos hs']
    intro k
    have := h k
    obtain ⟨a, ha⟩ := Option.isSome_iff_exists.mp (hs k)
    obtain ⟨a', ha'⟩ := Option.isSome_iff_exists.mp (hs' k)
    simp only [ha, ha', OTracks] at this
    simpa only [ha, ha', Option.get_some] using this
  · have hs' : ¬ ∀ k, (m' k).isSome := fun h' => hs fun k => by rw [(h k).isSome]; exact h' k
    rw [dif_neg hs, dif_neg hs']
    trivial

theorem wtracks_loadInput (c : Config F t) (start : ℕ) (k : Fin t) {p : PaddedWord F} {p' : Pow5.PaddedWord F}
    (h : PTracks b p p') : WTracks b (CellTracks b) (loadInput c start k p) (Pow5.loadInput c start k p') := by
  cases p <;> cases p' <;> simp only [PTracks] at h
  · exact wtracks_copy h _ _ _
  · subst h
    exact (wtracks_fixed _ _ _ _).bind fun _ _ h => wtracks_copy h _ _ _

theorem wtracks_addInput (c : Config F t) {w : Words (Value F) (t + 1)} {w' : Words F (t + 1)}
    (h : WordsTracks b w w') {p : Fin t → PaddedWord F} {p' : Fin t → Pow5.PaddedWord F}
    (hp : ∀ k, PTracks b (p k) (p' k)) (start : ℕ) :
    WTracks b (WordsTracks b) (addInputBody c w p start) (Pow5.addInputBody c w' p' start) := by
  refine (wtracks_selector _ _ _).bind fun _ _ _ => (wtracks_forFin fun i => wtracks_copy (h i) _ _ _).bind
    fun s s' hs => (wtracks_forFin fun k => wtracks_loadInput c start k (hp k)).bind fun u u' hu =>
      wtracks_forFin fun i => wtracks_advice _ _ _ ?_
  split
  · exact (hs i).2.add (hu _).2
  · exact (hs i).2

theorem tracks_addInput (c : Config F t) {L : Layouter (Value F)} {L' : Layouter F} (hL : LTracks d L L')
    {w : Words (Value F) (t + 1)} {w' : Words F (t + 1)} (h : WordsTracks b w w') {m : AMode F t}
    {m' : Gadget.AMode F t} (hm : ATracks b m m') :
    ETracks (fun u u' => WordsTracks b u.1 u'.1 ∧ LTracks d u.2 u'.2) (addInput c L w m) (Pow5.addInput c L' w' m') := by
  have := tracks_allSome hm
  unfold addInput Pow5.addInput
  revert this
  generalize Pow5.allSome m = x
  generalize Pow5.allSome m' = y
  intro ha
  cases x <;> cases y <;> simp only [OTracks] at ha
  · rfl
  · exact ltracks_region (fun s => wtracks_addInput c h ha s) hL

theorem tracks_pow5 (S : Params F t) (c : Config F t) {L : Layouter (Value F)} {L' : Layouter F} (hL : LTracks d L L')
    {w : Words (Value F) (t + 1)} {w' : Words F (t + 1)} (h : WordsTracks b w w') :
    ETracks (fun u u' => WordsTracks b u.1 u'.1 ∧ LTracks d u.2 u'.2) (pow5Permute S c L w) (Pow5.permute S c L' w') :=
  ltracks_region (fun s => wtracks_pow5 S c h s) hL

theorem tracks_sponge (S : Params F t) (c : Config F t) {L : Layouter (Value F)} {L' : Layouter F}
    (hL : LTracks d L L') {w : Words (Value F) (t + 1)} {w' : Words F (t + 1)} (h : WordsTracks b w w')
    {m : Option (AMode F t)} {m' : Option (Gadget.AMode F t)} (hm : OTracks (ATracks b) m m') :
    ETracks (fun u u' => WordsTracks b u.1 u'.1 ∧ STracks b u.2.1 u'.2.1 ∧ LTracks d u.2.2 u'.2.2)
      (poseidonSponge S c L w m) (Gadget.poseidonSponge S c L' w' m') := by
  unfold poseidonSponge Gadget.poseidonSponge
  refine ETracks.bind (R := fun u u' => WordsTracks b u.1 u'.1 ∧ LTracks d u.2 u'.2) ?_ fun u u' hu => ?_
  · cases m <;> cases m' <;> simp only [OTracks] at hm
    · exact ⟨h, hL⟩
    · exact tracks_addInput c hL h hm
  · exact (tracks_pow5 S c hu.2 hu.1).bind fun v v' hv => ⟨hv.1, fun k => hv.1 k.castSucc, hv.2⟩

theorem tracks_new (c : Config F t) (cap : F) {L : Layouter (Value F)} {L' : Layouter F} (hL : LTracks d L L') :
    ETracks (fun u u' => (ATracks b u.1.mode u'.1.mode ∧ WordsTracks b u.1.state u'.1.state) ∧ LTracks d u.2 u'.2)
      (Sponge.new c cap L) (Gadget.Sponge.new c cap L') := by
  unfold Sponge.new Gadget.Sponge.new
  refine ETracks.bind (R := fun u u' => WordsTracks b u.1 u'.1 ∧ LTracks d u.2 u'.2) ?_ fun u u' hu =>
    ⟨⟨fun _ => trivial, hu.1⟩, hu.2⟩
  exact ltracks_region (fun s => wtracks_forFin fun i => wtracks_constant _ _ _ _) hL

theorem tracks_initWith {p : PaddedWord F} {p' : Pow5.PaddedWord F} (h : PTracks b p p') :
    ETracks (ATracks b) (initWith (t := t) p) (Gadget.initWith p') := by
  unfold initWith Gadget.initWith
  split
  · rfl
  · intro k
    by_cases hk : k.val = 0
    · simp only [hk, if_true]; exact h
    · simp only [hk, if_false]; trivial

theorem tracks_absorb (S : Params F t) (c : Config F t) {L : Layouter (Value F)} {L' : Layouter F}
    (hL : LTracks d L L') {s : Sponge F (AMode F t) t} {s' : Gadget.Sponge F (Gadget.AMode F t) t}
    (h : ATracks b s.mode s'.mode ∧ WordsTracks b s.state s'.state) {p : PaddedWord F} {p' : Pow5.PaddedWord F}
    (hp : PTracks b p p') :
    ETracks (fun u u' => (ATracks b u.1.mode u'.1.mode ∧ WordsTracks b u.1.state u'.1.state) ∧ LTracks d u.2 u'.2)
      (s.absorb S c L p) (s'.absorb S c L' p') := by
  have hf : (fun k => (s.mode k).isNone) = fun k => (s'.mode k).isNone := funext fun k => (h.1 k).isNone
  unfold Sponge.absorb Gadget.Sponge.absorb
  rw [hf]
  cases (List.finRange t).find? (fun k => (s'.mode k).isNone) with
  | some k =>
    refine ⟨⟨fun j => ?_, h.2⟩, hL⟩
    by_cases hj : j = k
    · subst hj; simp only [Function.update_self]; exact hp
    · simp only [Function.update_of_ne hj]; exact h.1 j
  | none =>
    exact (tracks_sponge S c hL h.2 (m := some s.mode) (m' := some s'.mode) h.1).bind fun u u' hu =>
      (tracks_initWith hp).bind fun v v' hv => ⟨⟨hv, hu.1⟩, hu.2.2⟩

theorem tracks_absorbAll (S : Params F t) (c : Config F t) {l : List (PaddedWord F)} {l' : List (Pow5.PaddedWord F)}
    (hl : List.Forall₂ (PTracks b) l l') : ∀ {L : Layouter (Value F)} {L' : Layouter F},
    LTracks d L L' → ∀ {s : Sponge F (AMode F t) t} {s' : Gadget.Sponge F (Gadget.AMode F t) t},
    ATracks b s.mode s'.mode ∧ WordsTracks b s.state s'.state →
    ETracks (fun u u' => (ATracks b u.1.mode u'.1.mode ∧ WordsTracks b u.1.state u'.1.state) ∧ LTracks d u.2 u'.2)
      (s.absorbAll S c L l) (s'.absorbAll S c L' l') := by
  induction hl with
  | nil => exact fun hL _ _ h => ⟨h, hL⟩
  | cons hp _ ih =>
    intro L L' hL s s' h
    exact (tracks_absorb S c hL h hp).bind fun u u' hu => ih hu.2 hu.1

theorem tracks_finish (S : Params F t) (c : Config F t) {L : Layouter (Value F)} {L' : Layouter F}
    (hL : LTracks d L L') {s : Sponge F (AMode F t) t} {s' : Gadget.Sponge F (Gadget.AMode F t) t}
    (h : ATracks b s.mode s'.mode ∧ WordsTracks b s.state s'.state) :
    ETracks (fun u u' => (STracks b u.1.mode u'.1.mode ∧ WordsTracks b u.1.state u'.1.state) ∧ LTracks d u.2 u'.2)
      (s.finishAbsorbing S c L) (s'.finishAbsorbing S c L') :=
  (tracks_sponge S c hL h.2 (m := some s.mode) (m' := some s'.mode) h.1).bind fun _ _ hu => ⟨⟨hu.2.1, hu.1⟩, hu.2.2⟩

theorem tracks_takeFirst {m : SMode F t} {m' : Gadget.SMode F t} (h : STracks b m m') :
    OTracks (fun u u' => CellTracks b u.1 u'.1 ∧ STracks b u.2 u'.2) (takeFirst m) (Gadget.takeFirst m') := by
  have hf : (fun k => (m k).isSome) = fun k => (m' k).isSome := funext fun k => (h k).isSome
  unfold takeFirst Gadget.takeFirst
  rw [hf]
  cases (List.finRange t).find? (fun k => (m' k).isSome) with
  | none => trivial
  | some k =>
    have hk := h k
    have hu : ∀ j, OTracks (CellTracks b) (Function.update m k none j) (Function.update m' k none j) := by
      intro j
      by_cases hj : j = k
      · subst hj; simp only [Function.update_self]; trivial
      · simp only [Function.update_of_ne hj]; exact h j
    revert hk
    simp only
    cases m k <;> cases m' k <;> intro hk <;> simp only [OTracks] at hk
    · trivial
    · exact ⟨hk, hu⟩

theorem tracks_squeeze (S : Params F t) (c : Config F t) {L : Layouter (Value F)} {L' : Layouter F}
    (hL : LTracks d L L') {s : Sponge F (SMode F t) t} {s' : Gadget.Sponge F (Gadget.SMode F t) t}
    (h : STracks b s.mode s'.mode ∧ WordsTracks b s.state s'.state) :
    ETracks (fun u u' => CellTracks b u.1 u'.1 ∧ (STracks b u.2.1.mode u'.2.1.mode ∧
      WordsTracks b u.2.1.state u'.2.1.state) ∧ LTracks d u.2.2 u'.2.2) (s.squeeze S c L) (s'.squeeze S c L') := by
  have h1 := tracks_takeFirst h.1
  unfold Sponge.squeeze Gadget.Sponge.squeeze
  revert h1
  generalize takeFirst s.mode = x
  generalize Gadget.takeFirst s'.mode = y
  intro h1
  cases x <;> cases y <;> simp only [OTracks] at h1
  · refine (tracks_sponge S c hL h.2 (m := none) (m' := none) trivial).bind fun u u' hu => ?_
    have h2 := tracks_takeFirst hu.2.1
    obtain ⟨u1, u2, u3⟩ := u
    obtain ⟨v1, v2, v3⟩ := u'
    simp only at h2 hu ⊢
    revert h2
    generalize takeFirst u2 = x
    generalize Gadget.takeFirst v2 = y
    intro h2
    cases x <;> cases y <;> simp only [OTracks] at h2
    · rfl
    · exact ⟨h2.1, ⟨h2.2, hu.1⟩, hu.2.2⟩
  · exact ⟨h1.1, ⟨h1.2, h.2⟩, hL⟩

theorem tracks_hash {n : ℕ} (S : Params F t) (c : Config F t) {L : Layouter (Value F)} {L' : Layouter F}
    (hL : LTracks d L L') {message : Fin n → ACell (Value F)} {message' : Fin n → ACell F}
    (hm : ∀ i, CellTracks b (message i) (message' i)) :
    ETracks (fun u u' => CellTracks b u.1 u'.1 ∧ LTracks d u.2 u'.2) (hashCells S c L message)
      (Gadget.hashCells S c L' message') := by
  unfold hashCells Gadget.hashCells Gadget.Hash.init
  refine (tracks_new (b := b) c _ hL).bind fun u u' hu => ?_
  unfold hash Gadget.Hash.hash
  refine ETracks.bind (R := Eq) ?_ fun pad pad' hpad => ?_
  · cases (Base.DomainKind.constantLength n).padding (F := F) t n <;> exact rfl
  subst hpad
  refine (tracks_absorbAll S c ?_ hu.2 hu.1).bind fun v v' hv => (tracks_finish S c hv.2 hv.1).bind fun w w' hw =>
    (tracks_squeeze S c hw.2 hw.1).bind fun z z' hz => ⟨hz.1, hz.2.2⟩
  refine List.rel_append ?_ ?_
  · rw [List.forall₂_map_left_iff, List.forall₂_map_right_iff, List.forall₂_iff_get]
    refine ⟨by simp, fun i h1 h2 => ?_⟩
    simp only [List.get_eq_getElem, List.getElem_ofFn]
    exact hm _
  · rw [List.forall₂_map_left_iff, List.forall₂_map_right_iff]
    exact List.forall₂_same.mpr fun _ _ => rfl

end
end Circuit.Vals
