import Verif.Circuit.ValuesSim
import Verif.Props.Gadget
import Verif.Props.Septidon

/-!
# Values that may be unknown (C72)

Key generation runs the same synthesis code as proving, with values that are not known. The circuit it sees must
be the one that is proved.
-/

set_option linter.unusedVariables false
set_option linter.unusedSectionVars false

open Halo2 Circuit

namespace Props

variable {F : Type} [Field F] {t : ℕ}

/-- The same operation up to the value of an advice cell. -/
def SameOp : Op (Value F) → Op (Value F) → Prop
  | .advice c r _, .advice c' r' _ => c = c' ∧ r = r'
  | o, o' => o = o'

/-- The same regions and the same operations up to the values of advice cells: both layouters describe one
circuit. -/
def SameCircuit (L M : Layouter (Value F)) : Prop :=
  L.colEnd = M.colEnd ∧ L.constCol = M.constCol ∧ List.Forall₂ SameOp L.ops M.ops

/-- What has been assigned so far outside the advice columns is known. -/
def FixedKnown (L : Layouter (Value F)) : Prop :=
  ∀ o ∈ L.ops, (∀ c r, o ≠ .fixed c r none) ∧ (∀ c, o ≠ .constant c none) ∧ ∀ c r, o ≠ .fill c r none

section sim
open Vals

private def fillOp : Op (Value F) → Op F
  | .advice c r v => .advice c r (v.getD 0)
  | .fixed c r v => .fixed c r (v.getD 0)
  | .selector s r => .selector s r
  | .copy a d => .copy a d
  | .constant c v => .constant c (v.getD 0)
  | .fill c r v => .fill c r (v.getD 0)

private def fillL (L : Layouter (Value F)) : Layouter F := ⟨L.colEnd, L.constCol, L.ops.map fillOp⟩

private theorem tracks_getD (v : Value F) : Tracks True v (v.getD 0) := by
  cases v
  · exact Or.inr ⟨trivial, rfl⟩
  · exact Or.inl rfl

private theorem tracks_fill {L : Layouter (Value F)} (h : FixedKnown L) : LTracks True L (fillL L) := by
  refine ⟨rfl, rfl, ?_⟩
  simp only [fillL]
  rw [List.forall₂_map_right_iff, List.forall₂_same]
  intro o ho
  obtain ⟨h1, h2, h3⟩ := h o ho
  cases o with
  | advice c r v => exact ⟨rfl, rfl, tracks_getD v⟩
  | fixed c r v => cases v with
    | none => exact absurd rfl (h1 c r)
    | some x => exact ⟨rfl, rfl, rfl⟩
  | selector => exact ⟨rfl, rfl⟩
  | copy => exact ⟨rfl, rfl⟩
  | constant c v => cases v with
    | none => exact absurd rfl (h2 c)
    | some x => exact ⟨rfl, rfl⟩
  | fill c r v => cases v with
    | none => exact absurd rfl (h3 c r)
    | some x => exact ⟨rfl, rfl, rfl⟩

private theorem same_of_tracks {o o' : Op (Value F)} {u : Op F} (h : OpTracks True o u) (h' : OpTracks True o' u) :
    SameOp o o' := by
  cases o <;> cases u <;> simp only [OpTracks] at h <;> cases o' <;> simp only [OpTracks] at h' <;>
    simp only [SameOp] <;> simp [h, h']

private theorem sameOp_trans {a b c : Op (Value F)} (h : SameOp a b) (h' : SameOp b c) : SameOp a c := by
  cases a <;> cases b <;> simp only [SameOp, reduceCtorEq] at h <;> cases c <;>
    simp only [SameOp, reduceCtorEq] at h' <;> simp_all [SameOp]

private theorem forall₂_join {α β γ : Type} {R : α → β → Prop} {Q : γ → β → Prop} {T : α → γ → Prop}
    (hT : ∀ a b c, R a b → Q c b → T a c) : ∀ {l : List α} {m : List β} {k : List γ}, List.Forall₂ R l m →
      List.Forall₂ Q k m → List.Forall₂ T l k
  | _, _, _, .nil, .nil => .nil
  | _, _, _, .cons h h1, .cons h' h2 => .cons (hT _ _ _ h h') (forall₂_join hT h1 h2)

private theorem forall₂_trans' {α β γ : Type} {R : α → β → Prop} {Q : β → γ → Prop} {T : α → γ → Prop}
    (hT : ∀ a b c, R a b → Q b c → T a c) : ∀ {l : List α} {m : List β} {k : List γ}, List.Forall₂ R l m →
      List.Forall₂ Q m k → List.Forall₂ T l k
  | _, _, _, .nil, .nil => .nil
  | _, _, _, .cons h h1, .cons h' h2 => .cons (hT _ _ _ h h') (forall₂_trans' hT h1 h2)

private theorem sameCircuit_of {L M : Layouter (Value F)} {X : Layouter F} (h : LTracks True L X)
    (h' : LTracks True M X) : SameCircuit L M :=
  ⟨h.1.trans h'.1.symm, h.2.1.trans h'.2.1.symm, forall₂_join (R := OpTracks True) (Q := OpTracks True) (T := SameOp) (fun _ _ _ h h' => same_of_tracks h h') h.2.2 h'.2.2⟩

private theorem sameCircuit_trans {L M N : Layouter (Value F)} (h : SameCircuit L M) (h' : SameCircuit M N) :
    SameCircuit L N :=
  ⟨h.1.trans h'.1, h.2.1.trans h'.2.1, forall₂_trans' (R := SameOp) (Q := SameOp) (T := SameOp) (fun _ _ _ h h' => sameOp_trans h h') h.2.2 h'.2.2⟩

/-! ### An unknown word makes everything after it unknown -/

private theorem fullAssign_none (m : Base.Mds F 3) (start : ℕ) (full : Fin 3 → Septidon.SBox) (offset : ℕ)
    (rc : Fin 3 → F) {v : Fin 3 → Value F} (h : ∃ i, v i = none) (j : Fin 3) :
    (fullAssign m start full offset rc v).val j = none := by
  obtain ⟨i, hi⟩ := h
  refine matmulValues_none m (i := i) ?_ j
  fin_cases i
  · show Value.map _ (v 0) = none; rw [show v 0 = none from hi]; rfl
  · show Value.map _ (v 1) = none; rw [show v 1 = none from hi]; rfl
  · show Value.map _ (v 2) = none; rw [show v 2 = none from hi]; rfl

private theorem partials_none (m : Base.Mds F 3) (start offset : ℕ) (l : List (Septidon.SBox × F)) :
    ∀ {v : Fin 3 → Value F}, (∃ i, v i = none) → ∃ i, (assignPartialRounds m start offset l v).val i = none := by
  induction l with
  | nil => exact fun h => h
  | cons p l ih =>
    rintro v ⟨i, hi⟩
    refine ih ⟨0, matmulValues_none m (i := i) ?_ 0⟩
    fin_cases i
    · show Value.map _ (v 0) = none; rw [show v 0 = none from hi]; rfl
    · exact hi
    · exact hi

private theorem loop_keeps {V α : Type} (P : α → Prop) {f : ℕ → α → W V α} (hf : ∀ i a, P a → P (f i a).val) (n : ℕ)
    {a : α} (h : P a) : P (W.loop f n a).val := by
  induction n with
  | zero => exact h
  | succ n ih => exact hf n _ ih

private theorem septuple_none (m : Base.Mds F 3) (start : ℕ) (c : Septidon.Septuple) (offset : ℕ) (rcs : List F)
    {v : Fin 3 → Value F} (h : ∃ i, v i = none) : ∃ i, (septupleAssign m start c offset rcs v).val i = none :=
  partials_none m start offset ((c.first :: c.following).zip rcs) h

private theorem permutation_none (m : Base.Mds F 3) (rc : ℕ → Fin 3 → F) (c : Septidon.Config) (start : ℕ)
    {v : Fin 3 → Value F} (h : ∃ i, v i = none) (begin_ : ℕ) (k : Fin 3) :
    (assignPermutation m rc c start v begin_).val k = none := by
  have hP : ∀ (n d : ℕ) (f : ℕ → ℕ) {v : Fin 3 → Value F}, (∃ i, v i = none) → ∃ i,
      (W.loop (fun o s => fullAssign m start c.full (o + d) (rc (f o)) s) n v).val i = none := fun n d f v h =>
    loop_keeps (fun s : Fin 3 → Value F => ∃ i, s i = none) (fun i a ha => ⟨0, fullAssign_none m _ _ _ _ ha 0⟩) n h
  simp only [assignPermutation, W.bind_val, W.pure_val]
  refine fullAssign_none m _ _ _ _ ?_ k
  refine loop_keeps (fun s : Fin 3 → Value F => ∃ i, s i = none) (fun i a ha => ⟨0, fullAssign_none m _ _ _ _ ha 0⟩) 3 ?_
  refine loop_keeps (fun s : Fin 3 → Value F => ∃ i, s i = none) (fun i a ha => ?_) 8 ?_
  · exact septuple_none m start c.septuple (i + begin_) _ ha
  · obtain ⟨i, hi⟩ := hP 4 begin_ id h
    refine ⟨0, matmulValues_none m (i := i) ?_ 0⟩
    fin_cases i
    · exact congrArg (Value.map _) hi
    · exact hi
    · exact hi

private theorem septidon_none (m : Base.Mds F 3) (rc : ℕ → Fin 3 → F) (c : Septidon.Config)
    {v : Words (Value F) 3} (h : ∃ i, (v i).value = none) (last start : ℕ) (k : Fin 3) :
    ((septidonBody m rc c v last start).val k).value = none := by
  have := permutation_none m rc c start (v := mapArray v fun w => w.value) (by
    obtain ⟨i, hi⟩ := h
    exact ⟨i, by fin_cases i <;> exact hi⟩) last k
  fin_cases k <;> exact this

private theorem fullRound_none (c : Pow5.Config F t) (start : ℕ) {s : Words (Value F) (t + 1)}
    (h : ∃ i, (s i).value = none) (round offset : ℕ) (k : Fin (t + 1)) :
    ((fullRound c start s round offset).val k).value = none := by
  obtain ⟨i, hi⟩ := h
  refine mulMds_none c.mReg (k := i) ?_ k
  rw [hi, add_none_left]; rfl

private theorem single_none (c : Pow5.Config F t) (start : ℕ) {s : Words (Value F) (t + 1)}
    (h : ∃ i, (s i).value = none) (round offset : ℕ) (k : Fin (t + 1)) :
    ((partialRoundSingle c start s round offset).val k).value = none := by
  obtain ⟨i, hi⟩ := h
  refine mulMds_none c.mReg (k := i) ?_ k
  rw [hi]; rfl

private theorem partial_none (c : Pow5.Config F t) (start : ℕ) {s : Words (Value F) (t + 1)}
    (h : ∃ i, (s i).value = none) (round offset : ℕ) (k : Fin (t + 1)) :
    ((partialRound c start s round offset).val k).value = none := by
  obtain ⟨i, hi⟩ := h
  refine mulMds_none c.mReg (k := 0) ?_ k
  rw [if_pos rfl, mulMds_none c.mReg (k := i), add_none_left]
  · rfl
  · split
    · rw [hi, add_none_left]; rfl
    · rw [hi, add_none_right]

private theorem pow5_none (S : Pow5.Params F t) (c : Pow5.Config F t) (h0 : 0 < c.halfFull)
    {s : Words (Value F) (t + 1)} (h : ∃ i, (s i).value = none) (start : ℕ) (k : Fin (t + 1)) :
    ((pow5Body S c s start).val k).value = none := by
  obtain ⟨n, hn⟩ : ∃ n, c.halfFull = n + 1 := ⟨c.halfFull - 1, by omega⟩
  have key : ∀ {s : Words (Value F) (t + 1)} (f : ℕ → Words (Value F) (t + 1) → W (Value F) (Words (Value F) (t + 1))),
      (∀ i a, (∃ j, (a j).value = none) → ∀ j, ((f i a).val j).value = none) → (∃ i, (s i).value = none) →
      ∀ k, ((W.loop f c.halfFull s).val k).value = none := by
    intro s f hf hs k
    rw [hn]
    exact hf _ _ (loop_keeps (fun s : Words (Value F) (t + 1) => ∃ i, (s i).value = none) (fun i a ha => ⟨0, hf i a ha 0⟩) n hs) k
  refine key _ (fun i a ha => fullRound_none c _ ha _ _) ?_ k
  have hodd : ∀ {s : Words (Value F) (t + 1)}, (∃ i, (s i).value = none) →
      ∃ i, ((oddRound S c start s).val i).value = none := by
    intro s hs
    unfold oddRound
    split
    · exact ⟨0, single_none c _ hs _ _ 0⟩
    · exact hs
  refine hodd (loop_keeps (fun s : Words (Value F) (t + 1) => ∃ i, (s i).value = none) (fun i a ha => ⟨0, partial_none c _ ha _ _ 0⟩) _ ?_)
  exact ⟨0, key (s := (load c start s).val) _ (fun i a ha => fullRound_none c _ ha _ _) h 0⟩

private theorem region_val {V α : Type} {body : ℕ → W V α} {L L' : Layouter V} {v : α}
    (h : L.assignRegion (fun s => .ok (body s)) = .ok (v, L')) : ∃ s, v = (body s).val := by
  simp only [Layouter.assignRegion, bind, Except.bind, pure, Except.pure] at h
  split at h
  · cases h
  · cases h
    exact ⟨_, rfl⟩

/-- Something unknown has gone into the sponge. -/
private def Dirty (s : Sponge F (AMode F t) t) : Prop :=
  (∃ i, (s.state i).value = none) ∨ ∃ k c, s.mode k = some (.message c) ∧ c.value = none

private theorem sponge_none {S : Pow5.Params F t} {c : Pow5.Config F t} (h0 : 0 < c.halfFull) {L : Layouter (Value F)}
    {s : Sponge F (AMode F t) t} (h : Dirty s) {w : Words (Value F) (t + 1)} {m : SMode F t} {L' : Layouter (Value F)}
    (e : poseidonSponge S c L s.state (some s.mode) = .ok (w, m, L')) :
    (∀ i, (w i).value = none) ∧ m = getOutput w := by
  simp only [poseidonSponge, stepInput, addInput, bind, Except.bind, pure, Except.pure] at e
  split at e
  · cases e
  rename_i v e1
  split at e
  · cases e
  rename_i u e2
  cases e
  refine ⟨fun i => ?_, rfl⟩
  obtain ⟨st, hst⟩ := region_val e2
  rw [hst]
  refine pow5_none S c h0 ?_ st i
  split at e1
  · cases e1
  rename_i p hp
  obtain ⟨st', hst'⟩ := region_val e1
  rw [hst']
  rcases h with ⟨j, hj⟩ | ⟨k, cell, hk, hc⟩
  · refine ⟨j, ?_⟩
    show (if h : j.val < t then Value.add (s.state j).value _ else (s.state j).value) = none
    split
    · rw [hj, add_none_left]
    · exact hj
  · refine ⟨k.castSucc, ?_⟩
    have hpk : p k = .message cell := by
      unfold Pow5.allSome at hp
      split at hp
      · cases hp; simp only [hk, Option.get_some]
      · cases hp
    show (if h : (k.castSucc).val < t then Value.add _ ((loadInput c st' ⟨(k.castSucc).val, h⟩ (p ⟨(k.castSucc).val, h⟩)).val).value
      else _) = none
    have hlt : (k.castSucc).val < t := k.isLt
    rw [dif_pos hlt]
    have : (⟨(k.castSucc).val, hlt⟩ : Fin t) = k := rfl
    rw [this, hpk]
    show Value.add _ cell.value = none
    rw [hc, add_none_right]

private theorem absorb_dirty {S : Pow5.Params F t} {c : Pow5.Config F t} (h0 : 0 < c.halfFull)
    {L : Layouter (Value F)} {s s' : Sponge F (AMode F t) t} {p : PaddedWord F} {L' : Layouter (Value F)}
    (h : Dirty s ∨ ∃ cell, p = .message cell ∧ cell.value = none)
    (e : s.absorb S c L p = .ok (s', L')) : Dirty s' := by
  unfold Sponge.absorb at e
  split at e
  · rename_i k hk
    cases e
    have hn : s.mode k = none := by simpa using List.find?_some hk
    rcases h with (h | ⟨j, cell, hj, hc⟩) | ⟨cell, rfl, hc⟩
    · exact Or.inl h
    · refine Or.inr ⟨j, cell, ?_, hc⟩
      have : j ≠ k := by rintro rfl; rw [hn] at hj; cases hj
      simp only [Function.update_of_ne this, hj]
    · exact Or.inr ⟨k, cell, by simp only [Function.update_self], hc⟩
  · simp only [bind, Except.bind, pure, Except.pure] at e
    split at e
    · cases e
    rename_i v e1
    obtain ⟨w, m, L₁⟩ := v
    simp only at e
    split at e
    · cases e
    rename_i md e2
    cases e
    rcases h with h | ⟨cell, rfl, hc⟩
    · exact Or.inl ⟨0, (sponge_none h0 h e1).1 0⟩
    · unfold initWith at e2
      split at e2
      · cases e2
      rename_i ht
      cases e2
      exact Or.inr ⟨⟨0, by omega⟩, cell, by simp, hc⟩

private theorem absorbAll_dirty {S : Pow5.Params F t} {c : Pow5.Config F t} (h0 : 0 < c.halfFull)
    (l : List (PaddedWord F)) : ∀ {L : Layouter (Value F)} {s s' : Sponge F (AMode F t) t} {L' : Layouter (Value F)},
    (Dirty s ∨ ∃ cell, PaddedWord.message cell ∈ l ∧ cell.value = none) →
    s.absorbAll S c L l = .ok (s', L') → Dirty s' := by
  induction l with
  | nil =>
    intro L s s' L' h e
    rcases h with h | ⟨_, h, -⟩
    · simp only [Sponge.absorbAll] at e; cases e; exact h
    · cases h
  | cons p l ih =>
    intro L s s' L' h e
    simp only [Sponge.absorbAll, bind, Except.bind] at e
    split at e
    · cases e
    rename_i v e1
    refine ih ?_ e
    rcases h with h | ⟨cell, h, hc⟩
    · exact Or.inl (absorb_dirty h0 (Or.inl h) e1)
    · rcases List.mem_cons.mp h with h | h
      · exact Or.inl (absorb_dirty h0 (Or.inr ⟨cell, h.symm, hc⟩) e1)
      · exact Or.inr ⟨cell, h, hc⟩

private theorem takeFirst_none {w : Words (Value F) (t + 1)} (h : ∀ i, (w i).value = none) {e : ACell (Value F)}
    {m : SMode F t} (he : takeFirst (getOutput w) = some (e, m)) : e.value = none := by
  unfold takeFirst at he
  split at he
  · cases he
  · simp only [getOutput, Option.map_some, Option.some.injEq, Prod.mk.injEq] at he
    rw [← he.1]; exact h _

private theorem takeFirst_output (ht : 0 < t) (w : Words (Value F) (t + 1)) : takeFirst (getOutput w) ≠ none := by
  unfold takeFirst
  split
  · rename_i h
    rw [List.find?_eq_none] at h
    exact absurd (h ⟨0, ht⟩ (List.mem_finRange _)) (by simp [getOutput])
  · simp [getOutput]

private theorem hash_none {n : ℕ} {S : Pow5.Params F t} {c : Pow5.Config F t} (h0 : 0 < c.halfFull) (ht : 0 < t)
    {L : Layouter (Value F)} {message : Fin n → ACell (Value F)} (h : ∃ i, (message i).value = none)
    {out : ACell (Value F)} {L' : Layouter (Value F)} (e : Vals.hashCells S c L message = .ok (out, L')) :
    out.value = none := by
  simp only [Vals.hashCells, Vals.hash, bind, Except.bind, pure, Except.pure] at e
  split at e
  · cases e
  split at e
  · cases e
  split at e
  · cases e
  rename_i pad _ v e1
  split at e
  · cases e
  rename_i u e2
  split at e
  · cases e
  rename_i z e3
  cases e
  have hd : Dirty v.1 := by
    refine absorbAll_dirty h0 _ (Or.inr ?_) e1
    obtain ⟨i, hi⟩ := h
    exact ⟨message i, List.mem_append_left _ (List.mem_map.mpr ⟨_, (List.mem_ofFn' _ _).mpr ⟨i, rfl⟩, rfl⟩), hi⟩
  simp only [Sponge.finishAbsorbing, bind, Except.bind, pure, Except.pure] at e2
  split at e2
  · cases e2
  rename_i q e4
  cases e2
  obtain ⟨hw, hm⟩ := sponge_none h0 hd e4
  unfold Sponge.squeeze at e3
  split at e3
  · rename_i cell m hh
    cases e3
    rw [hm] at hh
    exact takeFirst_none hw hh
  · rename_i hh
    rw [hm] at hh
    exact absurd hh (takeFirst_output ht _)

/-! ### Lists of words -/

private def fillCell (c : ACell (Value F)) : ACell F := ⟨c.cell, c.value.getD 0⟩
private def blankCell (c : ACell (Value F)) : ACell (Value F) := ⟨c.cell, none⟩

private theorem tracks_fillCell (c : ACell (Value F)) : CellTracks True c (fillCell c) := ⟨rfl, tracks_getD _⟩

private theorem tracks_blankCell {c d : ACell (Value F)} (h : c.cell = d.cell) :
    CellTracks True (blankCell c) (fillCell d) := ⟨h, Or.inr ⟨trivial, rfl⟩⟩

private theorem fixedKnown_of {L : Layouter (Value F)} {X : Layouter F} {b : Prop} (h : LTracks b L X) : FixedKnown L := by
  intro o ho
  obtain ⟨i, hi, rfl⟩ := List.mem_iff_getElem.mp ho
  have hx := List.forall₂_iff_get.mp h.2.2
  have := hx.2 i hi (hx.1 ▸ hi)
  simp only [List.get_eq_getElem] at this
  refine ⟨fun c r e => ?_, fun c e => ?_, fun c r e => ?_⟩ <;> rw [e] at this <;>
    cases hxi : X.ops[i]'(hx.1 ▸ hi) <;> rw [hxi] at this <;> simp [OpTracks] at this

private def blankOp : Op (Value F) → Op (Value F)
  | .advice c r _ => .advice c r none
  | o => o

private def blankL (L : Layouter (Value F)) : Layouter (Value F) := ⟨L.colEnd, L.constCol, L.ops.map blankOp⟩

private theorem sameOp_refl (o : Op (Value F)) : SameOp o o := by cases o <;> simp [SameOp]

private theorem sameCircuit_refl (L : Layouter (Value F)) : SameCircuit L L :=
  ⟨rfl, rfl, List.forall₂_same.mpr fun o _ => sameOp_refl o⟩

private theorem fixedKnown_same {L M : Layouter (Value F)} (h : SameCircuit L M) (hL : FixedKnown L) : FixedKnown M := by
  intro o ho
  obtain ⟨i, hi, rfl⟩ := List.mem_iff_getElem.mp ho
  have hx := List.forall₂_iff_get.mp h.2.2
  have hi' : i < L.ops.length := hx.1 ▸ hi
  have := hx.2 i hi' hi
  simp only [List.get_eq_getElem] at this
  have hk := hL _ (List.getElem_mem hi')
  revert this hk
  cases L.ops[i] <;> cases M.ops[i] <;> simp only [SameOp, reduceCtorEq, false_imp_iff] <;> intro e hk <;>
    first | (rw [← e]; exact hk) | simp

private theorem tracks_blank {L M : Layouter (Value F)} (h : SameCircuit L M) (hM : FixedKnown M) :
    LTracks True (blankL L) (fillL M) := by
  refine ⟨h.1, h.2.1, ?_⟩
  simp only [blankL, fillL]
  rw [List.forall₂_map_left_iff]
  refine forall₂_trans' (R := SameOp) (Q := fun o u => OpTracks True o u) (T := fun o u => OpTracks True (blankOp o) u)
    (fun a b u hab hb => ?_) h.2.2 (tracks_fill hM).2.2
  cases a <;> cases b <;> simp only [SameOp, reduceCtorEq] at hab <;> cases u <;>
    simp_all [OpTracks, blankOp, Tracks]

end sim

/-- Two runs that panic alike, or both succeed, with `R`-related results and one circuit. -/
def SameOutcome {α : Type} (R : α → α → Prop) :
    Except Panic (α × Layouter (Value F)) → Except Panic (α × Layouter (Value F)) → Prop
  | .ok u, .ok v => R u.1 v.1 ∧ SameCircuit u.2 v.2 ∧ FixedKnown u.2
  | .error e, .error e' => e = e'
  | _, _ => False

/-- The same cells, whatever is assigned to them. -/
def SameCells {n : ℕ} (w w' : Words (Value F) n) : Prop := ∀ i, (w i).cell = (w' i).cell

section outcome
open Vals

private theorem same_outcome {σ σ' α α' : Type} {run : Layouter (Value F) → σ → Except Panic (α × Layouter (Value F))}
    {run' : Layouter F → σ' → Except Panic (α' × Layouter F)} {Rs : σ → σ' → Prop} {Ra : α → α' → Prop} {R : α → α → Prop}
    (sim : ∀ {L X s x}, LTracks True L X → Rs s x →
      ETracks (fun u u' => Ra u.1 u'.1 ∧ LTracks True u.2 u'.2) (run L s) (run' X x))
    (hR : ∀ {a a' x}, Ra a x → Ra a' x → R a a') (htr : ∀ {a b c}, R a b → R b c → R a c)
    {L M : Layouter (Value F)} (hL : FixedKnown L) (hM : SameCircuit L M) {s s' z : σ} {x x' : σ'}
    (h1 : Rs s x) (h2 : Rs s' x') (h3 : Rs z x) (h4 : Rs z x') : SameOutcome R (run L s) (run M s') := by
  have hK := fixedKnown_same hM hL
  have e1 := sim (tracks_fill hL) h1
  have e2 := sim (tracks_fill hK) h2
  have e3 := sim (tracks_blank (sameCircuit_refl L) hL) h3
  have e4 := sim (tracks_blank hM hK) h4
  revert e1 e2 e3 e4
  cases run L s <;> cases run M s' <;> cases run (blankL L) z <;> cases run' (fillL L) x <;> cases run' (fillL M) x' <;>
    simp only [ETracks, SameOutcome, false_imp_iff, imp_self, implies_true]
  · intro e1 e2 e3 e4
    rw [e1, e2, ← e3, ← e4]
  · intro e1 e2 e3 e4
    exact ⟨htr (hR e1.1 e3.1) (hR e4.1 e2.1), sameCircuit_trans (sameCircuit_of e1.2 e3.2) (sameCircuit_of e4.2 e2.2),
      fixedKnown_of e1.2⟩

private theorem forall₂_fill {n : ℕ} (l : List (Words (Value F) n)) :
    List.Forall₂ (fun u y => ∀ i, CellTracks True (u i) (y i)) l (l.map fun w i => fillCell (w i)) := by
  rw [List.forall₂_map_right_iff, List.forall₂_same]
  exact fun w _ i => tracks_fillCell (w i)

private theorem forall₂_blank {n : ℕ} {l l' : List (Words (Value F) n)} (h : List.Forall₂ SameCells l l') :
    List.Forall₂ (fun u y => ∀ i, CellTracks True (u i) (y i)) (l.map fun w i => blankCell (w i))
      (l'.map fun w i => fillCell (w i)) := by
  rw [List.forall₂_map_right_iff, List.forall₂_map_left_iff]
  exact h.imp fun w w' h i => tracks_blankCell (h i)

private theorem forall₂_refl {n : ℕ} (l : List (Words (Value F) n)) : List.Forall₂ SameCells l l :=
  List.forall₂_same.mpr fun _ _ _ => rfl

private theorem forall₂_sames {n : ℕ} {a a' : List (Words (Value F) n)} {x : List (Words F n)}
    (h : List.Forall₂ (fun u y => ∀ i, CellTracks True (u i) (y i)) a x)
    (h' : List.Forall₂ (fun u y => ∀ i, CellTracks True (u i) (y i)) a' x) : List.Forall₂ SameCells a a' :=
  forall₂_join (R := fun (u : Words (Value F) n) (y : Words F n) => ∀ i, CellTracks True (u i) (y i))
    (Q := fun (u : Words (Value F) n) (y : Words F n) => ∀ i, CellTracks True (u i) (y i)) (T := SameCells) (fun _ _ _ h h' i => (h i).1.trans (h' i).1.symm) h h'

private theorem tracks_map {n : ℕ} {b : Prop}
    {P : Layouter (Value F) → Words (Value F) n → Except Panic (Words (Value F) n × Layouter (Value F))}
    {P' : Layouter F → Words F n → Except Panic (Words F n × Layouter F)}
    (hP : ∀ {L X w x}, LTracks b L X → (∀ i, CellTracks b (w i) (x i)) →
      ETracks (fun u u' => (∀ i, CellTracks b (u.1 i) (u'.1 i)) ∧ LTracks b u.2 u'.2) (P L w) (P' X x))
    {l : List (Words (Value F) n)} {l' : List (Words F n)}
    (h : List.Forall₂ (fun u y => ∀ i, CellTracks b (u i) (y i)) l l') :
    ∀ {L X}, LTracks b L X → ETracks (fun u u' => List.Forall₂ (fun (u : Words (Value F) n) (y : Words F n) => ∀ i, CellTracks b (u i) (y i)) u.1 u'.1 ∧
      LTracks b u.2 u'.2) (mapPermute P L l) (mapPermute P' X l') := by
  induction h with
  | nil => exact fun hL => ⟨.nil, hL⟩
  | cons h _ ih =>
    intro L X hL
    unfold mapPermute
    refine (hP hL h).bind fun u u' hu => (ih hu.2).bind fun v v' hv => ⟨.cons hu.1 hv.1, hv.2⟩

/-- Both ways of permuting a list of states with the Septidon chip, with values that may be unknown. -/
def septidonValues (m : Base.Mds F 3) (rc : ℕ → Fin 3 → F) (cfg : Septidon.Config)
    (L : Layouter (Value F)) (states : List (Words (Value F) 3)) :
    Option ℕ → Except Panic (List (Words (Value F) 3) × Layouter (Value F))
  | some threads => septidonBatch m rc cfg threads L states
  | none => mapPermute (septidonPermute m rc cfg) L states

private theorem tracks_septidonValues {b : Prop} (m : Base.Mds F 3) (rc : ℕ → Fin 3 → F) (cfg : Septidon.Config)
    (batch : Option ℕ) {L : Layouter (Value F)} {X : Layouter F} (hL : LTracks b L X)
    {l : List (Words (Value F) 3)} {l' : List (Words F 3)}
    (h : List.Forall₂ (fun u y => ∀ i, CellTracks b (u i) (y i)) l l') :
    ETracks (fun u u' => List.Forall₂ (fun u y => ∀ i, CellTracks b (u i) (y i)) u.1 u'.1 ∧ LTracks b u.2 u'.2)
      (septidonValues m rc cfg L l batch) (septidonPermuteAll m rc cfg X l' batch) := by
  cases batch with
  | none => exact tracks_map (fun hL h => ltracks_region (fun s => wtracks_septidon m rc cfg h 0 s) hL) h hL
  | some threads => exact tracks_septidonBatch m rc cfg threads hL h

private theorem map_rel {n : ℕ} {V : Type}
    {P : Layouter V → Words V n → Except Panic (Words V n × Layouter V)}
    (R : Words V n → Words V n → Prop) (hP : ∀ {L w o L'}, P L w = .ok (o, L') → R w o) :
    ∀ {l outs L L'}, mapPermute P L l = .ok (outs, L') → List.Forall₂ R l outs
  | [], outs, L, L', h => by simp only [mapPermute] at h; cases h; exact .nil
  | w :: l, outs, L, L', h => by
    simp only [mapPermute, bind, Except.bind, pure, Except.pure] at h
    split at h
    · cases h
    rename_i v hv
    split at h
    · cases h
    rename_i u hu
    cases h
    exact .cons (hP (L := L) (L' := v.2) hv) (map_rel R hP (L' := u.2) hu)

private theorem place_length {V : Type} : ∀ (sh : List (List (Op V))) (L : Layouter V), (L.placeAll sh).1.length = sh.length
  | [], _ => rfl
  | s :: sh, L => by simp only [Layouter.placeAll, List.length_cons, place_length sh]

private theorem regions_rel {V α β : Type} (sh : β → List (Op V)) (body : β → ℕ → W V α) {l : List β} {L L' : Layouter V}
    {outs : List α} (h : L.assignRegions (l.map fun x => (sh x, fun s => .ok (body x s))) = .ok (outs, L')) :
    List.Forall₂ (fun x o => ∃ s, o = (body x s).val) l outs := by
  have key : ∀ (l : List β) (st : List ℕ), st.length = l.length → ∃ o : List (W V α),
      List.mapM (m := Except Panic) (fun x : (List (Op V) × (ℕ → Except Panic (W V α))) × ℕ => x.1.2 x.2)
        (List.zip (l.map fun x => (sh x, fun s => .ok (body x s))) st) = .ok o ∧
      List.Forall₂ (fun x o => ∃ s, o = (body x s).val) l (o.map W.val) := by
    intro l
    induction l with
    | nil => intro st _; exact ⟨[], by simp [pure, Except.pure], .nil⟩
    | cons x l ih =>
      intro st hst
      cases st with
      | nil => simp at hst
      | cons s st =>
        obtain ⟨o, e, ho⟩ := ih st (by simpa using hst)
        exact ⟨_ :: o, by rw [List.map_cons, List.zip_cons_cons, List.mapM_cons, e]; rfl, .cons ⟨s, rfl⟩ ho⟩
  obtain ⟨o, e, ho⟩ := key l (L.placeAll ((l.map fun x => (sh x, fun s => (Except.ok (body x s) : Except Panic _))).map Prod.fst)).1
    (by rw [place_length, List.length_map, List.length_map])
  simp only [Layouter.assignRegions, bind, Except.bind, pure, Except.pure] at h
  rw [e] at h
  cases h
  exact ho

private theorem batch_rel (m : Base.Mds F 3) (rc : ℕ → Fin 3 → F) (c : Septidon.Config) :
    ∀ (l : List (Words (Value F) 3)) (last start : ℕ),
    List.Forall₂ (fun w o => ∃ last start, o = (septidonBody m rc c w last start).val) l (batchBody m rc c l last start).val
  | [], _, _ => .nil
  | w :: l, last, start => by
    have e : (batchBody m rc c (w :: l) last start).val = (septidonBody m rc c w last start).val ::
        (batchBody m rc c l (last + 8) start).val := rfl
    rw [e]
    exact .cons ⟨last, start, rfl⟩ (batch_rel m rc c l (last + 8) start)

private theorem septidon_rel {m : Base.Mds F 3} {rc : ℕ → Fin 3 → F} {c : Septidon.Config} {L : Layouter (Value F)}
    {l : List (Words (Value F) 3)} {batch : Option ℕ} {outs : List (Words (Value F) 3)} {L' : Layouter (Value F)}
    (h : septidonValues m rc c L l batch = .ok (outs, L')) :
    List.Forall₂ (fun w o => ∃ last start, o = (septidonBody m rc c w last start).val) l outs := by
  cases batch with
  | none => exact map_rel _ (fun h => by obtain ⟨s, hs⟩ := region_val h; exact ⟨0, s, hs⟩) h
  | some threads =>
    simp only [septidonValues, septidonBatch, bind, Except.bind, pure, Except.pure] at h
    split at h
    · cases h
    rename_i v hv
    cases h
    have := regions_rel (β := List (Words (Value F) 3)) (α := List (Words (Value F) 3)) (V := Value F)
      (fun chunk => [Op.advice (c.finalCells 0).column (chunk.length * 8 - 1) (Value.known (0 : F))])
      (fun chunk start => batchBody m rc c chunk 0 start) (l := chunksOf (l.length / threads + 2) l) (L := L) (L' := v.2)
      (outs := v.1) hv
    have hf : List.Forall₂ (List.Forall₂ fun w o => ∃ last start, o = (septidonBody m rc c w last start).val)
        (chunksOf (l.length / threads + 2) l) v.1 := by
      refine this.imp fun chunk o h => ?_
      obtain ⟨s, hs⟩ := h
      rw [hs]
      exact batch_rel m rc c chunk 0 s
    have := List.rel_flatten hf
    rwa [(Septidon.chunksOf_spec (l.length / threads + 2) (Nat.succ_pos _) l).1] at this

end outcome

/-- What a permutation of one state returns: if all words are known, the known permuted words; if some word is
unknown, only unknown words. -/
def Permutes {n : ℕ} (perm : (Fin n → F) → Fin n → F) (w o : Words (Value F) n) : Prop :=
  (∀ x : Fin n → F, (∀ i, (w i).value = some (x i)) → ∀ k, (o k).value = some (perm x k)) ∧
    ((∃ i, (w i).value = none) → ∀ k, (o k).value = none)

/-- **C72 (Septidon).** Any constants with compact partial rounds, any state of the layouter in which everything but
advice is known, any list of states with words that may be known or not, `permute_batch` with any number of threads or
permuting one state after the other: synthesis succeeds; a state all of whose words are known yields the textbook
permutation, any other state only unknown words. Any other values in the same cells, on a layouter that differs only
in advice values, yield the same cells and the same circuit: the same regions, fixed cells, copies and constants. -/
theorem C72_septidon (m : Base.Mds F 3) (rc : ℕ → Fin 3 → F) (hc : ∀ r, 4 ≤ r → r < 61 → ∀ k, k ≠ 0 → rc r k = 0)
    (cs : CS F) (L : Layouter (Value F)) (hL : FixedKnown L) (states : List (Words (Value F) 3)) (batch : Option ℕ) :
    (∃ outs L', septidonValues m rc (Septidon.configure m rc cs).1 L states batch = .ok (outs, L') ∧
      List.Forall₂ (Permutes (Spec.poseidon (fun v => v ^ 5) (Matrix.of m) 4 57 rc)) states outs) ∧
    ∀ (M : Layouter (Value F)) (states' : List (Words (Value F) 3)), SameCircuit L M →
      List.Forall₂ SameCells states states' →
      SameOutcome (List.Forall₂ SameCells) (septidonValues m rc (Septidon.configure m rc cs).1 L states batch)
        (septidonValues m rc (Septidon.configure m rc cs).1 M states' batch) := by
  refine ⟨?_, fun M states' hM hs => ?_⟩
  · obtain ⟨o, X, _, e, -⟩ := C22_septidon_complete m rc hc cs (fillL L) (states.map fun w i => fillCell (w i)) batch
    have := tracks_septidonValues m rc (Septidon.configure m rc cs).1 batch (tracks_fill hL) (forall₂_fill states)
    rw [e] at this
    cases hr : septidonValues m rc (Septidon.configure m rc cs).1 L states batch with
    | error e' => rw [hr] at this; exact this.elim
    | ok u =>
      refine ⟨u.1, u.2, rfl, (septidon_rel (L' := u.2) hr).imp ?_⟩
      rintro w _ ⟨last, start, rfl⟩
      refine ⟨fun x hx k => ?_, fun h k => septidon_none m rc _ h last start k⟩
      have ht := (Vals.wtracks_septidon (b := False) m rc (Septidon.configure m rc cs).1 (v := w)
        (x := fun i => ⟨(w i).cell, x i⟩) (fun i => ⟨rfl, Or.inl (hx i)⟩) last start).1 k
      have hcfg : (Septidon.configure m rc cs).1 = Septidon.config cs.numAdvice cs.numFixed := by
        rw [Septidon.configure_eq]
      rw [hcfg] at ht ⊢
      rw [Septidon.permuteBody_shift, Septidon.permuteBody_val _ _ _ _ hc] at ht
      rcases ht.2 with h | ⟨h, -⟩
      · exact h
      · exact h.elim
  · exact same_outcome (run := fun L l => septidonValues m rc (Septidon.configure m rc cs).1 L l batch)
      (run' := fun L l => septidonPermuteAll m rc (Septidon.configure m rc cs).1 L l batch)
      (Rs := List.Forall₂ fun u y => ∀ i, Vals.CellTracks True (u i) (y i))
      (Ra := List.Forall₂ fun u y => ∀ i, Vals.CellTracks True (u i) (y i))
      (fun hL h => tracks_septidonValues m rc _ batch hL h) forall₂_sames
      (fun h h' => forall₂_trans' (R := SameCells) (Q := SameCells) (T := SameCells) (fun _ _ _ h h' i => (h i).trans (h' i)) h h')
      hL hM (forall₂_fill states) (forall₂_fill states') (forall₂_blank (forall₂_refl states)) (forall₂_blank hs)

/-- **C72 (Pow5).** The same for the Pow5 chip with any width and round numbers `configure` accepts (at least one
full round, so that an unknown word reaches all others). -/
theorem C72_pow5 (S : Pow5.Params F t) (hf : 0 < S.fullRounds) (cols : Pow5.Cols t) (cs cs' : CS F) (c : Pow5.Config F t)
    (hcfg : Pow5.configureChecked S cols cs = .ok (c, cs')) (L : Layouter (Value F)) (hL : FixedKnown L)
    (w : Words (Value F) (t + 1)) :
    (∃ o L', Vals.pow5Permute S c L w = .ok (o, L') ∧
      Permutes (Spec.poseidon (fun v => v ^ 5) (Matrix.of S.mReg) (S.fullRounds / 2) S.partialRounds S.rc) w o) ∧
    ∀ (M : Layouter (Value F)) (w' : Words (Value F) (t + 1)), SameCircuit L M → SameCells w w' →
      SameOutcome SameCells (Vals.pow5Permute S c L w) (Vals.pow5Permute S c M w') := by
  obtain ⟨hev, ht, rfl, -⟩ := configure_ok hcfg
  refine ⟨?_, fun M w' hM hs => ?_⟩
  · have := Vals.tracks_pow5 S (Pow5.config S cols cs.numSelectors) (tracks_fill hL) (w := w) (w' := fun i => fillCell (w i))
      fun i => tracks_fillCell (w i)
    cases hr : Vals.pow5Permute S (Pow5.config S cols cs.numSelectors) L w with
    | error e' =>
      rw [hr] at this
      obtain ⟨X, e⟩ : ∃ X, Pow5.permute S (Pow5.config S cols cs.numSelectors) (fillL L) (fun i => fillCell (w i)) =
          .ok X := by
        obtain ⟨s, L', e, -⟩ := Pow5.serial_ok S cols cs.numSelectors [fun i => fillCell (w i)] (fillL L)
        simp only [mapPermute, bind, Except.bind] at e
        split at e
        · cases e
        rename_i v hv
        exact ⟨v, hv⟩
      rw [e] at this
      exact this.elim
    | ok u =>
      refine ⟨u.1, u.2, rfl, ?_⟩
      obtain ⟨start, hst⟩ := region_val (body := fun s => Vals.pow5Body S (Pow5.config S cols cs.numSelectors) w s)
        (L' := u.2) hr
      rw [hst]
      refine ⟨fun x hx k => ?_, fun h k => pow5_none S _ ?_ h start k⟩
      · have ht := (Vals.wtracks_pow5 (b := False) S (Pow5.config S cols cs.numSelectors) (v := w)
          (x := fun i => ⟨(w i).cell, x i⟩) (fun i => ⟨rfl, Or.inl (hx i)⟩) start).1 k
        rw [(Pow5.permuteBody_spec S cols _ _ _).1] at ht
        rcases ht.2 with h | ⟨h, -⟩
        · rw [h]
          simp only [Pow5.stWords, Pow5.xAt_steps, Pow5.perm]
        · exact h.elim
      · show 0 < S.fullRounds / 2
        omega
  · exact same_outcome (run := fun L w => Vals.pow5Permute S (Pow5.config S cols cs.numSelectors) L w)
      (run' := fun L w => Pow5.permute S (Pow5.config S cols cs.numSelectors) L w)
      (Rs := Vals.WordsTracks True) (Ra := Vals.WordsTracks True) (R := SameCells)
      (fun hL h => Vals.tracks_pow5 S _ hL h) (fun h h' i => (h i).1.trans (h' i).1.symm)
      (fun h h' i => (h i).trans (h' i))
      hL hM (fun i => tracks_fillCell (w i)) (fun i => tracks_fillCell (w' i)) (z := fun i => blankCell (w i))
      (fun i => tracks_blankCell rfl) (fun i => tracks_blankCell (hs i))

/-- **C72 (gadget).** Hashing a message of any positive length some of whose words may be unknown: on any layouter with
a column of constants synthesis succeeds, the digest is known exactly if all words are, and is then the native digest. -/
theorem C72_hash {n : ℕ} (fr pr : ℕ) (hf : 0 < fr) (mds mi : Base.Mds F (t + 1)) (rc : List (Base.State F (t + 1)))
    (hrc : fr + pr ≤ rc.length) (hinv : Matrix.of mds * Matrix.of mi = 1)
    (cols : Pow5.Cols t) (hd : cols.Distinct) (cs cs' : CS F) (c : Pow5.Config F t)
    (hcfg : Pow5.configureChecked (gadgetParams fr pr mds mi rc) cols cs = .ok (c, cs'))
    (L : Layouter (Value F)) (hL : FixedKnown L) (kc : ℕ) (hconst : L.constCol = some kc)
    (message : Fin n → ACell (Value F)) (hn : 0 < n) :
    ∃ out L', Vals.hashCells (gadgetParams fr pr mds mi rc) c L message = .ok (out, L') ∧
      (∀ x : Fin n → F, (∀ i, (message i).value = some (x i)) →
        ∃ d, nativeConstHash fr pr mds rc (List.ofFn x) = .ok d ∧ out.value = some d) ∧
      ((∃ i, (message i).value = none) → out.value = none) := by
  obtain ⟨hev, ht, hce, -⟩ := configure_ok hcfg
  obtain ⟨y, X, e, -⟩ := hash_value fr pr mds mi rc hrc hinv cols hd cs cs' c hcfg (fillL L) kc hconst
    (fun i => fillCell (message i)) hn
  have := Vals.tracks_hash (gadgetParams fr pr mds mi rc) c (tracks_fill hL) (message := message)
    fun i => tracks_fillCell (message i)
  rw [e] at this
  cases hr : Vals.hashCells (gadgetParams fr pr mds mi rc) c L message with
  | error e' => rw [hr] at this; exact this.elim
  | ok u =>
    refine ⟨u.1, u.2, rfl, fun x hx => ?_, fun h => hash_none (L' := u.2) ?_ ht h hr⟩
    · have hk := Vals.tracks_hash (b := False) (gadgetParams fr pr mds mi rc) c (tracks_fill hL) (message := message)
        (message' := fun i => ⟨(message i).cell, x i⟩) fun i => ⟨rfl, Or.inl (hx i)⟩
      obtain ⟨y, X, e, hy⟩ := hash_value fr pr mds mi rc hrc hinv cols hd cs cs' c hcfg (fillL L) kc hconst
        (fun i => ⟨(message i).cell, x i⟩) hn
      rw [hr, e] at hk
      refine ⟨y.value, hy, ?_⟩
      rcases hk.1.2 with h | ⟨h, -⟩
      · exact h
      · exact h.elim
    · rw [hce]
      show 0 < fr / 2
      have : fr % 2 = 0 := hev
      omega

/-- **C72 (gadget, circuit).** Any parameters, columns and layouter, any message length (including the empty message and
layouters without a column of constants, where synthesis panics): the outcome and the circuit do not depend on the
values of the words, nor on whether they are known. -/
theorem C72_hash_circuit {n : ℕ} (S : Pow5.Params F t) (c : Pow5.Config F t) (L M : Layouter (Value F))
    (hL : FixedKnown L) (hM : SameCircuit L M) (message message' : Fin n → ACell (Value F))
    (hm : ∀ i, (message i).cell = (message' i).cell) :
    SameOutcome (fun a b => a.cell = b.cell) (Vals.hashCells S c L message) (Vals.hashCells S c M message') :=
  same_outcome (run := fun L m => Vals.hashCells S c L m) (run' := fun L m => Gadget.hashCells S c L m)
    (Rs := fun (a : Fin n → ACell (Value F)) b => ∀ i, Vals.CellTracks True (a i) (b i)) (Ra := Vals.CellTracks True)
    (R := fun a b => a.cell = b.cell) (fun hL h => Vals.tracks_hash S c hL h) (fun h h' => h.1.trans h'.1.symm) Eq.trans
    hL hM (fun i => tracks_fillCell (message i)) (fun i => tracks_fillCell (message' i)) (z := fun i => blankCell (message i))
    (fun i => tracks_blankCell rfl) (fun i => tracks_blankCell (hm i))

/-! ### Known values -/

/-- An operation with a known value. -/
def knownOp : Op F → Op (Value F)
  | .advice c r v => .advice c r (some v)
  | .fixed c r v => .fixed c r (some v)
  | .selector s r => .selector s r
  | .copy a d => .copy a d
  | .constant c v => .constant c (some v)
  | .fill c r v => .fill c r (some v)

/-- The layouter with known values. -/
def knownL (L : Layouter F) : Layouter (Value F) := ⟨L.colEnd, L.constCol, L.ops.map knownOp⟩

/-- A cell with a known value. -/
def knownCell (c : ACell F) : ACell (Value F) := ⟨c.cell, some c.value⟩

private theorem cell_of_tracks {c : ACell (Value F)} {x : ACell F} (h : Vals.CellTracks False c x) : c = knownCell x := by
  obtain ⟨c, v⟩ := c
  obtain ⟨h1, h2 | ⟨h2, -⟩⟩ := h
  · simp only at h1 h2
    rw [h1, h2]; rfl
  · exact h2.elim

private theorem op_of_tracks {o : Op (Value F)} {u : Op F} (h : Vals.OpTracks False o u) : o = knownOp u := by
  cases o <;> cases u <;> simp only [Vals.OpTracks, Vals.Tracks, false_and, or_false] at h <;> simp [knownOp, h]

private theorem forall₂_map {α β : Type} {R : α → β → Prop} {f : β → α} (hR : ∀ {a b}, R a b → a = f b) {l : List α}
    {k : List β} (h : List.Forall₂ R l k) : l = k.map f := by
  induction h with
  | nil => rfl
  | cons h _ ih => rw [List.map_cons, ← ih, ← hR h]

theorem layouter_of_tracks {L : Layouter (Value F)} {X : Layouter F} (h : Vals.LTracks False L X) : L = knownL X := by
  obtain ⟨a, b, c⟩ := L
  obtain ⟨h1, h2, h3⟩ := h
  simp only at h1 h2 h3
  rw [h1, h2, forall₂_map op_of_tracks h3]; rfl

private theorem known_tracks (L : Layouter F) : Vals.LTracks False (knownL L) L := by
  refine ⟨rfl, rfl, ?_⟩
  simp only [knownL]
  rw [List.forall₂_map_left_iff, List.forall₂_same]
  intro o _
  cases o <;> simp [knownOp, Vals.OpTracks, Vals.Tracks]

private theorem run_of_tracks {α α' : Type} {R : α → α' → Prop} {f : α' → α} (hR : ∀ {a b}, R a b → a = f b)
    {x : Except Panic (α × Layouter (Value F))} {y : Except Panic (α' × Layouter F)}
    (h : Vals.ETracks (fun u u' => R u.1 u'.1 ∧ Vals.LTracks False u.2 u'.2) x y) :
    x = y.map fun u => (f u.1, knownL u.2) := by
  cases x <;> cases y <;> simp only [Vals.ETracks] at h
  · rw [h]; rfl
  · rename_i u v
    show Except.ok u = Except.ok (f v.1, knownL v.2)
    rw [← hR h.1, ← layouter_of_tracks h.2]

/-- **C72 (known values).** With known values the code computes what the rest of the model does: the program over
values, run on a layouter and words that are all known, is the program over field elements, for both chips and the
gadget, panics included. -/
theorem C72_known (L : Layouter F) :
    (∀ (m : Base.Mds F 3) (rc : ℕ → Fin 3 → F) (cfg : Septidon.Config) (states : List (Words F 3)) (batch : Option ℕ),
      septidonValues m rc cfg (knownL L) (states.map fun w i => knownCell (w i)) batch =
        (septidonPermuteAll m rc cfg L states batch).map fun u => (u.1.map fun w i => knownCell (w i), knownL u.2)) ∧
    (∀ (S : Pow5.Params F t) (c : Pow5.Config F t) (w : Words F (t + 1)),
      Vals.pow5Permute S c (knownL L) (fun i => knownCell (w i)) =
        (Pow5.permute S c L w).map fun u => (fun i => knownCell (u.1 i), knownL u.2)) ∧
    ∀ (S : Pow5.Params F t) (c : Pow5.Config F t) {n : ℕ} (message : Fin n → ACell F),
      Vals.hashCells S c (knownL L) (fun i => knownCell (message i)) =
        (Gadget.hashCells S c L message).map fun u => (knownCell u.1, knownL u.2) := by
  have hw : ∀ {n : ℕ} {a : Words (Value F) n} {x : Words F n}, (∀ i, Vals.CellTracks False (a i) (x i)) →
      a = fun i => knownCell (x i) := fun h => funext fun i => cell_of_tracks (h i)
  have hc : ∀ c : ACell F, Vals.CellTracks False (knownCell c) c := fun c => ⟨rfl, Or.inl rfl⟩
  refine ⟨fun m rc cfg states batch => ?_, fun S c w => ?_, fun S c n message => ?_⟩
  · refine run_of_tracks (R := List.Forall₂ fun u y => ∀ i, Vals.CellTracks False (u i) (y i)) (forall₂_map hw)
      (tracks_septidonValues m rc cfg batch (known_tracks L) ?_)
    rw [List.forall₂_map_left_iff, List.forall₂_same]
    exact fun w _ i => hc (w i)
  · exact run_of_tracks (R := Vals.WordsTracks False) (f := fun (x : Words F (t + 1)) i => knownCell (x i)) hw
      (Vals.tracks_pow5 S c (known_tracks L) fun i => hc (w i))
  · exact run_of_tracks (R := Vals.CellTracks False) (f := knownCell) cell_of_tracks
      (Vals.tracks_hash S c (known_tracks L) fun i => hc (message i))

/-! ### The helpers -/

/-- **C72 (helpers).** Each pair of helpers on expressions and on values agrees on every grid and row, and computes
what it is meant to: the fifth power, the S-box with its constant added, the product with the matrix, the choice and
the disjunction of booleans. -/
theorem C72_util (g : Grid F) (r : ℕ) (m : Base.Mds F 3) (a b c : Expr F) (v : Fin 3 → Expr F) :
    ((pow5Expr a).eval g r = a.eval g r ^ 5 ∧ pow5Value (a.eval g r) = a.eval g r ^ 5) ∧
    ((Septidon.sboxExpr a b).eval g r = (a.eval g r + b.eval g r) ^ 5 ∧
      Septidon.sboxValue (a.eval g r) (b.eval g r) = (a.eval g r + b.eval g r) ^ 5) ∧
    ((fun i => (Septidon.matmulExpr m v i).eval g r) = (Matrix.of m).mulVec (fun i => (v i).eval g r) ∧
      Septidon.matmulValue m (fun i => (v i).eval g r) = (Matrix.of m).mulVec (fun i => (v i).eval g r)) ∧
    ((Septidon.selectExpr a b c).eval g r = Vals.selectValue (a.eval g r) (b.eval g r) (c.eval g r) ∧
      (∀ x y : F, Vals.selectValue 1 x y = x ∧ Vals.selectValue 0 x y = y)) ∧
    ((Vals.orExpr a b).eval g r = Vals.orValue (a.eval g r) (b.eval g r) ∧
      ∀ p q : Bool, Vals.orValue (if p then (1 : F) else 0) (if q then 1 else 0) = if p || q then 1 else 0) := by
  refine ⟨⟨?_, ?_⟩, ⟨?_, ?_⟩, ⟨?_, ?_⟩, ⟨?_, ?_⟩, ?_, ?_⟩
  · simp only [pow5Expr, Expr.eval_mul]; ring
  · simp only [pow5Value]; ring
  · simp only [Septidon.sboxExpr, pow5Expr, Expr.eval_mul, Expr.eval_add]; ring
  · simp only [Septidon.sboxValue, pow5Value]; ring
  · funext i
    simp only [Septidon.matmulExpr, Expr.eval_add, Expr.eval_scaled, Matrix.mulVec, dotProduct, Fin.sum_univ_three,
      Matrix.of_apply, mul_comm]
  · funext i
    simp only [Septidon.matmulValue, Matrix.mulVec, dotProduct, Fin.sum_univ_three, Matrix.of_apply, mul_comm]
  · simp only [Septidon.selectExpr, Vals.selectValue, Expr.eval_add, Expr.eval_mul, Expr.eval_sub, Expr.eval_const]
  · exact fun x y => by simp [Vals.selectValue]
  · simp only [Vals.orExpr, Vals.orValue, Expr.eval_mul, Expr.eval_sub, Expr.eval_const]
  · intro p q; cases p <;> cases q <;> simp [Vals.orValue]

/-- On values that are not boolean the helpers do not compute a choice or a disjunction. -/
example : Vals.selectValue (2 : ℚ) 3 5 = 1 ∧ Vals.orValue (2 : ℚ) 2 = 0 := by norm_num [Vals.selectValue, Vals.orValue]

/-! ### Non-vacuity -/

private def vxM : Base.Mds ℚ 3 := ![![1, 1, 1], ![1, 2, 3], ![1, 3, 6]]
private def vxRc : ℕ → Fin 3 → ℚ := fun r k => if k = 0 ∨ r < 4 ∨ 61 ≤ r then r + k else 0
/-- Some rows are taken; an earlier region has assigned an unknown and a known word. -/
private def vxL : Layouter (Value ℚ) := ⟨fun _ => 2, some 0, [.advice 0 0 none, .advice 1 0 (some 7), .fixed 3 1 (some 5)]⟩
private def vxWord (v : Value ℚ) : ACell (Value ℚ) := ⟨⟨.advice 0, 0⟩, v⟩

private theorem vxL_known : FixedKnown vxL := by
  intro o ho
  simp only [vxL, List.mem_cons, List.not_mem_nil, or_false] at ho
  rcases ho with rfl | rfl | rfl <;> simp

/-- Two states in a batch, one known and one with an unknown word: the first yields the permutation of (1, 2, 3),
the second nothing. -/
example : ∃ o o' L', septidonValues vxM vxRc (Septidon.configure vxM vxRc ⟨2, 4, 0, [], [], []⟩).1 vxL
      [![vxWord (some 1), vxWord (some 2), vxWord (some 3)], ![vxWord (some 1), vxWord none, vxWord (some 3)]] (some 4) =
        .ok ([o, o'], L') ∧
    (∀ k, (o k).value = some (Spec.poseidon (fun v => v ^ 5) (Matrix.of vxM) 4 57 vxRc ![1, 2, 3] k)) ∧
    ∀ k, (o' k).value = none := by
  obtain ⟨⟨outs, L', e, h⟩, -⟩ := C72_septidon vxM vxRc (fun r h1 h2 k hk => by
    simp only [vxRc, hk, false_or]; exact if_neg (by omega)) ⟨2, 4, 0, [], [], []⟩ vxL vxL_known
    [![vxWord (some 1), vxWord (some 2), vxWord (some 3)], ![vxWord (some 1), vxWord none, vxWord (some 3)]] (some 4)
  cases h with
  | cons h1 h =>
    cases h with
    | cons h2 h =>
      cases h
      exact ⟨_, _, L', e, h1.1 ![1, 2, 3] (by intro i; fin_cases i <;> rfl), h2.2 ⟨1, rfl⟩⟩

/-- The layouter of key generation and that of the prover, as `SameCircuit` relates them. -/
example : SameCircuit vxL ⟨fun _ => 2, some 0, [.advice 0 0 (some 4), .advice 1 0 (some 9), .fixed 3 1 (some 5)]⟩ :=
  ⟨rfl, rfl, .cons ⟨rfl, rfl⟩ (.cons ⟨rfl, rfl⟩ (.cons rfl .nil))⟩

/-- A different fixed cell is not the same circuit. -/
example : ¬ SameCircuit vxL ⟨fun _ => 2, some 0, [.advice 0 0 (some 4), .advice 1 0 (some 9), .fixed 3 1 (some 6)]⟩ := by
  rintro ⟨-, -, h⟩
  simp [vxL, SameOp] at h

/-- Hashing three words of which the last is unknown, and hashing three known words: width 2, two full and three partial
rounds, on a layouter with a column of constants. -/
example : ∃ c cs', Pow5.configureChecked (gadgetParams 2 3 gxMds gxInv gxRc) gxCols gxCs = .ok (c, cs') ∧
    (∃ out L', Vals.hashCells (gadgetParams 2 3 gxMds gxInv gxRc) c vxL
      (![vxWord (some 1), vxWord (some 2), vxWord none] : Fin 3 → ACell (Value ℚ)) = .ok (out, L') ∧ out.value = none) ∧
    ∃ out L' d, Vals.hashCells (gadgetParams 2 3 gxMds gxInv gxRc) c vxL
      (![vxWord (some 1), vxWord (some 2), vxWord (some 3)] : Fin 3 → ACell (Value ℚ)) = .ok (out, L') ∧
      nativeConstHash 2 3 gxMds gxRc [1, 2, 3] = .ok d ∧ out.value = some d := by
  have hd : gxCols.Distinct := by
    constructor <;> simp [gxCols, Function.Injective, Fin.forall_fin_two]
  have hinv : Matrix.of gxMds * Matrix.of gxInv = 1 := by
    ext i j
    fin_cases i <;> fin_cases j <;> norm_num [gxMds, gxInv, Matrix.mul_apply, Fin.sum_univ_succ]
  obtain ⟨c, cs', hcfg⟩ : ∃ c cs',
      Pow5.configureChecked (gadgetParams 2 3 gxMds gxInv gxRc) gxCols gxCs = .ok (c, cs') := by
    unfold Pow5.configureChecked
    rw [if_pos (by simp [gadgetParams]), Pow5.configure_eq]
    exact ⟨_, _, rfl⟩
  have key := fun v => C72_hash 2 3 (by omega) gxMds gxInv gxRc (by simp [gxRc]) hinv gxCols hd gxCs cs' c hcfg vxL vxL_known 0 rfl
    (![vxWord (some 1), vxWord (some 2), vxWord v] : Fin 3 → ACell (Value ℚ)) (by omega)
  obtain ⟨o, L', e, -, h⟩ := key none
  obtain ⟨o', L'', e', h', -⟩ := key (some 3)
  obtain ⟨d, hn, hv⟩ := h' ![1, 2, 3] (by intro i; fin_cases i <;> rfl)
  exact ⟨c, cs', hcfg, ⟨o, L', e, h ⟨2, rfl⟩⟩, o', L'', d, e', by simpa [List.ofFn_succ] using hn, hv⟩

/-- The outcome is also the same where synthesis panics: a layouter without a column of constants. -/
example (S : Pow5.Params ℚ 1) (c : Pow5.Config ℚ 1) :
    SameOutcome (fun a b => a.cell = b.cell)
      (Vals.hashCells S c ⟨fun _ => 2, none, vxL.ops⟩ (fun _ : Fin 1 => vxWord none))
      (Vals.hashCells S c ⟨fun _ => 2, none, vxL.ops⟩ (fun _ : Fin 1 => vxWord (some 5))) :=
  C72_hash_circuit S c ⟨fun _ => 2, none, vxL.ops⟩ _ vxL_known (sameCircuit_refl _) _ _ fun _ => rfl

/-- The Pow5 chip with an unknown first word. -/
example : ∃ c cs', Pow5.configureChecked (gadgetParams 2 3 gxMds gxInv gxRc) gxCols gxCs = .ok (c, cs') ∧
    ∃ o L', Vals.pow5Permute (gadgetParams 2 3 gxMds gxInv gxRc) c vxL ![vxWord none, vxWord (some 2)] = .ok (o, L') ∧
      ∀ k, (o k).value = none := by
  obtain ⟨c, cs', hcfg⟩ : ∃ c cs',
      Pow5.configureChecked (gadgetParams 2 3 gxMds gxInv gxRc) gxCols gxCs = .ok (c, cs') := by
    unfold Pow5.configureChecked
    rw [if_pos (by simp [gadgetParams]), Pow5.configure_eq]
    exact ⟨_, _, rfl⟩
  obtain ⟨⟨o, L', e, h⟩, -⟩ := C72_pow5 (gadgetParams 2 3 gxMds gxInv gxRc) (by simp [gadgetParams]) gxCols gxCs cs' c hcfg vxL
    vxL_known ![vxWord none, vxWord (some 2)]
  exact ⟨c, cs', hcfg, o, L', e, h.2 ⟨0, rfl⟩⟩

end Props
