import Verif.Base.GrainEval
import Verif.Base.MdsLemmas
import Mathlib.Algebra.Field.ZMod
import Mathlib.Data.List.GetD

/-!
# Model of the default `Spec::constants`

Models `poseidon-base/src/primitives.rs` lines 64-87.
-/

namespace Base
open Grain MdsGen

/-- The round constants, primitives.rs:71-82: `n` rows of `T` field elements, drawn in order. (`zip` asks the
row iterator first, so a row takes exactly `T` elements from the generator.) -/
def constantRows {F G : Type} [Zero F] (draw : G → Except Panic (F × G)) (T : ℕ) :
    ℕ → G → Except Panic (List (State F T) × G)
  | 0, g => .ok ([], g)
  | n + 1, g => do
    let (row, g) ← drawN draw T g
    let (rows, g) ← constantRows draw T n g
    return ((fun j => row.getD j.val 0) :: rows, g)

/-- The order of a prime field element used by `sort_unstable` in `generate_mds`: canonical representatives
are compared. -/
def leZMod (p : ℕ) (a b : ZMod p) : Bool := a.val ≤ b.val

/-- The default `Spec::constants`, primitives.rs:65-87, for the prime field of order `p` with `NUM_BITS` =
`numBits`. The casts `as u16` are the reductions modulo `2^16`; `SboxType::Pow` has tag 0. `fuel` bounds the
rejection loops of `next_field_element` and `generate_mds`. The sum `r_f + r_p` is taken in `usize` without
overflow. -/
def defaultConstants (p numBits T rf rp sel fuel : ℕ) [Fact p.Prime] :
    Except Panic (List (State (ZMod p) T) × Mds (ZMod p) T × Mds (ZMod p) T) := do
  let g ← Grain.new 0 numBits (T % 2 ^ 16) (rf % 2 ^ 16) (rp % 2 ^ 16)
  let (rcs, g) ← constantRows (nextFieldElement p numBits fuel) T (rf + rp) g
  let (mds, inv, _) ← generateMds (nextFieldElementWithoutRejection p numBits) (leZMod p) T fuel sel g
  return (rcs, mds, inv)

/-! ### Lemmas -/

theorem leZMod_total (p : ℕ) (a b : ZMod p) : leZMod p a b || leZMod p b a := by
  simp only [leZMod, Bool.or_eq_true, decide_eq_true_eq]; omega

theorem leZMod_trans (p : ℕ) (a b c : ZMod p) (h1 : leZMod p a b) (h2 : leZMod p b c) : leZMod p a c := by
  simp only [leZMod, decide_eq_true_eq] at *; omega

theorem leZMod_anti (p : ℕ) [NeZero p] (a b : ZMod p) (h1 : leZMod p a b) (h2 : leZMod p b a) : a = b := by
  simp only [leZMod, decide_eq_true_eq] at *
  exact ZMod.val_injective p (by omega)

namespace Grain

theorem Groups.append {n : ℕ} {g g1 g2 : Grain} {vs ws : List ℕ} (h1 : Groups n g vs g1)
    (h2 : Groups n g1 ws g2) : Groups n g (vs ++ ws) g2 := by
  induction h1 with
  | nil g => exact h2
  | cons g ga gb l vs ht _ ih => exact .cons g ga g2 l _ ht (ih h2)

theorem Groups.split {n : ℕ} {vs ws : List ℕ} : ∀ {g g2 : Grain}, Groups n g (vs ++ ws) g2 →
    ∃ g1, Groups n g vs g1 ∧ Groups n g1 ws g2 := by
  induction vs with
  | nil => intro g g2 h; exact ⟨g, .nil g, h⟩
  | cons v vs ih =>
    intro g g2 h
    cases h with
    | cons _ ga _ l _ ht hr =>
      obtain ⟨g1, h1, h2⟩ := ih hr
      exact ⟨g1, .cons g ga g1 l vs ht h1, h2⟩

theorem takeBits_append (m n : ℕ) (g g1 g2 : Grain) (l1 l2 : List Bool)
    (h1 : takeBits m g = .ok (l1, g1)) (h2 : takeBits n g1 = .ok (l2, g2)) :
    takeBits (m + n) g = .ok (l1 ++ l2, g2) := by
  induction m generalizing g l1 with
  | zero =>
    simp only [takeBits, Except.ok.injEq, Prod.mk.injEq] at h1
    obtain ⟨rfl, rfl⟩ := h1
    simpa using h2
  | succ m ih =>
    rw [Nat.succ_add]
    simp only [takeBits, bind, Except.bind, pure, Except.pure] at h1 ⊢
    cases hn : next g with
    | error e => rw [hn] at h1; simp at h1
    | ok v =>
      rw [hn] at h1
      simp only at h1 ⊢
      cases ht : takeBits m v.2 with
      | error e => rw [ht] at h1; simp at h1
      | ok w =>
        rw [ht] at h1
        simp only [Except.ok.injEq, Prod.mk.injEq] at h1
        rw [ih v.2 w.1 (by rw [ht, ← h1.2]), ← h1.1]
        simp

/-- The bits behind the groups. -/
theorem Groups.bits {n : ℕ} {g g' : Grain} {vs : List ℕ} (h : Groups n g vs g') :
    ∃ l, takeBits (vs.length * n) g = .ok (l, g') ∧
      ∀ k, k < vs.length → vs.getD k 0 = Spec.ofBitsMSB ((l.drop (k * n)).take n) := by
  induction h with
  | nil g => exact ⟨[], by simp [takeBits], by simp⟩
  | cons g g1 g' l vs ht hr ih =>
    obtain ⟨l', h1, h2⟩ := ih
    have hl := takeBits_length _ _ _ _ ht
    refine ⟨l ++ l', ?_, ?_⟩
    · rw [List.length_cons, Nat.succ_mul, Nat.add_comm]
      exact takeBits_append _ _ _ _ _ _ _ ht h1
    · intro k hk
      cases k with
      | zero => simp [← hl]
      | succ k =>
        rw [List.getD_cons_succ, h2 k (by simpa using hk), Nat.succ_mul, Nat.add_comm, ← List.drop_drop]
        simp [← hl]

/-- A drawn element is the first group below `p`. -/
theorem nextFieldElement_groups (p n : ℕ) (hn : n ≤ 256) (fuel : ℕ) : ∀ (g g' : Grain) (x : ZMod p),
    nextFieldElement p n fuel g = .ok (x, g') →
    ∃ vs v, Groups n g (vs ++ [v]) g' ∧ (∀ u ∈ vs, p ≤ u) ∧ v < p ∧ x = (v : ZMod p) := by
  induction fuel with
  | zero => intro g g' x h; cases h
  | succ fuel ih =>
    intro g g' x h
    simp only [nextFieldElement] at h
    cases ht : takeBits n g with
    | error e => rw [ht] at h; cases h
    | ok v =>
      obtain ⟨l, g1⟩ := v
      obtain ⟨bytes, hw, -, -, hv⟩ := writeBits_spec n 32 l (takeBits_length _ _ _ _ ht) (by omega)
      rw [ht, ok_bind] at h
      simp only [hw, ok_bind, hv] at h
      split at h
      · rename_i hlt
        simp only [pure, Except.pure, Except.ok.injEq, Prod.mk.injEq] at h
        obtain ⟨rfl, rfl⟩ := h
        exact ⟨[], _, .cons g g1 g1 l [] ht (.nil g1), by simp, hlt, rfl⟩
      · rename_i hge
        obtain ⟨vs, v, h1, h2, h3, h4⟩ := ih g1 g' x h
        refine ⟨Spec.ofBitsMSB l :: vs, v, .cons g g1 g' l _ ht h1, ?_, h3, h4⟩
        intro u hu
        rcases List.mem_cons.mp hu with rfl | hu
        · exact not_lt.mp hge
        · exact h2 u hu

/-- Conversely, the groups determine what is drawn. -/
theorem nextFieldElement_of_groups (p n : ℕ) (hn : n ≤ 256) (vs : List ℕ) : ∀ (fuel : ℕ) (g g' : Grain)
    (v : ℕ) (rest : List ℕ), Groups n g (vs ++ v :: rest) g' → (∀ u ∈ vs, p ≤ u) → v < p →
    vs.length < fuel →
    ∃ g1, nextFieldElement p n fuel g = .ok ((v : ZMod p), g1) ∧ Groups n g1 rest g' := by
  induction vs with
  | nil =>
    intro fuel g g' v rest h _ hv hf
    obtain ⟨fuel, rfl⟩ : ∃ f, fuel = f + 1 := ⟨fuel - 1, by omega⟩
    cases h with
    | cons _ g1 _ l _ ht hr =>
      obtain ⟨bytes, hw, -, -, he⟩ := writeBits_spec n 32 l (takeBits_length _ _ _ _ ht) (by omega)
      refine ⟨g1, ?_, hr⟩
      simp only [nextFieldElement, ht, ok_bind, hw, he, if_pos hv]
      rfl
  | cons u vs ih =>
    intro fuel g g' v rest h hu hv hf
    obtain ⟨fuel, rfl⟩ : ∃ f, fuel = f + 1 := ⟨fuel - 1, by omega⟩
    cases h with
    | cons _ g1 _ l _ ht hr =>
      obtain ⟨bytes, hw, -, -, he⟩ := writeBits_spec n 32 l (takeBits_length _ _ _ _ ht) (by omega)
      obtain ⟨g2, h1, h2⟩ := ih fuel g1 g' v rest hr (fun w hw => hu w (by simp [hw])) hv
        (by simpa using hf)
      refine ⟨g2, ?_, h2⟩
      have hge : ¬ Spec.ofBitsMSB l < p := not_lt.mpr (hu _ (by simp))
      simp only [nextFieldElement, ht, ok_bind, hw, he, if_neg hge, h1]

theorem withoutRejection_groups (p n : ℕ) (hn : n ≤ 512) (g g' : Grain) (x : ZMod p)
    (h : nextFieldElementWithoutRejection p n g = .ok (x, g')) :
    ∃ v : ℕ, Groups n g [v] g' ∧ x = (v : ZMod p) := by
  simp only [nextFieldElementWithoutRejection] at h
  cases ht : takeBits n g with
  | error e => rw [ht] at h; cases h
  | ok v =>
    obtain ⟨l, g1⟩ := v
    obtain ⟨bytes, hw, -, -, hv⟩ := writeBits_spec n 64 l (takeBits_length _ _ _ _ ht) (by omega)
    rw [ht, ok_bind] at h
    simp only [hw, ok_bind, hv, pure, Except.pure, Except.ok.injEq, Prod.mk.injEq] at h
    obtain ⟨rfl, rfl⟩ := h
    exact ⟨_, .cons g g1 g1 l [] ht (.nil g1), rfl⟩

theorem withoutRejection_of_groups (p n : ℕ) (hn : n ≤ 512) (g g' : Grain) (v : ℕ) (rest : List ℕ)
    (h : Groups n g (v :: rest) g') :
    ∃ g1, nextFieldElementWithoutRejection p n g = .ok ((v : ZMod p), g1) ∧ Groups n g1 rest g' := by
  cases h with
  | cons _ g1 _ l _ ht hr =>
    obtain ⟨bytes, hw, -, -, hv⟩ := writeBits_spec n 64 l (takeBits_length _ _ _ _ ht) (by omega)
    refine ⟨g1, ?_, hr⟩
    simp only [nextFieldElementWithoutRejection, ht, ok_bind, hw, hv]
    rfl

variable (p : ℕ) [Fact p.Prime]

theorem drawN_succ {F G : Type} (draw : G → Except Panic (F × G)) (n : ℕ) (g g1 g2 : G) (x : F)
    (xs : List F) (h1 : draw g = .ok (x, g1)) (h2 : drawN draw n g1 = .ok (xs, g2)) :
    drawN draw (n + 1) g = .ok (x :: xs, g2) := by
  simp only [drawN, h1, bind, Except.bind, h2, pure, Except.pure]

theorem drawN_succ_ok {F G : Type} (draw : G → Except Panic (F × G)) (n : ℕ) (g g2 : G) (l : List F)
    (h : drawN draw (n + 1) g = .ok (l, g2)) :
    ∃ x g1 xs, draw g = .ok (x, g1) ∧ drawN draw n g1 = .ok (xs, g2) ∧ l = x :: xs := by
  simp only [drawN, bind, Except.bind, pure, Except.pure] at h
  cases hd : draw g with
  | error e => rw [hd] at h; cases h
  | ok v =>
    rw [hd] at h
    simp only at h
    cases ht : drawN draw n v.2 with
    | error e => rw [ht] at h; cases h
    | ok w =>
      rw [ht] at h
      simp only [Except.ok.injEq, Prod.mk.injEq] at h
      exact ⟨v.1, v.2, w.1, rfl, by rw [ht, ← h.2], h.1.symm⟩

/-- Elements drawn with rejection: the groups below `p`, in order. -/
theorem drawN_rejection_groups (n : ℕ) (hn : n ≤ 256) (fuel count : ℕ) : ∀ (g g' : Grain)
    (l : List (ZMod p)), drawN (nextFieldElement p n fuel) count g = .ok (l, g') →
    ∃ vs, Groups n g vs g' ∧ l = (vs.filter (· < p)).map (fun v : ℕ => (v : ZMod p)) ∧
      ∀ v ∈ vs.getLast?, v < p := by
  induction count with
  | zero =>
    intro g g' l h
    simp only [drawN, Except.ok.injEq, Prod.mk.injEq] at h
    obtain ⟨rfl, rfl⟩ := h
    exact ⟨[], .nil g, by simp, by simp⟩
  | succ count ih =>
    intro g g' l h
    obtain ⟨x, g1, xs, h1, h2, rfl⟩ := drawN_succ_ok _ _ _ _ _ h
    obtain ⟨vs, v, e1, e2, e3, e4⟩ := nextFieldElement_groups p n hn fuel g g1 x h1
    obtain ⟨ws, f1, f2, f3⟩ := ih g1 g' xs h2
    refine ⟨(vs ++ [v]) ++ ws, e1.append f1, ?_, ?_⟩
    · have : vs.filter (· < p) = [] := by
        rw [List.filter_eq_nil_iff]
        intro u hu
        simpa using e2 u hu
      rw [List.filter_append, List.filter_append, this, f2, e4]
      simp [e3]
    · intro u hu
      rw [List.getLast?_append] at hu
      cases hl : ws.getLast? with
      | none => 
        rw [hl] at hu
        simp only [List.getLast?_append, List.getLast?_singleton, Option.some_or, Option.none_or,
          Option.mem_def, Option.some.injEq] at hu
        omega
      | some w =>
        rw [hl] at hu
        simp only [Option.some_or, Option.mem_def, Option.some.injEq] at hu
        subst hu
        exact f3 w hl

theorem drawN_rejection_of_groups (n : ℕ) (hn : n ≤ 256) (fuel : ℕ) : ∀ (k : ℕ) (vs : List ℕ),
    vs.length = k → ∀ (g g' : Grain) (rest : List ℕ), Groups n g (vs ++ rest) g' →
    (∀ v ∈ vs.getLast?, v < p) → vs.length ≤ fuel →
    ∃ g1, drawN (nextFieldElement p n fuel) (vs.filter (· < p)).length g =
      .ok ((vs.filter (· < p)).map (fun v : ℕ => (v : ZMod p)), g1) ∧ Groups n g1 rest g' := by
  intro k
  induction k using Nat.strongRecOn with
  | ind k ih =>
    intro vs hk g g' rest h hlast hf
    by_cases hnil : vs = []
    · subst hnil
      exact ⟨g, rfl, h⟩
    -- split at the first accepted group
    obtain ⟨s, v, t, rfl, hs, hv⟩ : ∃ s v t, vs = s ++ v :: t ∧ (∀ u ∈ s, p ≤ u) ∧ v < p := by
      clear ih h hf hk
      induction vs with
      | nil => exact absurd rfl hnil
      | cons a vs ih =>
        by_cases ha : a < p
        · exact ⟨[], a, vs, rfl, by simp, ha⟩
        · cases vs with
          | nil => exact absurd (hlast a (by simp)) ha
          | cons c vs =>
            obtain ⟨s, v, t, e, h1, h2⟩ := ih (fun w hw => hlast w (by simpa using hw)) (by simp)
            refine ⟨a :: s, v, t, by rw [e]; rfl, ?_, h2⟩
            intro u hu
            rcases List.mem_cons.mp hu with rfl | hu
            · exact not_lt.mp ha
            · exact h1 u hu
    simp only [List.length_append, List.length_cons] at hk hf
    rw [List.append_assoc, List.cons_append] at h
    obtain ⟨g1, e1, e2⟩ := nextFieldElement_of_groups p n hn s fuel g g' v (t ++ rest) h hs hv (by omega)
    obtain ⟨g2, f1, f2⟩ := ih t.length (by omega) t rfl g1 g' rest e2
      (by
        intro w hw
        apply hlast
        rw [List.getLast?_append, List.getLast?_cons]
        cases ht : t.getLast? with
        | none => rw [ht] at hw; cases hw
        | some z => rw [ht] at hw; simpa using hw) (by omega)
    have hfil : (s ++ v :: t).filter (· < p) = v :: t.filter (· < p) := by
      have : s.filter (· < p) = [] := by
        rw [List.filter_eq_nil_iff]
        intro u hu
        simpa using hs u hu
      rw [List.filter_append, this]
      simp [hv]
    rw [hfil]
    exact ⟨g2, drawN_succ _ _ _ _ _ _ _ e1 f1, f2⟩

/-- Elements drawn without rejection: the groups modulo `p`, in order. -/
theorem drawN_plain_groups (n : ℕ) (hn : n ≤ 512) (count : ℕ) : ∀ (g g' : Grain) (l : List (ZMod p)),
    drawN (nextFieldElementWithoutRejection p n) count g = .ok (l, g') →
    ∃ vs : List ℕ, Groups n g vs g' ∧ l = vs.map (fun v : ℕ => (v : ZMod p)) := by
  induction count with
  | zero =>
    intro g g' l h
    simp only [drawN, Except.ok.injEq, Prod.mk.injEq] at h
    obtain ⟨rfl, rfl⟩ := h
    exact ⟨[], .nil g, rfl⟩
  | succ count ih =>
    intro g g' l h
    obtain ⟨x, g1, xs, h1, h2, rfl⟩ := drawN_succ_ok _ _ _ _ _ h
    obtain ⟨v, e1, e2⟩ := withoutRejection_groups p n hn g g1 x h1
    obtain ⟨ws, f1, f2⟩ := ih g1 g' xs h2
    exact ⟨v :: ws, e1.append f1, by rw [e2, f2]; rfl⟩

theorem drawN_plain_of_groups (n : ℕ) (hn : n ≤ 512) (vs : List ℕ) : ∀ (g g' : Grain) (rest : List ℕ),
    Groups n g (vs ++ rest) g' →
    ∃ g1, drawN (nextFieldElementWithoutRejection p n) vs.length g =
      .ok (vs.map (fun v : ℕ => (v : ZMod p)), g1) ∧ Groups n g1 rest g' := by
  induction vs with
  | nil => intro g g' rest h; exact ⟨g, rfl, h⟩
  | cons v vs ih =>
    intro g g' rest h
    obtain ⟨g1, e1, e2⟩ := withoutRejection_of_groups p n hn g g' v _ h
    obtain ⟨g2, f1, f2⟩ := ih g1 g' rest e2
    exact ⟨g2, drawN_succ _ _ _ _ _ _ _ e1 f1, f2⟩

end Grain

theorem drawN_len {F G : Type} (draw : G → Except Panic (F × G)) (n : ℕ) : ∀ (g g' : G) (l : List F),
    drawN draw n g = .ok (l, g') → l.length = n := by
  induction n with
  | zero =>
    intro g g' l h
    simp only [drawN, Except.ok.injEq, Prod.mk.injEq] at h
    rw [← h.1]; rfl
  | succ n ih =>
    intro g g' l h
    obtain ⟨x, g1, xs, -, h2, rfl⟩ := drawN_succ_ok _ _ _ _ _ h
    rw [List.length_cons, ih g1 g' xs h2]

theorem drawN_cat {F G : Type} (draw : G → Except Panic (F × G)) (m n : ℕ) : ∀ (g g1 g2 : G)
    (l1 l2 : List F), drawN draw m g = .ok (l1, g1) → drawN draw n g1 = .ok (l2, g2) →
    drawN draw (m + n) g = .ok (l1 ++ l2, g2) := by
  induction m with
  | zero =>
    intro g g1 g2 l1 l2 h1 h2
    simp only [drawN, Except.ok.injEq, Prod.mk.injEq] at h1
    obtain ⟨rfl, rfl⟩ := h1
    simpa using h2
  | succ m ih =>
    intro g g1 g2 l1 l2 h1 h2
    obtain ⟨x, ga, xs, e1, e2, rfl⟩ := drawN_succ_ok _ _ _ _ _ h1
    rw [Nat.succ_add]
    exact drawN_succ _ _ _ _ _ _ _ e1 (ih ga g1 g2 xs l2 e2 h2)

theorem drawN_uncat {F G : Type} (draw : G → Except Panic (F × G)) (m n : ℕ) : ∀ (g g2 : G)
    (l : List F), drawN draw (m + n) g = .ok (l, g2) →
    ∃ g1 l1 l2, drawN draw m g = .ok (l1, g1) ∧ drawN draw n g1 = .ok (l2, g2) ∧ l = l1 ++ l2 := by
  induction m with
  | zero => intro g g2 l h; exact ⟨g, [], l, rfl, by simpa using h, rfl⟩
  | succ m ih =>
    intro g g2 l h
    rw [Nat.succ_add] at h
    obtain ⟨x, ga, xs, e1, e2, rfl⟩ := drawN_succ_ok _ _ _ _ _ h
    obtain ⟨g1, l1, l2, f1, f2, rfl⟩ := ih ga g2 xs e2
    exact ⟨g1, x :: l1, l2, drawN_succ _ _ _ _ _ _ _ e1 f1, f2, rfl⟩

theorem rows_append {F : Type} [Zero F] (T n : ℕ) (l1 l2 : List F) (h : l1.length = T) :
    ((List.range (n + 1)).map fun i => fun j : Fin T => (l1 ++ l2).getD (i * T + j.val) 0) =
      (fun j : Fin T => l1.getD j.val 0) ::
        (List.range n).map fun i => fun j : Fin T => l2.getD (i * T + j.val) 0 := by
  rw [List.range_succ_eq_map, List.map_cons, List.map_map]
  congr 1
  · funext j
    rw [Nat.zero_mul, Nat.zero_add, List.getD_append _ _ _ _ (by omega)]
  · apply List.map_congr_left
    intro i _
    funext j
    simp only [Function.comp]
    rw [List.getD_append_right _ _ _ _ (by rw [h, Nat.succ_mul]; omega)]
    congr 1
    rw [h, Nat.succ_mul]; omega

/-- Rows of constants are consecutive draws. -/
theorem constantRows_ok {F G : Type} [Zero F] (draw : G → Except Panic (F × G)) (T n : ℕ) :
    ∀ (g g' : G) (rows : List (State F T)), constantRows draw T n g = .ok (rows, g') →
    ∃ l, drawN draw (n * T) g = .ok (l, g') ∧
      rows = (List.range n).map fun i => fun j => l.getD (i * T + j.val) 0 := by
  induction n with
  | zero =>
    intro g g' rows h
    simp only [constantRows, Except.ok.injEq, Prod.mk.injEq] at h
    obtain ⟨rfl, rfl⟩ := h
    exact ⟨[], by simp [drawN], rfl⟩
  | succ n ih =>
    intro g g' rows h
    simp only [constantRows, bind, Except.bind, pure, Except.pure] at h
    cases hd : drawN draw T g with
    | error e => rw [hd] at h; cases h
    | ok v =>
      obtain ⟨l1, g1⟩ := v
      rw [hd] at h
      simp only at h
      cases ht : constantRows draw T n g1 with
      | error e => rw [ht] at h; cases h
      | ok w =>
        obtain ⟨rs, g2⟩ := w
        rw [ht] at h
        simp only [Except.ok.injEq, Prod.mk.injEq] at h
        obtain ⟨rfl, rfl⟩ := h
        obtain ⟨l2, h1, rfl⟩ := ih g1 g2 rs ht
        refine ⟨l1 ++ l2, ?_, (rows_append T n l1 l2 (drawN_len _ _ _ _ _ hd)).symm⟩
        rw [Nat.succ_mul, Nat.add_comm]
        exact drawN_cat _ _ _ _ _ _ _ _ hd h1

theorem constantRows_of_drawN {F G : Type} [Zero F] (draw : G → Except Panic (F × G)) (T n : ℕ) :
    ∀ (g g' : G) (l : List F), drawN draw (n * T) g = .ok (l, g') →
    constantRows draw T n g =
      .ok ((List.range n).map fun i => fun j => l.getD (i * T + j.val) 0, g') := by
  induction n with
  | zero =>
    intro g g' l h
    simp only [Nat.zero_mul, drawN, Except.ok.injEq, Prod.mk.injEq] at h
    rw [← h.2]; rfl
  | succ n ih =>
    intro g g' l h
    rw [Nat.succ_mul, Nat.add_comm] at h
    obtain ⟨g1, l1, l2, h1, h2, rfl⟩ := drawN_uncat _ _ _ _ _ _ h
    rw [rows_append T n l1 l2 (drawN_len _ _ _ _ _ h1)]
    simp only [constantRows, h1, bind, Except.bind, ih g1 g' l2 h2, pure, Except.pure]

end Base
