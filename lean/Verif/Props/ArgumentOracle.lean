import Verif.Props.ArgumentTable

/-!
# Proofs without a verifier: challenges from a random oracle

The tests make non-interactive proofs: each challenge is a hash of what the prover has written so far
(`Blake2bWrite`, tests/hash_proving.rs lines 13-15 and 120, src/hash.rs tests). Here the hash is a random oracle, sampled
when it is asked. A prover may ask it for the challenges of any script, see the answers and go on, as often as it has time
to, and in the end choose one of the scripts.
-/

set_option linter.unusedSectionVars false
set_option linter.unusedDecidableInType false

namespace Halo2
open Polynomial

/-- All that a proof consists of, but for the challenges: the polynomials committed to, up to the quotient, and the
quotient. -/
structure Script (F : Type) [Field F] where
  advice : ℕ → F[X]
  permuted : ℕ → F[X] × F[X]
  products : (ℕ → F[X]) × (ℕ → F[X])
  quotient : ℕ → F[X]

/-- The challenges `θ`, `(β, γ)`, `y` and `x`. -/
abbrev Challenges (F : Type) := F × (F × F) × F × F

namespace Script
variable {F : Type} [Field F]

/-- The messages before the quotient. -/
def messages (s : Script F) : Messages F := ⟨s.advice, s.permuted, s.products.1, s.products.2⟩

/-- All polynomials have degree less than `n`. -/
structure Short (s : Script F) (n : ℕ) : Prop where
  advice : ∀ c, (s.advice c).degree < n
  input : ∀ i, ((s.permuted i).1).degree < n
  table : ∀ i, ((s.permuted i).2).degree < n
  zPerm : ∀ i, (s.products.1 i).degree < n
  zLookup : ∀ i, (s.products.2 i).degree < n
  quotient : ∀ i, (s.quotient i).degree < n

/-- The verifier accepts the script with these challenges. -/
def Accepts (K : Key F) (s : Script F) (c : Challenges F) : Prop :=
  K.Check s.messages s.quotient c.1 c.2.1.1 c.2.1.2 c.2.2.1 c.2.2.2

end Script

section
variable {F : Type} [Field F]

/-- What has been asked and answered, the last one first. -/
abbrev History (F : Type) [Field F] := List (Script F × Challenges F)

open Classical in
/-- The answer to a question that may have been asked before: `κ` is the part of the script that is hashed, `f` the
challenge in question. A new question gets a new random answer. -/
noncomputable def recall {A B : Type} (κ : Script F → A) (f : Challenges F → B) (h : History F) (s : Script F) (new : B) : B :=
  match h.find? fun e => decide (κ e.1 = κ s) with
  | some e => f e.2
  | none => new

/-- The four questions: each challenge depends on everything written before it. -/
noncomputable def answer (h : History F) (s : Script F) (new : Challenges F) : Challenges F :=
  (recall (fun s => s.advice) (fun c => c.1) h s new.1,
   recall (fun s => (s.advice, s.permuted)) (fun c => c.2.1) h s new.2.1,
   recall (fun s => (s.advice, s.permuted, s.products)) (fun c => c.2.2.1) h s new.2.2.1,
   recall (fun s => (s.advice, s.permuted, s.products, s.quotient)) (fun c => c.2.2.2) h s new.2.2.2)

/-- A prover chooses its next script when it knows all earlier answers. (Asking for the challenges of a part of a script
is asking for a script that begins with it.) -/
abbrev Cheat (F : Type) [Field F] := History F → Script F

/-- The first `j` scripts and their challenges. -/
noncomputable def play (A : Cheat F) (t : ℕ → Challenges F) : ℕ → History F
  | 0 => []
  | j + 1 => (A (play A t j), answer (play A t j) (A (play A t j)) (t j)) :: play A t j

/-- Random answers for `Q` scripts. -/
def tape {Q : ℕ} (t : Fin Q → Challenges F) (j : ℕ) : Challenges F := if h : j < Q then t ⟨j, h⟩ else (0, (0, 0), 0, 0)

/-- Equal questions have equal answers. -/
def Agree {A B : Type} (κ : Script F → A) (f : Challenges F → B) (h : History F) : Prop :=
  ∀ e ∈ h, ∀ e' ∈ h, κ e.1 = κ e'.1 → f e.2 = f e'.2

theorem recall_cases {A B : Type} {κ : Script F → A} {f : Challenges F → B} {h : History F} (s : Script F) (new : B) :
    (∃ e ∈ h, κ e.1 = κ s ∧ recall κ f h s new = f e.2) ∨ (∀ e ∈ h, κ e.1 ≠ κ s) ∧ recall κ f h s new = new := by
  classical
  unfold recall
  cases hf : h.find? fun e => decide (κ e.1 = κ s) with
  | some e =>
    have := List.find?_some hf
    exact Or.inl ⟨e, List.mem_of_find?_eq_some hf, by simpa using this, rfl⟩
  | none =>
    refine Or.inr ⟨fun e he => ?_, rfl⟩
    simpa using (List.find?_eq_none.mp hf) e he

theorem recall_agree {A B : Type} {κ : Script F → A} {f : Challenges F → B} {h : History F} (ha : Agree κ f h) (s : Script F)
    (new : B) {e : Script F × Challenges F} (he : e ∈ h) (hs : κ e.1 = κ s) : recall κ f h s new = f e.2 := by
  rcases recall_cases (κ := κ) (f := f) (h := h) s new with ⟨e', he', hs', e1⟩ | ⟨hno, -⟩
  · rw [e1]
    exact ha e' he' e he (hs'.trans hs.symm)
  · exact absurd hs (hno e he)

theorem agree_cons {A B : Type} {κ : Script F → A} {f : Challenges F → B} {h : History F} (ha : Agree κ f h) {s : Script F}
    {c : Challenges F} (hc : ∀ e ∈ h, κ e.1 = κ s → f c = f e.2) : Agree κ f ((s, c) :: h) := by
  intro e he e' he' hk
  rcases List.mem_cons.mp he with rfl | he <;> rcases List.mem_cons.mp he' with rfl | he'
  · rfl
  · exact hc e' he' hk.symm
  · exact (hc e he hk).symm
  · exact ha e he e' he' hk

/-- Equal beginnings have equal challenges. -/
structure SameAnswers (h : History F) : Prop where
  theta : Agree (fun s => s.advice) (fun c => c.1) h
  betaGamma : Agree (fun s => (s.advice, s.permuted)) (fun c => c.2.1) h
  y : Agree (fun s => (s.advice, s.permuted, s.products)) (fun c => c.2.2.1) h
  x : Agree (fun s => (s.advice, s.permuted, s.products, s.quotient)) (fun c => c.2.2.2) h

theorem consistent_answer {h : History F} (hc : SameAnswers h) (s : Script F) (new : Challenges F) :
    SameAnswers ((s, answer h s new) :: h) :=
  ⟨agree_cons hc.theta fun _ he hs => recall_agree hc.theta s _ he hs,
   agree_cons hc.betaGamma fun _ he hs => recall_agree hc.betaGamma s _ he hs,
   agree_cons hc.y fun _ he hs => recall_agree hc.y s _ he hs,
   agree_cons hc.x fun _ he hs => recall_agree hc.x s _ he hs⟩

theorem play_consistent (A : Cheat F) (t : ℕ → Challenges F) : ∀ j, SameAnswers (play A t j)
  | 0 => ⟨fun _ h => by simp [play] at h, fun _ h => by simp [play] at h, fun _ h => by simp [play] at h,
      fun _ h => by simp [play] at h⟩
  | j + 1 => consistent_answer (play_consistent A t j) _ _

theorem play_congr (A : Cheat F) {t t' : ℕ → Challenges F} : ∀ j, (∀ i < j, t i = t' i) → play A t j = play A t' j
  | 0, _ => rfl
  | j + 1, h => by
    rw [play, play, play_congr A j fun i hi => h i (by omega), h j (by omega)]

/-! ### Lucky answers -/

/-- `θ` hides that the advice is broken. -/
def LuckyTheta (K : Key F) (s : Script F) (θ : F) : Prop := K.Broken s.advice ∧ ¬ K.BrokenAt s.advice θ

/-- `β, γ` allow for products with which all terms vanish. -/
def LuckyBetaGamma (K : Key F) (s : Script F) (θ : F) (c : F × F) : Prop :=
  K.BrokenAt s.advice θ ∧ ∃ zPerm zLookup, K.Vanish ⟨s.advice, s.permuted, zPerm, zLookup⟩ θ c.1 c.2

/-- `y` combines terms that do not vanish to one that does. -/
def LuckyY (K : Key F) (s : Script F) (θ : F) (c : F × F) (y : F) : Prop :=
  ¬ K.Vanish s.messages θ c.1 c.2 ∧ K.Combined s.messages θ c.1 c.2 y

/-- `x` satisfies an equation of polynomials that does not hold. -/
def LuckyX (K : Key F) (s : Script F) (θ : F) (c : F × F) (y x : F) : Prop :=
  s.Short K.n ∧ ¬ K.Combined s.messages θ c.1 c.2 y ∧ K.Check s.messages s.quotient θ c.1 c.2 y x

/-- One of the challenges is lucky. -/
def Lucky (K : Key F) (s : Script F) (c : Challenges F) : Prop :=
  LuckyTheta K s c.1 ∨ LuckyBetaGamma K s c.1 c.2.1 ∨ LuckyY K s c.1 c.2.1 c.2.2.1 ∨ LuckyX K s c.1 c.2.1 c.2.2.1 c.2.2.2

/-- Without luck, the verifier accepts no broken assignment. -/
theorem lucky_of_accepts {K : Key F} {s : Script F} (hs : s.Short K.n) (hb : K.Broken s.advice) {c : Challenges F}
    (ha : s.Accepts K c) : Lucky K s c := by
  by_cases h1 : K.BrokenAt s.advice c.1
  · by_cases h2 : K.Vanish s.messages c.1 c.2.1.1 c.2.1.2
    · exact Or.inr (Or.inl ⟨h1, s.products.1, s.products.2, h2⟩)
    · by_cases h3 : K.Combined s.messages c.1 c.2.1.1 c.2.1.2 c.2.2.1
      · exact Or.inr (Or.inr (Or.inl ⟨h2, h3⟩))
      · exact Or.inr (Or.inr (Or.inr ⟨hs, h3, ha⟩))
  · exact Or.inl ⟨hb, h1⟩

/-- One of the new answers is lucky. -/
def NewLuck (K : Key F) (h : History F) (s : Script F) (new : Challenges F) : Prop :=
  LuckyTheta K s new.1 ∨ LuckyBetaGamma K s (answer h s new).1 new.2.1 ∨
    LuckyY K s (answer h s new).1 (answer h s new).2.1 new.2.2.1 ∨
    LuckyX K s (answer h s new).1 (answer h s new).2.1 (answer h s new).2.2.1 new.2.2.2

theorem not_lucky_answer {K : Key F} {h : History F} (hc : SameAnswers h) (hl : ∀ e ∈ h, ¬ Lucky K e.1 e.2) {s : Script F}
    {new : Challenges F} (hn : ¬ NewLuck K h s new) : ¬ Lucky K s (answer h s new) := by
  rintro (h1 | h1 | h1 | h1)
  · rcases recall_cases (κ := fun s : Script F => s.advice) (f := fun c => c.1) (h := h) s new.1 with ⟨e, he, hk, e1⟩ | ⟨-, e1⟩
    · refine hl e he (Or.inl ?_)
      unfold LuckyTheta at h1 ⊢
      have e1 : (answer h s new).1 = e.2.1 := e1
      rw [hk, ← e1]
      exact h1
    · have e1 : (answer h s new).1 = new.1 := e1
      rw [e1] at h1
      exact hn (Or.inl h1)
  · rcases recall_cases (κ := fun s : Script F => (s.advice, s.permuted)) (f := fun c => c.2.1) (h := h) s new.2.1 with
      ⟨e, he, hk, e1⟩ | ⟨-, e1⟩
    · refine hl e he (Or.inr (Or.inl ?_))
      have e1 : (answer h s new).2.1 = e.2.2.1 := e1
      simp only [Prod.mk.injEq] at hk
      have e0 : (answer h s new).1 = e.2.1 := recall_agree hc.theta s new.1 he hk.1
      unfold LuckyBetaGamma at h1 ⊢
      rw [hk.1, hk.2, ← e1, ← e0]
      exact h1
    · have e1 : (answer h s new).2.1 = new.2.1 := e1
      rw [e1] at h1
      exact hn (Or.inr (Or.inl h1))
  · rcases recall_cases (κ := fun s : Script F => (s.advice, s.permuted, s.products)) (f := fun c => c.2.2.1) (h := h) s
      new.2.2.1 with ⟨e, he, hk, e1⟩ | ⟨-, e1⟩
    · refine hl e he (Or.inr (Or.inr (Or.inl ?_)))
      have e1 : (answer h s new).2.2.1 = e.2.2.2.1 := e1
      simp only [Prod.mk.injEq] at hk
      have e0 : (answer h s new).1 = e.2.1 := recall_agree hc.theta s new.1 he hk.1
      have e2 : (answer h s new).2.1 = e.2.2.1 := recall_agree hc.betaGamma s new.2.1 he (by simp only [hk.1, hk.2.1])
      have em : e.1.messages = s.messages := by simp only [Script.messages, hk.1, hk.2.1, hk.2.2]
      unfold LuckyY at h1 ⊢
      rw [em, ← e0, ← e1, ← e2]
      exact h1
    · have e1 : (answer h s new).2.2.1 = new.2.2.1 := e1
      rw [e1] at h1
      exact hn (Or.inr (Or.inr (Or.inl h1)))
  · rcases recall_cases (κ := fun s : Script F => (s.advice, s.permuted, s.products, s.quotient)) (f := fun c => c.2.2.2)
      (h := h) s new.2.2.2 with ⟨e, he, hk, e1⟩ | ⟨-, e1⟩
    · refine hl e he (Or.inr (Or.inr (Or.inr ?_)))
      have e1 : (answer h s new).2.2.2 = e.2.2.2.2 := e1
      simp only [Prod.mk.injEq] at hk
      have es : e.1 = s := by
        obtain ⟨⟨_, _, _, _⟩, _⟩ := e
        obtain ⟨_, _, _, _⟩ := s
        obtain ⟨h1, h2, h3, h4⟩ := hk
        dsimp only at h1 h2 h3 h4 ⊢
        rw [h1, h2, h3, h4]
      have e0 : (answer h s new).1 = e.2.1 := recall_agree hc.theta s new.1 he hk.1
      have e2 : (answer h s new).2.1 = e.2.2.1 := recall_agree hc.betaGamma s new.2.1 he (by simp only [hk.1, hk.2.1])
      have e3 : (answer h s new).2.2.1 = e.2.2.2.1 := recall_agree hc.y s new.2.2.1 he (by simp only [hk.1, hk.2.1, hk.2.2.1])
      rw [es, ← e0, ← e1, ← e2, ← e3]
      exact h1
    · have e1 : (answer h s new).2.2.2 = new.2.2.2 := e1
      rw [e1] at h1
      exact hn (Or.inr (Or.inr (Or.inr h1)))

/-- If some challenge is lucky in the end, some new answer was lucky when it was drawn. -/
theorem exists_newLuck {K : Key F} (A : Cheat F) (t : ℕ → Challenges F) : ∀ Q, (∃ e ∈ play A t Q, Lucky K e.1 e.2) →
    ∃ j < Q, NewLuck K (play A t j) (A (play A t j)) (t j)
  | 0, ⟨e, he, _⟩ => by simp [play] at he
  | Q + 1, ⟨e, he, hl⟩ => by
    by_contra hno
    push Not at hno
    have hold : ∀ e ∈ play A t Q, ¬ Lucky K e.1 e.2 := by
      intro e he hl
      obtain ⟨j, hj, h⟩ := exists_newLuck A t Q ⟨e, he, hl⟩
      exact hno j (by omega) h
    rcases List.mem_cons.mp he with rfl | he
    · exact not_lucky_answer (play_consistent A t Q) hold (hno Q (by omega)) hl
    · exact hold e he hl

/-! ### Counting -/

variable [Fintype F]

theorem count_all {A B : Type} [Fintype A] [Fintype B] {p : A × B → Prop} {N : ℕ} (h : ∀ a, (count fun b => p (a, b)) ≤ N) :
    count p ≤ N * Fintype.card A := by
  have := count_fibre (p := p) (bad := fun _ => False) (T := 0) (le_of_eq (count_false fun _ => id)) fun a _ => h a
  rw [zero_mul, zero_add, mul_comm] at this
  exact this

theorem count_fst {A B : Type} [Fintype A] [Fintype B] {p : A → Prop} {N : ℕ} (h : count p ≤ N) :
    count (fun c : A × B => p c.1) ≤ N * Fintype.card B := by
  rw [count_swap]
  exact count_all fun _ => h

theorem count_newLuck {K : Key F} (hK : K.Wf) (h : History F) (s : Script F) :
    count (NewLuck K h s) ≤ K.slack * Fintype.card F ^ 4 := by
  have hcells : K.cells.card = K.cols.length * K.usable := by
    rw [Key.cells, Finset.card_product, Finset.card_range, Finset.card_univ, Fintype.card_fin, mul_comm]
  have h1 : count (LuckyTheta K s) ≤ K.usable * K.width := by
    by_cases hb : K.Broken s.advice
    · exact (count_mono fun θ hθ => hθ.2).trans (Key.count_theta hb)
    · rw [count_false fun θ hθ => hb hθ.1]
      exact Nat.zero_le _
  have h2 : ∀ θ, count (LuckyBetaGamma K s θ) ≤ (3 * K.cells.card + 4 * K.usable) * Fintype.card F := by
    intro θ
    by_cases hb : K.BrokenAt s.advice θ
    · exact (count_mono fun c hc => hc.2).trans (Key.count_betaGamma hK s.advice s.permuted hb)
    · rw [count_false fun c hc => hb hc.1]
      exact Nat.zero_le _
  have h3 : ∀ θ c, count (LuckyY K s θ c) ≤ K.numTerms := by
    intro θ c
    by_cases hb : K.Vanish s.messages θ c.1 c.2
    · rw [count_false fun y hy => hy.1 hb]
      exact Nat.zero_le _
    · exact (count_mono fun y hy => hy.2).trans (Key.count_y hb)
  have h4 : ∀ θ c y, count (LuckyX K s θ c y) ≤ K.degree * K.n := by
    intro θ c y
    by_cases hb : s.Short K.n ∧ ¬ K.Combined s.messages θ c.1 c.2 y
    · exact (count_mono fun x hx => hx.2.2).trans (Key.count_x hK ⟨hb.1.advice, hb.1.input, hb.1.table, hb.1.zPerm, hb.1.zLookup⟩ hb.1.quotient hb.2)
    · rw [count_false fun x hx => hb ⟨hx.1, hx.2.1⟩]
      exact Nat.zero_le _
  have c1 : count (fun c : Challenges F => LuckyTheta K s c.1) ≤ K.usable * K.width * Fintype.card F ^ 4 := by
    refine (count_fst h1).trans (le_of_eq ?_)
    simp only [Fintype.card_prod]
    ring
  have c2 : count (fun c : Challenges F => LuckyBetaGamma K s (answer h s c).1 c.2.1) ≤
      (3 * K.cells.card + 4 * K.usable) * Fintype.card F ^ 4 := by
    refine (count_all (p := fun c : Challenges F => LuckyBetaGamma K s (answer h s c).1 c.2.1)
      fun θ => count_fst (h2 (recall (fun s => s.advice) (fun c => c.1) h s θ))).trans (le_of_eq ?_)
    simp only [Fintype.card_prod]
    ring
  have c3 : count (fun c : Challenges F => LuckyY K s (answer h s c).1 (answer h s c).2.1 c.2.2.1) ≤
      K.numTerms * Fintype.card F ^ 4 := by
    refine (count_all (p := fun c : Challenges F => LuckyY K s (answer h s c).1 (answer h s c).2.1 c.2.2.1)
      fun θ => count_all fun c => count_fst (h3 (recall (fun s => s.advice) (fun c => c.1) h s θ)
        (recall (fun s => (s.advice, s.permuted)) (fun c => c.2.1) h s c))).trans (le_of_eq ?_)
    simp only [Fintype.card_prod]
    ring
  have c4 : count (fun c : Challenges F => LuckyX K s (answer h s c).1 (answer h s c).2.1 (answer h s c).2.2.1 c.2.2.2) ≤
      K.degree * K.n * Fintype.card F ^ 4 := by
    refine (count_all (p := fun c : Challenges F =>
      LuckyX K s (answer h s c).1 (answer h s c).2.1 (answer h s c).2.2.1 c.2.2.2)
      fun θ => count_all fun c => count_all fun y => h4 (recall (fun s => s.advice) (fun c => c.1) h s θ)
        (recall (fun s => (s.advice, s.permuted)) (fun c => c.2.1) h s c)
        (recall (fun s => (s.advice, s.permuted, s.products)) (fun c => c.2.2.1) h s y)).trans (le_of_eq ?_)
    simp only [Fintype.card_prod]
    ring
  refine (count_or _ _).trans ((Nat.add_le_add c1 ((count_or _ _).trans (Nat.add_le_add c2 ((count_or _ _).trans
    (Nat.add_le_add c3 c4))))).trans (le_of_eq ?_))
  rw [Key.slack, Key.rest, hcells]
  ring

/-- One coordinate of a random function lies in a small set that depends on the others only. -/
theorem count_coord {ι A : Type} [Fintype ι] [DecidableEq ι] [Fintype A] (k : ι) {p : (ι → A) → A → Prop}
    (hp : ∀ t v a, p (Function.update t k v) a ↔ p t a) {N : ℕ} (h : ∀ t, count (p t) ≤ N) :
    count (fun t : ι → A => p t (t k)) * Fintype.card A ≤ N * Fintype.card (ι → A) := by
  classical
  have e := count_equiv (A := ι → A) (B := A × ({j // j ≠ k} → A)) (p := fun t => p t (t k))
    (q := fun c => p ((Equiv.funSplitAt k A).symm c) c.1) (Equiv.funSplitAt k A) fun t => by
      rw [Equiv.symm_apply_apply]
      rfl
  rw [e, count_swap]
  have hc : Fintype.card (ι → A) = Fintype.card A * Fintype.card ({j // j ≠ k} → A) := by
    rw [← Fintype.card_prod]
    exact Fintype.card_congr (Equiv.funSplitAt k A)
  rw [hc]
  by_cases hA : Nonempty A
  · obtain ⟨a₀⟩ := hA
    have : count (fun c : ({j // j ≠ k} → A) × A => p ((Equiv.funSplitAt k A).symm (c.2, c.1)) c.2) ≤
        N * Fintype.card ({j // j ≠ k} → A) := by
      refine count_all fun u => (count_mono fun a ha => ?_).trans (h ((Equiv.funSplitAt k A).symm (a₀, u)))
      rw [← hp _ a]
      convert ha using 1
      funext j
      by_cases hj : j = k
      · subst hj
        simp [Equiv.funSplitAt, Equiv.piSplitAt]
      · rw [Function.update_of_ne hj]
        simp [Equiv.funSplitAt, Equiv.piSplitAt, hj]
    calc _ ≤ N * Fintype.card ({j // j ≠ k} → A) * Fintype.card A := Nat.mul_le_mul_right _ this
      _ = _ := by ring
  · rw [not_nonempty_iff] at hA
    simp

theorem count_exists {A : Type} [Fintype A] {Q : ℕ} {p : ℕ → A → Prop} {N M : ℕ} (h : ∀ j < Q, count (p j) * M ≤ N) :
    count (fun a => ∃ j < Q, p j a) * M ≤ Q * N := by
  induction Q with
  | zero =>
    rw [count_false fun a ⟨j, hj, _⟩ => by omega]
    simp
  | succ Q ih =>
    have := (count_mono (p := fun a => ∃ j < Q + 1, p j a) (q := fun a => (∃ j < Q, p j a) ∨ p Q a)
      fun a ⟨j, hj, ha⟩ => by
        rcases Nat.lt_succ_iff_lt_or_eq.mp hj with hj | rfl
        · exact Or.inl ⟨j, hj, ha⟩
        · exact Or.inr ha).trans (count_or _ _)
    calc _ ≤ (count (fun a => ∃ j < Q, p j a) + count (p Q)) * M := Nat.mul_le_mul_right _ this
      _ = count (fun a => ∃ j < Q, p j a) * M + count (p Q) * M := by ring
      _ ≤ Q * N + N := Nat.add_le_add (ih fun j hj => h j (by omega)) (h Q (by omega))
      _ = _ := by ring

/-- Random answers with which one of `Q` scripts with a broken assignment is accepted. -/
theorem count_cheat {K : Key F} (hK : K.Wf) (A : Cheat F) (Q : ℕ) :
    count (fun t : Fin Q → Challenges F => ∃ e ∈ play A (tape t) Q, e.1.Short K.n ∧ K.Broken e.1.advice ∧ e.1.Accepts K e.2) *
      Fintype.card F ≤ Q * K.slack * Fintype.card (Fin Q → Challenges F) := by
  classical
  have hq : 0 < Fintype.card F := Fintype.card_pos
  have hstep : ∀ j < Q, count (fun t : Fin Q → Challenges F =>
      NewLuck K (play A (tape t) j) (A (play A (tape t) j)) (tape t j)) * Fintype.card F ≤
        K.slack * Fintype.card (Fin Q → Challenges F) := by
    intro j hj
    have := count_coord (ι := Fin Q) (A := Challenges F) ⟨j, hj⟩
      (p := fun t c => NewLuck K (play A (tape t) j) (A (play A (tape t) j)) c) (by
        intro t v a
        have : play A (tape (Function.update t ⟨j, hj⟩ v)) j = play A (tape t) j := by
          refine play_congr A j fun i hi => ?_
          unfold tape
          rw [dif_pos (by omega), dif_pos (by omega), Function.update_of_ne]
          intro h
          have := congrArg Fin.val h
          dsimp only at this
          omega
        rw [this]) (fun t => count_newLuck hK _ _)
    have e : ∀ t : Fin Q → Challenges F, tape t j = t ⟨j, hj⟩ := fun t => dif_pos hj
    simp only [e]
    have hc : Fintype.card (Challenges F) = Fintype.card F ^ 4 * Fintype.card F := by
      simp only [Fintype.card_prod]
      ring
    rw [hc] at this
    refine Nat.le_of_mul_le_mul_left (c := Fintype.card F ^ 4) ?_ (Nat.pow_pos hq)
    refine le_trans (le_of_eq ?_) (this.trans (le_of_eq ?_)) <;> ring
  have := count_exists hstep
  refine le_trans (Nat.mul_le_mul_right _ (count_mono fun t ⟨e, he, hs, hb, ha⟩ => ?_)) (this.trans (le_of_eq (by ring)))
  exact exists_newLuck A (tape t) Q ⟨e, he, lucky_of_accepts hs hb ha⟩

theorem card_tapes (F : Type) [Field F] [Fintype F] (Q : ℕ) :
    Fintype.card (Fin Q → Challenges F) = Fintype.card F ^ (5 * Q) := by
  rw [Fintype.card_fun, Fintype.card_fin, pow_mul]
  congr 1
  simp only [Fintype.card_prod]
  ring

theorem chance {w r a b q : ℕ} (h : w * r ≤ a * q) (hr : a * b ≤ r) (hpos : 0 < r) : w * b ≤ q := by
  refine Nat.le_of_mul_le_mul_right ?_ hpos
  calc w * b * r = w * r * b := by ring
    _ ≤ a * q * b := Nat.mul_le_mul_right _ h
    _ = a * b * q := by ring
    _ ≤ r * q := Nat.mul_le_mul_right _ hr
    _ = q * r := by ring

/-! ### The prover of the tests -/

/-- An interactive prover that asks the oracle: first for `θ`, then for `β` and `γ`, for `y` and for `x`. The rest of a
script that is not yet known is one that cannot occur in a proof on `n` rows. -/
noncomputable def Prover.ask (P : Prover F) (n : ℕ) : Cheat F := fun h =>
  match h with
  | [] => ⟨P.advice, fun _ => (X ^ n, X ^ n), (fun _ => X ^ n, fun _ => X ^ n), fun _ => X ^ n⟩
  | [e] => ⟨P.advice, P.permuted e.2.1, (fun _ => X ^ n, fun _ => X ^ n), fun _ => X ^ n⟩
  | [e, _] => ⟨P.advice, P.permuted e.2.1, P.products e.2.1 e.2.2.1.1 e.2.2.1.2, fun _ => X ^ n⟩
  | e :: _ => ⟨P.advice, P.permuted e.2.1, P.products e.2.1 e.2.2.1.1 e.2.2.1.2,
      P.quotient e.2.1 e.2.2.1.1 e.2.2.1.2 e.2.2.2.1⟩

/-- The challenges the prover meets: one from each of its four questions. -/
def met (t : ℕ → Challenges F) : Challenges F := ((t 0).1, (t 1).2.1, (t 2).2.2.1, (t 3).2.2.2)

/-- The script of a prover for given challenges. -/
def Prover.script (P : Prover F) (c : Challenges F) : Script F :=
  ⟨P.advice, P.permuted c.1, P.products c.1 c.2.1.1 c.2.1.2, P.quotient c.1 c.2.1.1 c.2.1.2 c.2.2.1⟩

theorem Prover.script_accepts (P : Prover F) (K : Key F) (c : Challenges F) :
    (P.script c).Accepts K c ↔ P.Convinces K (c.1, c.2.1.1, c.2.1.2, c.2.2.1, c.2.2.2) := Iff.rfl

theorem recall_nil {A B : Type} (κ : Script F → A) (f : Challenges F → B) (s : Script F) (new : B) :
    recall κ f [] s new = new := by
  simp [recall]

theorem recall_hit {A B : Type} {κ : Script F → A} (f : Challenges F → B) {e : Script F × Challenges F} {h : History F}
    {s : Script F} (hs : κ e.1 = κ s) (new : B) : recall κ f (e :: h) s new = f e.2 := by
  classical
  simp [recall, hs]

theorem recall_miss {A B : Type} {κ : Script F → A} (f : Challenges F → B) {e : Script F × Challenges F} {h : History F}
    {s : Script F} (hs : κ e.1 ≠ κ s) (new : B) : recall κ f (e :: h) s new = recall κ f h s new := by
  classical
  simp [recall, hs]

theorem ask_play {P : Prover F} {n : ℕ} (hP : P.Short n) (t : ℕ → Challenges F) :
    ∃ h, play (P.ask n) t 4 = (P.script (met t), met t) :: h := by
  have hX : ∀ p : F[X], p.degree < n → (X ^ n : F[X]) ≠ p := by
    rintro p hp rfl
    rw [degree_X_pow] at hp
    exact lt_irrefl _ hp
  have n1 : ∀ θ, ¬ (fun _ => (X ^ n, X ^ n) : ℕ → F[X] × F[X]) = P.permuted θ := by
    intro θ h
    exact hX _ (hP.input θ 0) (congrArg Prod.fst (congrFun h 0))
  have n2 : ∀ θ β γ, ¬ ((fun _ => X ^ n, fun _ => X ^ n) : (ℕ → F[X]) × (ℕ → F[X])) = P.products θ β γ := by
    intro θ β γ h
    exact hX _ (hP.zPerm θ β γ 0) (congrFun (congrArg Prod.fst h) 0)
  have n3 : ∀ θ β γ y, ¬ ((fun _ => X ^ n) : ℕ → F[X]) = P.quotient θ β γ y := by
    intro θ β γ y h
    exact hX _ (hP.quotient θ β γ y 0) (congrFun h 0)
  have p1 : play (P.ask n) t 1 = [(P.ask n [], t 0)] := by
    simp only [play, answer, recall_nil]
  obtain ⟨e1, h1, p2⟩ : ∃ e1 : Script F × Challenges F, e1 = (⟨P.advice, P.permuted (t 0).1, (fun _ => X ^ n, fun _ => X ^ n),
      fun _ => X ^ n⟩, ((t 0).1, (t 1).2.1, (t 1).2.2.1, (t 1).2.2.2)) ∧
      play (P.ask n) t 2 = [e1, (P.ask n [], t 0)] := by
    refine ⟨_, rfl, ?_⟩
    rw [play, p1]
    refine congrArg (· :: _) (Prod.ext rfl ?_)
    change answer [(P.ask n [], t 0)] ⟨P.advice, P.permuted (t 0).1, (fun _ => X ^ n, fun _ => X ^ n), fun _ => X ^ n⟩ _ = _
    unfold answer
    refine congrArg₂ Prod.mk ?_ (congrArg₂ Prod.mk ?_ (congrArg₂ Prod.mk ?_ ?_))
    · exact recall_hit _ (by rfl) _
    · exact (recall_miss _ (by intro h; exact n1 _ (Prod.mk.inj h).2) _).trans (recall_nil _ _ _ _)
    · exact (recall_miss _ (by intro h; exact n1 _ (Prod.mk.inj (Prod.mk.inj h).2).1) _).trans (recall_nil _ _ _ _)
    · exact (recall_miss _ (by intro h; exact n1 _ (Prod.mk.inj (Prod.mk.inj h).2).1) _).trans (recall_nil _ _ _ _)
  obtain ⟨e2, h2, p3⟩ : ∃ e2 : Script F × Challenges F, e2 = (⟨P.advice, P.permuted (t 0).1,
      P.products (t 0).1 (t 1).2.1.1 (t 1).2.1.2, fun _ => X ^ n⟩, ((t 0).1, (t 1).2.1, (t 2).2.2.1, (t 2).2.2.2)) ∧
      play (P.ask n) t 3 = [e2, e1, (P.ask n [], t 0)] := by
    refine ⟨_, rfl, ?_⟩
    rw [play, p2, h1]
    refine congrArg (· :: _) (Prod.ext rfl ?_)
    change answer _ ⟨P.advice, P.permuted (t 0).1, P.products (t 0).1 (t 1).2.1.1 (t 1).2.1.2, fun _ => X ^ n⟩ _ = _
    unfold answer
    refine congrArg₂ Prod.mk ?_ (congrArg₂ Prod.mk ?_ (congrArg₂ Prod.mk ?_ ?_))
    · exact recall_hit _ (by rfl) _
    · exact recall_hit _ (by rfl) _
    · exact (recall_miss _ (by intro h; exact n2 _ _ _ (Prod.mk.inj (Prod.mk.inj h).2).2) _).trans
        ((recall_miss _ (by intro h; exact n1 _ (Prod.mk.inj (Prod.mk.inj h).2).1) _).trans (recall_nil _ _ _ _))
    · exact (recall_miss _ (by intro h; exact n2 _ _ _ (Prod.mk.inj (Prod.mk.inj (Prod.mk.inj h).2).2).1) _).trans
        ((recall_miss _ (by intro h; exact n1 _ (Prod.mk.inj (Prod.mk.inj h).2).1) _).trans (recall_nil _ _ _ _))
  refine ⟨[e2, e1, (P.ask n [], t 0)], ?_⟩
  rw [play, p3, h2, h1]
  refine congrArg (· :: _) (Prod.ext rfl ?_)
  change answer _ (P.script (met t)) _ = _
  unfold answer
  refine congrArg₂ Prod.mk ?_ (congrArg₂ Prod.mk ?_ (congrArg₂ Prod.mk ?_ ?_))
  · exact recall_hit _ (by rfl) _
  · exact recall_hit _ (by rfl) _
  · exact recall_hit _ (by rfl) _
  · exact (recall_miss _ (by intro h; exact n3 _ _ _ _ (Prod.mk.inj (Prod.mk.inj (Prod.mk.inj h).2).2).2) _).trans
      ((recall_miss _ (by intro h; exact n2 _ _ _ (Prod.mk.inj (Prod.mk.inj (Prod.mk.inj h).2).2).1) _).trans
        ((recall_miss _ (by intro h; exact n1 _ (Prod.mk.inj (Prod.mk.inj h).2).1) _).trans (recall_nil _ _ _ _)))

/-- The answers met by the prover are as random as those of a verifier. -/
theorem count_met (p : Challenges F → Prop) :
    count (fun t : Fin 4 → Challenges F => p (met (tape t))) = count p * Fintype.card (Challenges F) ^ 3 := by
  classical
  let e : (Fin 4 → Challenges F) ≃ Challenges F × (Challenges F × Challenges F × Challenges F) :=
    { toFun := fun t => (((t 0).1, (t 1).2.1, (t 2).2.2.1, (t 3).2.2.2), ((t 1).1, (t 0).2.1, (t 0).2.2.1, (t 0).2.2.2),
        ((t 2).1, (t 2).2.1, (t 1).2.2.1, (t 1).2.2.2), ((t 3).1, (t 3).2.1, (t 3).2.2.1, (t 2).2.2.2))
      invFun := fun c => ![(c.1.1, c.2.1.2.1, c.2.1.2.2.1, c.2.1.2.2.2), (c.2.1.1, c.1.2.1, c.2.2.1.2.2.1, c.2.2.1.2.2.2),
        (c.2.2.1.1, c.2.2.1.2.1, c.1.2.2.1, c.2.2.2.2.2.2), (c.2.2.2.1, c.2.2.2.2.1, c.2.2.2.2.2.1, c.1.2.2.2)]
      left_inv := fun t => by
        funext i
        fin_cases i <;> rfl
      right_inv := fun c => rfl }
  rw [count_equiv e (q := fun c => p c.1) fun t => by rfl, count_swap, count_prod]
  simp only [Finset.sum_const, Finset.card_univ, Fintype.card_prod, smul_eq_mul]
  ring

theorem count_honest {P : Prover F} {K : Key F} (hP : P.Short K.n) :
    count (fun t : Fin 4 → Challenges F => ∃ e ∈ (play (P.ask K.n) (tape t) 4).head?, e.1.Short K.n ∧
      e.1.advice = P.advice ∧ e.1.Accepts K e.2) = count (P.Convinces K) * Fintype.card F ^ 15 := by
  have h : ∀ t : Fin 4 → Challenges F, (∃ e ∈ (play (P.ask K.n) (tape t) 4).head?, e.1.Short K.n ∧
      e.1.advice = P.advice ∧ e.1.Accepts K e.2) ↔ (P.script (met (tape t))).Accepts K (met (tape t)) := by
    intro t
    obtain ⟨l, hl⟩ := ask_play hP (tape t)
    rw [hl]
    simp only [List.head?_cons, Option.mem_some_iff, exists_eq_left']
    exact ⟨fun h => h.2.2, fun h => ⟨⟨hP.advice, hP.input _, hP.table _, hP.zPerm _ _ _, hP.zLookup _ _ _,
      hP.quotient _ _ _ _⟩, rfl, h⟩⟩
  simp only [h]
  have := count_met fun c : Challenges F => (P.script c).Accepts K c
  refine this.trans ?_
  have e2 : count (fun c : Challenges F => (P.script c).Accepts K c) = count (P.Convinces K) :=
    count_equiv ⟨fun c => (c.1, c.2.1.1, c.2.1.2, c.2.2.1, c.2.2.2), fun c => (c.1, (c.2.1, c.2.2.1), c.2.2.2.1, c.2.2.2.2),
      fun _ => rfl, fun _ => rfl⟩ fun _ => Iff.rfl
  rw [e2]
  simp only [Fintype.card_prod]
  ring

end
end Halo2

namespace Props
open Halo2 Circuit Circuit.Table Base.Bn256
open Polynomial

/-- The oracle of the game: scripts that begin alike have the same challenges up to there, and a beginning not seen before
gets the next random answer. -/
theorem C97_oracle {F : Type} [Field F] (A : Cheat F) (t : ℕ → Challenges F) (Q : ℕ) :
    (∀ e ∈ play A t Q, ∀ e' ∈ play A t Q, e.1.advice = e'.1.advice → e.2.1 = e'.2.1 ∧
      (e.1.permuted = e'.1.permuted → e.2.2.1 = e'.2.2.1 ∧
        (e.1.products = e'.1.products → e.2.2.2.1 = e'.2.2.2.1 ∧
          (e.1.quotient = e'.1.quotient → e.2.2.2.2 = e'.2.2.2.2)))) ∧
    ∃ e, play A t (Q + 1) = e :: play A t Q ∧ e.1 = A (play A t Q) ∧
      ((∀ e' ∈ play A t Q, e'.1.advice ≠ e.1.advice) → e.2 = t Q) ∧
      ((∀ e' ∈ play A t Q, e'.1.advice = e.1.advice → e'.1.permuted ≠ e.1.permuted) → e.2.2 = (t Q).2) ∧
      ((∀ e' ∈ play A t Q, e'.1.advice = e.1.advice → e'.1.permuted = e.1.permuted → e'.1.products ≠ e.1.products) →
        e.2.2.2 = (t Q).2.2) ∧
      (e.1 ∉ (play A t Q).map Prod.fst → e.2.2.2.2 = (t Q).2.2.2) := by
  have hc := play_consistent A t Q
  constructor
  · intro e he e' he' h1
    refine ⟨hc.theta e he e' he' h1, fun h2 => ⟨hc.betaGamma e he e' he' (by simp only [h1, h2]), fun h3 =>
      ⟨hc.y e he e' he' (by simp only [h1, h2, h3]), fun h4 => hc.x e he e' he' (by simp only [h1, h2, h3, h4])⟩⟩⟩
  have new : ∀ {B C : Type} {κ : Script F → B} {f : Challenges F → C} {h : History F} {s : Script F} {v : C},
      (∀ e ∈ h, κ e.1 ≠ κ s) → recall κ f h s v = v := by
    intro B C κ f h s v hno
    rcases recall_cases (κ := κ) (f := f) (h := h) s v with ⟨e, he, hk, -⟩ | ⟨-, e1⟩
    · exact absurd hk (hno e he)
    · exact e1
  refine ⟨_, rfl, rfl, fun h => ?_, fun h => ?_, fun h => ?_, fun h => ?_⟩
  · refine congrArg₂ Prod.mk (new h) (congrArg₂ Prod.mk (new ?_) (congrArg₂ Prod.mk (new ?_) (new ?_))) <;>
      exact fun e he hk => h e he (Prod.mk.inj hk).1
  · refine congrArg₂ Prod.mk (new ?_) (congrArg₂ Prod.mk (new ?_) (new ?_))
    · exact fun e he hk => h e he (Prod.mk.inj hk).1 (Prod.mk.inj hk).2
    · exact fun e he hk => h e he (Prod.mk.inj hk).1 (Prod.mk.inj (Prod.mk.inj hk).2).1
    · exact fun e he hk => h e he (Prod.mk.inj hk).1 (Prod.mk.inj (Prod.mk.inj hk).2).1
  · refine congrArg₂ Prod.mk (new ?_) (new ?_)
    · exact fun e he hk => h e he (Prod.mk.inj hk).1 (Prod.mk.inj (Prod.mk.inj hk).2).1 (Prod.mk.inj (Prod.mk.inj hk).2).2
    · exact fun e he hk => h e he (Prod.mk.inj hk).1 (Prod.mk.inj (Prod.mk.inj hk).2).1
        (Prod.mk.inj (Prod.mk.inj (Prod.mk.inj hk).2).2).1
  · change recall (fun s => (s.advice, s.permuted, s.products, s.quotient)) (fun c => c.2.2.2) _ _ _ = _
    refine new fun e he hk => h (List.mem_map.mpr ⟨e, he, ?_⟩)
    simp only [Prod.mk.injEq] at hk
    dsimp only
    generalize A (play A t Q) = s at hk ⊢
    obtain ⟨⟨_, _, _, _⟩, _⟩ := e
    obtain ⟨_, _, _, _⟩ := s
    obtain ⟨h1, h2, h3, h4⟩ := hk
    dsimp only at h1 h2 h3 h4 ⊢
    rw [h1, h2, h3, h4]

/-- **C97.** Soundness without a verifier: a prover who gets its challenges from a random oracle and tries `Q` scripts
finds one with an assignment that breaks the circuit and is accepted for at most `Q * K.slack` in `q` of all oracles. -/
theorem C97_sound {F : Type} [Field F] [Fintype F] {cs : CS F} {ws : List (Wide F)} {ops : List (Op F)} {n : ℕ} {ω δ : F}
    {K : Key F} (hK : keygenWith cs ws ops n ω δ = .ok K) (hω : IsPrimitiveRoot ω n) (hδ : DistinctNames cs n ω δ)
    (A : Cheat F) (Q : ℕ) :
    Nat.card {t : Fin Q → Challenges F // ∃ e ∈ play A (tape t) Q, e.1.Short n ∧ e.1.Accepts K e.2 ∧
      ¬ (cs.Holds (K.grid e.1.advice) ∧ (∀ w ∈ ws, w.Holds (K.grid e.1.advice)) ∧ CopiesHold (K.grid e.1.advice) ops)} *
        Fintype.card F ≤ Q * K.slack * Fintype.card F ^ (5 * Q) := by
  have hn : K.n = n := by
    obtain ⟨-, -, s, -, rfl⟩ := keygen_ok hK
    rfl
  rw [nat_card_eq_count, ← card_tapes]
  refine le_trans (Nat.mul_le_mul_right _ (count_mono ?_)) (count_cheat (keygen_wf hK hω) A Q)
  rintro t ⟨e, he, hs, ha, hb⟩
  refine ⟨e, he, hn ▸ hs, ?_, ha⟩
  by_contra hnb
  exact hb (holds_of_not_broken hK hω hδ hnb)

/-- A prover that convinces a verifier finds its challenges with four questions to the oracle, and is then accepted for
the same share of all challenges. -/
theorem C97_complete {F : Type} [Field F] [Fintype F] {K : Key F} {P : Prover F} (hP : P.Short K.n) :
    Nat.card {t : Fin 4 → Challenges F // ∃ e ∈ (play (P.ask K.n) (tape t) 4).head?, e.1.Short K.n ∧
      e.1.advice = P.advice ∧ e.1.Accepts K e.2} = Nat.card {c // P.Convinces K c} * Fintype.card F ^ 15 := by
  rw [nat_card_eq_count, nat_card_eq_count, count_honest hP]

/-- The hash table in any circuit with a key: a prover with `Q` scripts has one accepted with advice columns that the
hash table does not accept for at most `Q * K.slack` in `r` of all oracles. -/
theorem C97_table {x : Run Fr} {k : ChipKind} {short : Bool} (hbn : x.IsBn k short) (hx : x.Legal)
    {L' : Layouter Fr} (hL : x.Loads L') {post : List (Op Fr)} {cs : CS Fr} {ws : List (Wide Fr)}
    (hgates : ∀ p ∈ x.newGates, p ∈ cs.gates) (hlookups : ∀ l ∈ x.newLookups, l ∈ cs.lookups)
    (quietFixed : ∀ o ∈ x.before.ops ++ post, ∀ c r v, o.FixedWrite c r v → ¬ x.FixedCol c)
    (quietSel : ∀ c r, Op.selector c r ∈ x.before.ops ++ post → ¬ x.Sel c) {n : ℕ} {ω δ : Fr} {K : Key Fr}
    (hK : keygenWith cs ws (L'.ops ++ post) n ω δ = .ok K) (hω : IsPrimitiveRoot ω n) (hδ : DistinctNames cs n ω δ)
    (A : Cheat Fr) (Q : ℕ) :
    Nat.card {t : Fin Q → Challenges Fr // ∃ e ∈ play A (tape t) Q, e.1.Short n ∧ e.1.Accepts K e.2 ∧
      ¬ x.Accepted k short L' post (K.grid e.1.advice)} * Base.Bn256.r ≤ Q * K.slack * Base.Bn256.r ^ (5 * Q) := by
  have h := C97_sound hK hω hδ A Q
  have hcard : Fintype.card Fr = Base.Bn256.r := ZMod.card Base.Bn256.r
  rw [hcard] at h
  refine le_trans (Nat.mul_le_mul_right _ ?_) h
  rw [nat_card_eq_count, nat_card_eq_count]
  refine count_mono ?_
  rintro t ⟨e, he, hs, ha, hb⟩
  exact ⟨e, he, hs, ha, fun hh => hb (accepted_of_holds hbn hx hL hgates hlookups quietFixed quietSel hK hh.1 hh.2.2)⟩

/-- The proofs of the tests: on `2^kk` rows with the domain of bn256, a prover with `Q` scripts has one accepted whose
table is not accepted, or has a block with another digest than that of its words, for at most `Q * 52 * 2^kk` in `r` of all
oracles; the witness of `load`, if its blocks are complete, is accepted after four questions but for `17 * 2^kk` in `r`. -/
theorem C97_tests {k : ChipKind} {ch : Chip Fr 3} (hch : bnChip k = .ok ch) (short legacy : Bool) (mode : LoadMode)
    {STEP : ℕ} {t : HashTable Fr} {calcs : ℕ} (hS : STEP < 2 ^ 64) (hc : calcs < 2 ^ 64)
    (ht : ∀ c ∈ t.controls, c < 2 ^ 64) {kk : ℕ} (hkk : kk ≤ 28) {x : Run Fr}
    (hx : x = testRun ch short legacy mode STEP t calcs) {L' : Layouter Fr} (hL : x.load = .ok L') {K : Key Fr}
    (hK : keygen x.configured.2 L'.ops (2 ^ kk) (omega kk) delta = .ok K) :
    (∀ (A : Cheat Fr) (Q : ℕ), Nat.card {u : Fin Q → Challenges Fr // ∃ e ∈ play A (tape u) Q,
      e.1.Short (2 ^ kk) ∧ e.1.Accepts K e.2 ∧
      ¬ (x.Accepted k short L' [] (K.grid e.1.advice) ∧
        ∃ s, x.EnabledAfter (K.grid e.1.advice) s ∧ ∀ a m, Block x (K.grid e.1.advice) s a m →
          ∀ c : ℕ, x.col (K.grid e.1.advice) 3 a = (c : Fr) → (∀ i ≤ m, x.col (K.grid e.1.advice) 4 (a + i) = 0) →
            2 * (m + 1) < 2 ^ 64 → ∀ i ≤ m,
              hashMsgFr short legacy (wordsOf x (K.grid e.1.advice) a m) (some c) =
                .ok (x.col (K.grid e.1.advice) 0 (a + i)))} * Base.Bn256.r ≤
        Q * (52 * 2 ^ kk) * Base.Bn256.r ^ (5 * Q)) ∧
    ∀ adv : ℕ → Fr[X], (∀ c, (adv c).degree < (2 ^ kk : ℕ)) →
      (∀ c, ∀ r < 2 ^ kk - 6, (adv c).eval (omega kk ^ r) = finalAdvice L'.ops c r) → Complete STEP STEP t calcs →
        ∃ A : Cheat Fr, Base.Bn256.r ^ 20 ≤ Nat.card {u : Fin 4 → Challenges Fr // ∃ e ∈ (play A (tape u) 4).head?,
          e.1.Short (2 ^ kk) ∧ e.1.advice = adv ∧ e.1.Accepts K e.2} + 17 * 2 ^ kk * Base.Bn256.r ^ 19 := by
  have hlegal : x.Legal := by
    rw [hx]
    exact ⟨fun i => i.isLt, fun i j h => Fin.ext h, by simp [testRun], hS, hS, hc, ht⟩
  have hbn : x.IsBn k short := by rw [hx]; exact ⟨hch, rfl⟩
  have el : x.legacy = legacy := by rw [hx]; rfl
  have eb : x.before.ops = [] := by rw [hx]; rfl
  have e0 : x.cs = ⟨6, 1, 0, [], [], []⟩ := by rw [hx]; rfl
  have hn : K.n = 2 ^ kk := by
    obtain ⟨-, -, s, -, rfl⟩ := keygen_ok hK
    rfl
  constructor
  · intro A Q
    have key := C97_table hbn hlegal (Or.inl hL) (post := []) (cs := x.configured.2)
      (fun p h => List.mem_of_mem_drop h) (fun p h => List.mem_of_mem_drop h) (by rw [eb]; simp) (by rw [eb]; simp)
      (by rw [List.append_nil]; exact hK) (omega_primitive hkk) (delta_names hkk (tests_cols hbn (by rw [e0]))) A Q
    have hsl := (slack_le hbn hlegal (by rw [e0]) (by rw [e0]) (by rw [e0]) hK).1
    refine le_trans (Nat.mul_le_mul_right _ ?_) (key.trans (Nat.mul_le_mul_right _ (Nat.mul_le_mul_left _ hsl)))
    rw [nat_card_eq_count, nat_card_eq_count]
    refine count_mono ?_
    rintro u ⟨e, he, hs, ha, hb⟩
    refine ⟨e, he, hs, ha, fun hacc => hb ⟨hacc, ?_⟩⟩
    obtain ⟨s, hen, h⟩ := C26_block_digest hacc
    refine ⟨s, hen, fun a m hb => ?_⟩
    rw [← el]
    exact (h a m hb).2
  · intro adv hdeg hadv hcom
    obtain ⟨P, hP, ha, hcard⟩ := (C90_tests hch short legacy mode hS hc ht hkk hx hL hK hdeg hadv).1 hcom
    refine ⟨P.ask K.n, ?_⟩
    have h := C97_complete (hn ▸ hP : P.Short K.n)
    rw [hn, ha, show Fintype.card Fr = Base.Bn256.r from ZMod.card Base.Bn256.r] at h
    rw [hn, h]
    calc Base.Bn256.r ^ 20 = Base.Bn256.r ^ 5 * Base.Bn256.r ^ 15 := by ring
      _ ≤ (Nat.card {c // P.Convinces K c} + 17 * 2 ^ kk * Base.Bn256.r ^ 4) * Base.Bn256.r ^ 15 :=
        Nat.mul_le_mul_right _ hcard
      _ = _ := by ring

/-- In numbers: on at most `2^28` rows, with `2^100` questions to the oracle, the chance is below `2^-119`. -/
theorem C97_numbers {k : ChipKind} {ch : Chip Fr 3} (hch : bnChip k = .ok ch) (short legacy : Bool) (mode : LoadMode)
    {STEP : ℕ} {t : HashTable Fr} {calcs : ℕ} (hS : STEP < 2 ^ 64) (hc : calcs < 2 ^ 64)
    (ht : ∀ c ∈ t.controls, c < 2 ^ 64) {kk : ℕ} (hkk : kk ≤ 28) {x : Run Fr}
    (hx : x = testRun ch short legacy mode STEP t calcs) {L' : Layouter Fr} (hL : x.load = .ok L') {K : Key Fr}
    (hK : keygen x.configured.2 L'.ops (2 ^ kk) (omega kk) delta = .ok K) (A : Cheat Fr) {Q : ℕ} (hQ : Q ≤ 2 ^ 100) :
    Nat.card {u : Fin Q → Challenges Fr // ∃ e ∈ play A (tape u) Q, e.1.Short (2 ^ kk) ∧ e.1.Accepts K e.2 ∧
      ¬ x.Accepted k short L' [] (K.grid e.1.advice)} * 2 ^ 119 ≤ Nat.card (Fin Q → Challenges Fr) := by
  have h := (C97_tests hch short legacy mode hS hc ht hkk hx hL hK).1 A Q
  have hcard : Nat.card (Fin Q → Challenges Fr) = Base.Bn256.r ^ (5 * Q) := by
    rw [Nat.card_eq_fintype_card, card_tapes]
    exact congrArg (fun q => q ^ (5 * Q)) (ZMod.card Base.Bn256.r)
  rw [hcard]
  have hle : Nat.card {u : Fin Q → Challenges Fr // ∃ e ∈ play A (tape u) Q, e.1.Short (2 ^ kk) ∧ e.1.Accepts K e.2 ∧
      ¬ x.Accepted k short L' [] (K.grid e.1.advice)} * Base.Bn256.r ≤ Q * (52 * 2 ^ kk) * Base.Bn256.r ^ (5 * Q) := by
    refine le_trans (Nat.mul_le_mul_right _ ?_) h
    rw [nat_card_eq_count, nat_card_eq_count]
    exact count_mono fun u ⟨e, he, hs, ha, hb⟩ => ⟨e, he, hs, ha, fun hh => hb hh.1⟩
  have h28 : 2 ^ kk ≤ 2 ^ 28 := Nat.pow_le_pow_right (by norm_num) hkk
  have hr : Q * (52 * 2 ^ kk) * 2 ^ 119 ≤ Base.Bn256.r :=
    (Nat.mul_le_mul_right _ (Nat.mul_le_mul hQ (Nat.mul_le_mul_left 52 h28))).trans (by norm_num [Base.Bn256.r])
  have hpos : 0 < Base.Bn256.r := by norm_num [Base.Bn256.r]
  exact chance hle hr hpos

-- the first test of hash.rs on `2^7` rows: a key exists, some script is accepted, and a prover with any number of scripts
-- is bound by the theorem
example (b short legacy : Bool) (mode : LoadMode) {ch : Chip Fr 3} (hch : bnChip (.pow5 b) = .ok ch) {x : Run Fr}
    (hx : x = testRun ch short legacy mode 62 ⟨[(1, 2), (0, 1)], [], [], []⟩ 3) :
    ∃ L', x.load = .ok L' ∧ ∃ K, keygen x.configured.2 L'.ops (2 ^ 7) (omega 7) delta = .ok K ∧
      (∃ (A : Cheat Fr) (u : Fin 4 → Challenges Fr), ∃ e ∈ (play A (tape u) 4).head?, e.1.Short (2 ^ 7) ∧ e.1.Accepts K e.2) ∧
      ∀ A : Cheat Fr, Nat.card {u : Fin 1000 → Challenges Fr // ∃ e ∈ play A (tape u) 1000, e.1.Short (2 ^ 7) ∧
        e.1.Accepts K e.2 ∧ ¬ x.Accepted (.pow5 b) short L' [] (K.grid e.1.advice)} * 2 ^ 119 ≤
          Nat.card (Fin 1000 → Challenges Fr) := by
  have hc : Complete 62 62 ⟨[(1, 2), (0, 1)], [], [], []⟩ 3 := by
    refine ⟨fun j _ h => ?_, fun j hj => ?_⟩
    · simp [rowCtl] at h
    · obtain rfl : j = 2 := by omega
      simp [rowCtl, rowWords]
  have hck : ChecksMatch legacy 62 ⟨[(1, 2), (0, 1)], [], [], []⟩ 3 := by
    intro a m _ _ ck h; simp [rowCk] at h
  have hpass : Passes x 7 := by
    rw [hx, C76_tests hch short legacy mode (by norm_num) (by norm_num) (by simp)]
    exact ⟨fun _ => by simp, hck, hc, by norm_num, by norm_num, by simp [ChipKind.rows]⟩
  obtain ⟨L', hL, K, hK, P, hP, hadv, hgt⟩ :=
    (C90_mock hch short legacy mode (by norm_num) (by norm_num) (by simp) (by norm_num) hx).mp hpass
  refine ⟨L', hL, K, hK, ?_, fun A => C97_numbers hch short legacy mode (by norm_num) (by norm_num) (by simp) (by norm_num)
    hx hL hK A (by norm_num)⟩
  obtain ⟨A, hA⟩ := (C97_tests hch short legacy mode (by norm_num) (by norm_num) (by simp) (by norm_num) hx hL hK).2 P.advice
    hP.advice hadv hc
  refine ⟨A, ?_⟩
  by_contra hno
  push Not at hno
  have h0 : Nat.card {u : Fin 4 → Challenges Fr // ∃ e ∈ (play A (tape u) 4).head?, e.1.Short (2 ^ 7) ∧
      e.1.advice = P.advice ∧ e.1.Accepts K e.2} = 0 := by
    rw [nat_card_eq_count]
    exact count_false fun u ⟨e, he, hs, _, ha⟩ => hno u e he hs ha
  rw [h0] at hA
  norm_num [Base.Bn256.r] at hA

end Props
