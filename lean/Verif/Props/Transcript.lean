import Verif.Halo2.Transcript
import Verif.Props.ArgumentOracle

/-!
# Luck with a random oracle
-/

set_option linter.unusedSectionVars false

namespace Halo2.Oracle

variable {I S A : Type} {B : I → Type}

/-- Random answers for `Q` moves. -/
def tape [∀ i, Zero (B i)] {Q : ℕ} (t : Fin Q → (i : I) → B i) (j : ℕ) : (i : I) → B i := if h : j < Q then t ⟨j, h⟩ else 0

theorem reply_cases {κ : I → S → Option A} {h : Log S B} (s : S) (new : (i : I) → B i) (i : I) :
    (∃ e ∈ h, κ i s ≠ none ∧ κ i e.1 = κ i s ∧ reply κ h s new i = e.2 i) ∨
      (κ i s ≠ none → ∀ e ∈ h, κ i e.1 ≠ κ i s) ∧ reply κ h s new i = new i := by
  classical
  unfold reply
  cases hf : h.find? fun e => decide (κ i s ≠ none ∧ κ i e.1 = κ i s) with
  | some e =>
    have := List.find?_some hf
    simp only [decide_eq_true_eq] at this
    exact Or.inl ⟨e, List.mem_of_find?_eq_some hf, this.1, this.2, rfl⟩
  | none =>
    refine Or.inr ⟨fun hs e he hk => ?_, rfl⟩
    have := (List.find?_eq_none.mp hf) e he
    simp only [decide_eq_true_eq, not_and] at this
    exact this hs hk

theorem reply_congr {κ : I → S → Option A} {h : Log S B} {s : S} {new new' : (i : I) → B i} {i : I} (hn : new i = new' i) :
    reply κ h s new i = reply κ h s new' i := by
  unfold reply
  split
  · rfl
  · exact hn

/-- Equal questions have equal answers. -/
def Agree (κ : I → S → Option A) (h : Log S B) : Prop :=
  ∀ e ∈ h, ∀ e' ∈ h, ∀ i, κ i e.1 ≠ none → κ i e.1 = κ i e'.1 → e.2 i = e'.2 i

theorem reply_agree {κ : I → S → Option A} {h : Log S B} (ha : Agree κ h) {s : S} (new : (i : I) → B i) {i : I}
    {e : S × ((i : I) → B i)} (he : e ∈ h) (hs : κ i s ≠ none) (hk : κ i e.1 = κ i s) : reply κ h s new i = e.2 i := by
  rcases reply_cases (κ := κ) (h := h) s new i with ⟨e', he', -, hk', e1⟩ | ⟨hno, -⟩
  · rw [e1]
    exact ha e' he' e he i (by rw [hk']; exact hs) (hk'.trans hk.symm)
  · exact absurd hk (hno hs e he)

theorem run_agree (κ : I → S → Option A) (P : Log S B → S) (t : ℕ → (i : I) → B i) : ∀ j, Agree κ (run κ P t j)
  | 0 => fun _ h => by simp [run] at h
  | j + 1 => by
    have ih := run_agree κ P t j
    intro e he e' he' i hs hk
    rw [run] at he he'
    rcases List.mem_cons.mp he with rfl | he <;> rcases List.mem_cons.mp he' with rfl | he'
    · rfl
    · exact reply_agree ih _ he' hs hk.symm
    · exact (reply_agree ih _ he (by rw [← hk]; exact hs) hk).symm
    · exact ih e he e' he' i hs hk

theorem run_congr (κ : I → S → Option A) (P : Log S B → S) {t t' : ℕ → (i : I) → B i} :
    ∀ j, (∀ i < j, t i = t' i) → run κ P t j = run κ P t' j
  | 0, _ => rfl
  | j + 1, h => by
    rw [run, run, run_congr κ P j fun i hi => h i (by omega), h j (by omega)]

theorem run_mono (κ : I → S → Option A) (P : Log S B → S) (t : ℕ → (i : I) → B i) {j Q : ℕ} (h : j ≤ Q) :
    ∀ e ∈ run κ P t j, e ∈ run κ P t Q := by
  induction Q, h using Nat.le_induction with
  | base => exact fun _ => id
  | succ Q _ ih => exact fun e he => List.mem_cons_of_mem _ (ih e he)

/-- Luck that depends on what has been asked: `Lucky i s c` says that answer `i` is a lucky one. -/
structure Luck (κ : I → S → Option A) (rank : I → ℕ) (clash : S → S → Prop) (Lucky : I → S → ((i : I) → B i) → Prop) :
    Prop where
  earlier : ∀ {i j s s'}, rank j ≤ rank i → κ i s ≠ none → κ i s = κ i s' → κ j s ≠ none ∧ κ j s = κ j s'
  asked : ∀ {i s c}, Lucky i s c → κ i s ≠ none
  answers : ∀ {i s c c'}, (∀ j, rank j ≤ rank i → c j = c' j) → Lucky i s c → Lucky i s c'
  same : ∀ {i s s' c}, κ i s ≠ none → κ i s = κ i s' → ¬ clash s s' → Lucky i s c → Lucky i s' c

variable [DecidableEq I] {κ : I → S → Option A} {rank : I → ℕ} {clash : S → S → Prop}
  {Lucky : I → S → ((i : I) → B i) → Prop}

/-- One of the new answers is lucky. -/
def NewLuck (κ : I → S → Option A) (Lucky : I → S → ((i : I) → B i) → Prop) (h : Log S B) (s : S) (new : (i : I) → B i) :
    Prop := ∃ i, Lucky i s (Function.update (reply κ h s new) i (new i))

theorem not_lucky_reply (hl : Luck κ rank clash Lucky) {h : Log S B} (ha : Agree κ h)
    (hold : ∀ e ∈ h, ∀ i, ¬ Lucky i e.1 e.2) {s : S} (hc : ∀ e ∈ h, ¬ clash s e.1) {new : (i : I) → B i}
    (hn : ¬ NewLuck κ Lucky h s new) (i : I) : ¬ Lucky i s (reply κ h s new) := by
  intro hi
  rcases reply_cases (κ := κ) (h := h) s new i with ⟨e, he, hs, hk, -⟩ | ⟨-, e1⟩
  · refine hold e he i (hl.same hs hk.symm (hc e he) (hl.answers (fun j hj => ?_) hi))
    obtain ⟨h1, h2⟩ := hl.earlier hj hs hk.symm
    exact reply_agree ha new he h1 h2.symm
  · refine hn ⟨i, ?_⟩
    rw [← e1, Function.update_eq_self]
    exact hi

/-- If some answer is lucky in the end, and nothing clashes, some new answer was lucky when it was drawn. -/
theorem exists_newLuck (hl : Luck κ rank clash Lucky) (P : Log S B → S) (t : ℕ → (i : I) → B i) :
    ∀ Q, (∀ e ∈ run κ P t Q, ∀ e' ∈ run κ P t Q, ¬ clash e.1 e'.1) → (∃ e ∈ run κ P t Q, ∃ i, Lucky i e.1 e.2) →
      ∃ j < Q, NewLuck κ Lucky (run κ P t j) (P (run κ P t j)) (t j)
  | 0, _, ⟨e, he, _⟩ => by simp [run] at he
  | Q + 1, hc, ⟨e, he, i, hi⟩ => by
    by_contra hno
    push Not at hno
    have hold : ∀ e ∈ run κ P t Q, ∀ i, ¬ Lucky i e.1 e.2 := by
      intro e he i hi
      obtain ⟨j, hj, h⟩ := exists_newLuck hl P t Q
        (fun e he e' he' => hc e (List.mem_cons_of_mem _ he) e' (List.mem_cons_of_mem _ he')) ⟨e, he, i, hi⟩
      exact hno j (by omega) h
    rcases List.mem_cons.mp he with rfl | he
    · exact not_lucky_reply hl (run_agree κ P t Q) hold
        (fun e he => hc _ List.mem_cons_self e (List.mem_cons_of_mem _ he)) (hno Q (by omega)) i hi
    · exact hold e he i hi

/-! ### Counting -/

/-- One coordinate of a random choice lies in a small set that depends on the others only. -/
theorem count_coord {ι : Type} [Fintype ι] [DecidableEq ι] {C : ι → Type} [∀ i, Fintype (C i)] [∀ i, Nonempty (C i)] (k : ι)
    {p : ((i : ι) → C i) → C k → Prop} (hp : ∀ t v a, p (Function.update t k v) a ↔ p t a) {N q : ℕ}
    (h : ∀ t, count (p t) * q ≤ N * Fintype.card (C k)) :
    count (fun t : (i : ι) → C i => p t (t k)) * q ≤ N * Fintype.card ((i : ι) → C i) := by
  classical
  have e := count_equiv (A := (i : ι) → C i) (B := C k × ((j : {j // j ≠ k}) → C j)) (p := fun t => p t (t k))
    (q := fun c => p ((Equiv.piSplitAt k C).symm c) c.1) (Equiv.piSplitAt k C) fun t => by
      rw [Equiv.symm_apply_apply]
      rfl
  obtain ⟨a₀⟩ := (inferInstance : Nonempty (C k))
  have hc : Fintype.card ((i : ι) → C i) = Fintype.card (C k) * Fintype.card ((j : {j // j ≠ k}) → C j) := by
    rw [← Fintype.card_prod]
    exact Fintype.card_congr (Equiv.piSplitAt k C)
  have key : ∀ u : (j : {j // j ≠ k}) → C j, (count fun a => p ((Equiv.piSplitAt k C).symm (a, u)) a) * q ≤
      N * Fintype.card (C k) := by
    intro u
    refine le_trans (Nat.mul_le_mul_right _ (count_mono fun a ha => ?_)) (h ((Equiv.piSplitAt k C).symm (a₀, u)))
    rw [← hp _ a]
    convert ha using 1
    funext j
    by_cases hj : j = k
    · subst hj
      simp [Equiv.piSplitAt]
    · rw [Function.update_of_ne hj]
      simp [Equiv.piSplitAt, hj]
  rw [e, count_swap, count_prod, hc, Finset.sum_mul]
  refine (Finset.sum_le_sum fun u _ => key u).trans (le_of_eq ?_)
  rw [Finset.sum_const, Finset.card_univ, smul_eq_mul]
  ring

theorem count_any {A : Type} [Fintype A] [Fintype I] {p : I → A → Prop} : count (fun a => ∃ i, p i a) ≤ ∑ i, count (p i) := by
  classical
  unfold count
  refine le_trans (Finset.card_le_card (t := Finset.univ.biUnion fun i => Finset.univ.filter (p i)) fun a ha => ?_)
    Finset.card_biUnion_le
  simp only [Finset.mem_filter, Finset.mem_univ, true_and, Finset.mem_biUnion] at ha ⊢
  exact ha

variable [Fintype I] [∀ i, Fintype (B i)] [∀ i, Zero (B i)]

/-- Random answers for which one of `Q` moves gets a lucky answer, and nothing clashes. -/
theorem count_luck (hl : Luck κ rank clash Lucky) {N : I → ℕ} {q : ℕ}
    (hN : ∀ i s c, count (fun v => Lucky i s (Function.update c i v)) * q ≤ N i * Fintype.card (B i))
    (P : Log S B → S) (Q : ℕ) :
    count (fun t : Fin Q → (i : I) → B i => (∀ e ∈ run κ P (tape t) Q, ∀ e' ∈ run κ P (tape t) Q, ¬ clash e.1 e'.1) ∧
      ∃ e ∈ run κ P (tape t) Q, ∃ i, Lucky i e.1 e.2) * q ≤ Q * (∑ i, N i) * Fintype.card (Fin Q → (i : I) → B i) := by
  have : ∀ i, Nonempty (B i) := fun i => ⟨0⟩
  have hnew : ∀ h s, count (NewLuck κ Lucky h s) * q ≤ (∑ i, N i) * Fintype.card ((i : I) → B i) := by
    intro h s
    refine le_trans (Nat.mul_le_mul_right _ count_any) ?_
    rw [Finset.sum_mul, Finset.sum_mul]
    refine Finset.sum_le_sum fun i _ => ?_
    refine count_coord (C := B) i (p := fun new v => Lucky i s (Function.update (reply κ h s new) i v)) ?_ fun new => hN i s _
    intro new w v
    have : Function.update (reply κ h s (Function.update new i w)) i v = Function.update (reply κ h s new) i v := by
      funext j
      by_cases hj : j = i
      · subst hj
        simp
      · rw [Function.update_of_ne hj, Function.update_of_ne hj]
        exact reply_congr (Function.update_of_ne hj _ _)
    rw [this]
  have hstep : ∀ j < Q, count (fun t : Fin Q → (i : I) → B i =>
      NewLuck κ Lucky (run κ P (tape t) j) (P (run κ P (tape t) j)) (tape t j)) * q ≤
        (∑ i, N i) * Fintype.card (Fin Q → (i : I) → B i) := by
    intro j hj
    have e : ∀ t : Fin Q → (i : I) → B i, tape t j = t ⟨j, hj⟩ := fun t => dif_pos hj
    simp only [e]
    refine count_coord (C := fun _ : Fin Q => (i : I) → B i) ⟨j, hj⟩
      (p := fun t c => NewLuck κ Lucky (run κ P (tape t) j) (P (run κ P (tape t) j)) c) ?_ fun t => hnew _ _
    intro t v a
    have : run κ P (tape (Function.update t ⟨j, hj⟩ v)) j = run κ P (tape t) j := by
      refine run_congr κ P j fun i hi => ?_
      unfold tape
      rw [dif_pos (by omega), dif_pos (by omega), Function.update_of_ne]
      intro h
      have := congrArg Fin.val h
      dsimp only at this
      omega
    rw [this]
  have := count_exists hstep
  refine le_trans (Nat.mul_le_mul_right _ (count_mono fun t ⟨hc, he⟩ => ?_)) (this.trans (le_of_eq (by ring)))
  exact exists_newLuck hl P (tape t) Q hc he

/-- Random answers, each taken from another move, are as random as one set of them. -/
theorem count_diagonal {Q : ℕ} (σ : I → Fin Q) (p : ((i : I) → B i) → Prop) :
    count (fun t : Fin Q → (i : I) → B i => p fun i => t (σ i) i) * Fintype.card ((i : I) → B i) =
      count p * Fintype.card (Fin Q → (i : I) → B i) := by
  classical
  let T := Fin Q → (i : I) → B i
  let C := (i : I) → B i
  have h1 : count (fun c : T × C => p fun i => c.1 (σ i) i) = count (fun t : T => p fun i => t (σ i) i) * Fintype.card C := by
    rw [count_swap, count_prod]
    simp only [Finset.sum_const, Finset.card_univ, smul_eq_mul]
    ring
  have h2 : count (fun c : T × C => p c.2) = count p * Fintype.card T := by
    rw [count_prod]
    simp only [Finset.sum_const, Finset.card_univ, smul_eq_mul]
    ring
  have swap : Function.Involutive fun c : T × C =>
      ((fun j i => if j = σ i then c.2 i else c.1 j i, fun i => c.1 (σ i) i) : T × C) := by
    rintro ⟨t, c⟩
    refine Prod.ext ?_ ?_
    · funext j i
      by_cases hj : j = σ i
      · subst hj; simp
      · simp [hj]
    · funext i
      simp
  have h3 := count_equiv (A := T × C) (B := T × C) (Function.Involutive.toPerm _ swap) (p := fun c => p fun i => c.1 (σ i) i)
    (q := fun c => p c.2) fun c => by rfl
  change count (fun t : T => p fun i => t (σ i) i) * Fintype.card C = count p * Fintype.card T
  rw [← h1, ← h2, h3]

end Halo2.Oracle
