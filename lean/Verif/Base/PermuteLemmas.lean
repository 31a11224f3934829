import Verif.Base.Permute
import Mathlib.Algebra.BigOperators.Fin
import Mathlib.Algebra.BigOperators.Group.List.Basic

namespace Base
variable {F : Type} [Field F] {T : ℕ} [NeZero T]
open Matrix

omit [NeZero T] in
theorem foldl_add_eq {α : Type} (f : α → F) (l : List α) (a : F) :
    l.foldl (fun acc j => acc + f j) a = a + (l.map f).sum := by
  induction l generalizing a with
  | nil => simp
  | cons x l ih => simp [ih, add_assoc]

omit [NeZero T] in
theorem applyMds_eq (mds : Mds F T) (s : State F T) : applyMds mds s = Matrix.of mds *ᵥ s := by
  funext i
  simp only [applyMds, foldl_add_eq, Matrix.mulVec, dotProduct, zero_add, Matrix.of_apply]
  rw [← List.ofFn_eq_map, List.sum_ofFn]

omit [NeZero T] in
theorem matMul_eq (mds : Mds F T) (s : State F T) : matMul mds s = Matrix.of mds *ᵥ s :=
  applyMds_eq mds s

omit [NeZero T] in
theorem fullRound_eq (S : RSpec F) (mds : Mds F T) (s c : State F T) :
    fullRound S mds s c = Spec.fullRound S.sbox (Matrix.of mds) c s := by
  simp [fullRound, Spec.fullRound, applyMds_eq]

theorem partRound_eq (S : RSpec F) (mds : Mds F T) (s c : State F T) :
    partRound S mds s c = Spec.partialRound S.sbox (Matrix.of mds) c s := by
  simp only [partRound, Spec.partialRound, applyMds_eq]
  congr 1
  funext i
  by_cases h : i = 0
  · subst h; simp
  · simp [h]

/-- The list of round closures of `permute`. -/
def roundList (S : RSpec F) (mds : Mds F T) : List (State F T → State F T → State F T) :=
  List.replicate (S.fullRounds / 2) (fullRound S mds) ++
    List.replicate S.partialRounds (partRound S mds) ++
    List.replicate (S.fullRounds / 2) (fullRound S mds)

theorem permute_def (S : RSpec F) (mds : Mds F T) (rc : List (State F T)) (s : State F T) :
    permute S mds rc s = ((roundList S mds).zip rc).foldl (fun s r => r.1 s r.2) s := rfl

theorem roundList_length (S : RSpec F) (mds : Mds F T) :
    (roundList S mds).length = 2 * (S.fullRounds / 2) + S.partialRounds := by
  simp [roundList]; omega

theorem roundList_getElem (S : RSpec F) (mds : Mds F T) (r : ℕ) (h : r < (roundList S mds).length)
    (s c : State F T) :
    (roundList S mds)[r] s c =
      if r < S.fullRounds / 2 ∨ S.fullRounds / 2 + S.partialRounds ≤ r
      then fullRound S mds s c else partRound S mds s c := by
  have key : (roundList S mds)[r] =
      if r < S.fullRounds / 2 ∨ S.fullRounds / 2 + S.partialRounds ≤ r
      then fullRound S mds else partRound S mds := by
    have h' := h
    rw [roundList_length] at h'
    unfold roundList at h ⊢
    rw [List.getElem_append]
    split
    · rename_i h1
      simp only [List.length_append, List.length_replicate] at h1
      rw [List.getElem_append]
      split
      · rename_i h2
        simp only [List.length_replicate] at h2
        simp [h2]
      · rename_i h2
        simp only [List.length_replicate] at h2
        rw [if_neg (by omega)]; simp
    · rename_i h1
      simp only [List.length_append, List.length_replicate] at h1
      rw [if_pos (by omega)]; simp
  rw [key]; split <;> rfl

omit [Field F] [NeZero T] in
theorem foldl_zip_eq_range {α β : Type} (l : List α) (m : List β) (g : α → β → State F T → State F T)
    (f : ℕ → State F T → State F T) (hlen : l.length ≤ m.length)
    (h : ∀ i (h1 : i < l.length) (h2 : i < m.length) s, g l[i] m[i] s = f i s) (s : State F T) :
    (l.zip m).foldl (fun s r => g r.1 r.2 s) s = (List.range l.length).foldl (fun s i => f i s) s := by
  induction l generalizing m s f with
  | nil => simp
  | cons x l ih =>
    cases m with
    | nil => simp at hlen
    | cons y m =>
      simp only [List.length_cons, List.range_succ_eq_map, List.zip_cons_cons, List.foldl_cons,
        List.foldl_map]
      rw [ih m (fun i => f (i + 1)) (by simpa using hlen)]
      · have := h 0 (by simp) (by simp) s
        simp only [List.getElem_cons_zero] at this
        rw [this]
      · intro i h1 h2 s
        have := h (i + 1) (by simpa using h1) (by simpa using h2) s
        simpa using this

/-- Refinement of `permute` to the specification. -/
theorem permute_eq_spec (S : RSpec F) (mds : Mds F T) (rc : List (State F T)) (s : State F T)
    (hrc : 2 * (S.fullRounds / 2) + S.partialRounds ≤ rc.length) :
    permute S mds rc s =
      Spec.poseidon S.sbox (Matrix.of mds) (S.fullRounds / 2) S.partialRounds
        (fun r => rc.getD r 0) s := by
  rw [permute_def]
  rw [foldl_zip_eq_range (roundList S mds) rc (fun f c s => f s c)
    (fun r s => Spec.round S.sbox (Matrix.of mds) (S.fullRounds / 2) S.partialRounds
        (fun r => rc.getD r 0) r s) (by rw [roundList_length]; exact hrc)]
  · rw [roundList_length]; rfl
  · intro i h1 h2 s
    rw [roundList_getElem]
    simp only [Spec.round, List.getD_eq_getElem?_getD, List.getElem?_eq_getElem h2,
      Option.getD_some, fullRound_eq, partRound_eq]

/-! ### Constant propagation -/

omit [NeZero T] in
theorem headOf_add_tailOf [NeZero T] (a : State F T) : headOf a + tailOf a = a := by
  funext i; simp only [headOf, tailOf, Pi.add_apply]; split_ifs <;> simp

/-- Moving the tail of a partial round's constants through the matrix into the next round. -/
theorem partRound_shift (S : RSpec F) (mds : Mds F T) (s a : State F T) :
    partRound S mds s a = partRound S mds s (headOf a) + matMul mds (tailOf a) := by
  simp only [partRound, applyMds_eq, matMul_eq, ← Matrix.mulVec_add]
  congr 1
  funext i
  by_cases h : i = 0
  · subst h; simp [headOf, tailOf]
  · simp [h, headOf, tailOf]

/-- All round closures only depend on `state + constants`. -/
theorem round_shift (S : RSpec F) (mds : Mds F T) (f : State F T → State F T → State F T)
    (hf : f = fullRound S mds ∨ f = partRound S mds) (s d b : State F T) :
    f (s + d) b = f s (fun k => b k + d k) := by
  rcases hf with rfl | rfl
  · simp only [fullRound]; congr 1; funext i; simp [add_assoc, add_comm (d i)]
  · simp only [partRound]
    have : (fun i => (s + d) i + b i) = fun i => s i + (b i + d i) := by
      funext i; simp [add_assoc, add_comm (d i)]
    rw [this]
    simp [add_assoc, add_comm (d 0)]

theorem roundList_mem (S : RSpec F) (mds : Mds F T) (f) (h : f ∈ roundList S mds) :
    f = fullRound S mds ∨ f = partRound S mds := by
  simp only [roundList, List.mem_append, List.mem_replicate] at h
  tauto

/-- One step of the compact loop does not change the permutation, provided it is applied to a partial
round and both rounds exist. -/
theorem foldl_zip_compactStep (S : RSpec F) (mds : Mds F T)
    (l : List (State F T → State F T → State F T)) (i : ℕ) (hi : i + 1 < l.length)
    (hp : l[i] = partRound S mds) (hn : ∀ f ∈ l, f = fullRound S mds ∨ f = partRound S mds)
    (rc rc' : List (State F T)) (h : compactStep mds rc i = .ok rc') (s : State F T) :
    (l.zip rc').foldl (fun s r => r.1 s r.2) s = (l.zip rc).foldl (fun s r => r.1 s r.2) s := by
  induction i generalizing l rc rc' s with
  | zero =>
    match l, rc with
    | f :: g :: l, [] => simp [compactStep] at h
    | f :: g :: l, [a] => simp [compactStep] at h
    | f :: g :: l, a :: b :: rc =>
      simp only [List.getElem_cons_zero] at hp
      subst hp
      simp [compactStep] at h
      subst h
      have hg := hn g (by simp)
      simp only [List.zip_cons_cons, List.foldl_cons]
      rw [partRound_shift S mds s a, round_shift S mds g hg]
    | [f], _ => simp at hi
    | [], _ => simp at hi
  | succ i ih =>
    match l, rc with
    | [], _ => simp at hi
    | f :: l, [] => simp [compactStep] at h
    | f :: l, a :: rc =>
      have : ∃ rc'', compactStep mds rc i = .ok rc'' ∧ rc' = a :: rc'' := by
        unfold compactStep at h ⊢
        simp only [List.getElem?_cons_succ] at h
        cases hx : rc[i]? with
        | none => simp [hx] at h
        | some x =>
          simp only [hx] at h ⊢
          simp only [List.set_cons_succ, List.getElem?_cons_succ] at h
          cases hy : (rc.set i (headOf x))[i + 1]? with
          | none => simp [hy] at h
          | some y =>
            simp only [hy] at h ⊢
            exact ⟨_, rfl, by simpa using h.symm⟩
      obtain ⟨rc'', h1, rfl⟩ := this
      simp only [List.zip_cons_cons, List.foldl_cons]
      exact ih l (by simpa using hi) (by simpa using hp) (fun f hf => hn f (by simp [hf])) rc rc'' h1 _

omit [NeZero T] in
theorem compactStep_length [NeZero T] (mds : Mds F T) (rc rc' : List (State F T)) (i : ℕ)
    (h : compactStep mds rc i = .ok rc') : rc'.length = rc.length := by
  simp only [compactStep] at h
  split at h
  · simp at h
  · split at h
    · simp at h
    · simp at h; subst h; simp

theorem compactStep_ok (mds : Mds F T) (rc : List (State F T)) (i : ℕ) (h : i + 1 < rc.length) :
    ∃ rc', compactStep mds rc i = .ok rc' := by
  simp only [compactStep]
  rw [List.getElem?_eq_getElem (show i < rc.length by omega)]
  simp only
  rw [List.getElem?_eq_getElem (by simpa using h)]
  exact ⟨_, rfl⟩

/-- Entries of the list after one step. -/
theorem compactStep_getElem? (mds : Mds F T) (rc rc' : List (State F T)) (i : ℕ)
    (h : compactStep mds rc i = .ok rc') :
    rc'[i]? = (rc[i]?).map headOf ∧ (∀ j, j ≠ i → j ≠ i + 1 → rc'[j]? = rc[j]?) := by
  simp only [compactStep] at h
  split at h
  · simp at h
  · rename_i a ha
    have hi : i < rc.length := by
      by_contra hc; simp [List.getElem?_eq_none (Nat.not_lt.mp hc)] at ha
    split at h
    · simp at h
    · simp at h; subst h
      constructor
      · rw [List.getElem?_set_ne (by omega), List.getElem?_set_self hi, ha]; rfl
      · intro j h1 h2
        rw [List.getElem?_set_ne (by omega), List.getElem?_set_ne (by omega)]

theorem compactLoop_spec (S : RSpec F) (mds : Mds F T) (n i : ℕ)
    (l : List (State F T → State F T → State F T)) (rc : List (State F T))
    (hl : i + n < l.length ∨ n = 0) (hrc : i + n < rc.length ∨ n = 0)
    (hp : ∀ j (h : j < l.length), i ≤ j → j < i + n → l[j] = partRound S mds)
    (hn : ∀ f ∈ l, f = fullRound S mds ∨ f = partRound S mds) :
    ∃ rc', compactLoop mds i n rc = .ok rc' ∧ rc'.length = rc.length ∧
      (∀ s, (l.zip rc').foldl (fun s r => r.1 s r.2) s = (l.zip rc).foldl (fun s r => r.1 s r.2) s) ∧
      (∀ j c, i ≤ j → j < i + n → rc'[j]? = some c → ∀ k, k ≠ 0 → c k = 0) ∧
      (∀ j, j < i → rc'[j]? = rc[j]?) ∧ (∀ j, i + n < j → rc'[j]? = rc[j]?) := by
  induction n generalizing i rc with
  | zero => exact ⟨rc, rfl, rfl, fun _ => rfl, fun j c h1 h2 => by omega, fun _ _ => rfl, fun _ _ => rfl⟩
  | succ n ih =>
    obtain ⟨rc1, h1⟩ := compactStep_ok mds rc i (by omega)
    have hlen := compactStep_length mds rc rc1 i h1
    obtain ⟨rc', e1, e2, e3, e4, e5, e6⟩ := ih (i + 1) rc1 (by omega) (by omega)
      (fun j h a b => hp j h (by omega) (by omega))
    obtain ⟨g1, g2⟩ := compactStep_getElem? mds rc rc1 i h1
    refine ⟨rc', ?_, by omega, ?_, ?_, ?_, ?_⟩
    · simp only [compactLoop, h1]; exact e1
    · intro s
      rw [e3 s]
      exact foldl_zip_compactStep S mds l i (by omega) (hp i (by omega) (by omega) (by omega)) hn rc rc1 h1 s
    · intro j c a b hc k hk
      by_cases hj : j = i
      · subst hj
        rw [e5 j (by omega), g1] at hc
        obtain ⟨x, _, rfl⟩ := Option.map_eq_some_iff.mp hc
        simp [headOf, hk]
      · exact e4 j c (by omega) (by omega) hc k hk
    · intro j hj
      rw [e5 j (by omega), g2 j (by omega) (by omega)]
    · intro j hj
      rw [e6 j (by omega), g2 j (by omega) (by omega)]

/-- The compact constants compute the same permutation. -/
theorem compactConstants_spec (S : RSpec F) (mds : Mds F T) (raw : List (State F T))
    (hf : 2 ≤ S.fullRounds) (hlen : S.fullRounds / 2 + S.partialRounds < raw.length) :
    ∃ rc, compactConstants S.fullRounds S.partialRounds mds raw = .ok rc ∧ rc.length = raw.length ∧
      (∀ s, permute S mds rc s = permute S mds raw s) ∧
      (∀ j c, S.fullRounds / 2 ≤ j → j < S.fullRounds / 2 + S.partialRounds → rc[j]? = some c →
        ∀ k, k ≠ 0 → c k = 0) ∧
      (∀ j, j < S.fullRounds / 2 → rc[j]? = raw[j]?) ∧
      (∀ j, S.fullRounds / 2 + S.partialRounds < j → rc[j]? = raw[j]?) := by
  obtain ⟨rc, h1, h2, h3, h4, h5, h6⟩ := compactLoop_spec S mds S.partialRounds (S.fullRounds / 2)
    (roundList S mds) raw (by rw [roundList_length]; omega) (by omega) (by
      intro j h a b
      simp only [roundList] at h ⊢
      rw [List.getElem_append_left (by simp; omega), List.getElem_append_right (by simpa using a)]
      simp) (fun f hf => roundList_mem S mds f hf)
  exact ⟨rc, h1, h2, fun s => by rw [permute_def, permute_def, h3], h4, h5, h6⟩

omit [NeZero T] in
theorem sboxCompact_eq (x : F) : sboxCompact x = sboxPow x := by
  simp only [sboxCompact, sboxPow]; ring

theorem permute_congr_sbox (f p : ℕ) (s1 s2 : F → F) (h : ∀ x, s1 x = s2 x) (mds : Mds F T)
    (rc : List (State F T)) (s : State F T) :
    permute ⟨f, p, s1⟩ mds rc s = permute ⟨f, p, s2⟩ mds rc s := by
  have : s1 = s2 := funext h
  rw [this]

end Base
