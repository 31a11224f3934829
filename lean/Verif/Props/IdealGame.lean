import Verif.Props.IdealDigestLemmas

/-!
# Games with the permutation and with digests

An adversary asks the permutation and its inverse and makes calls of a hash function, in any order. In the ideal game the
calls are answered with random field elements instead.
-/

set_option linter.unusedVariables false
set_option linter.unusedSectionVars false

namespace Props
open Base Collide Ideal

/-- What an adversary does next: ask the permutation or its inverse at a point, or make a call. -/
inductive Move (S C : Type)
  | ask (q : Bool × S)
  | call (x : C)

/-- What an adversary sees: the values of the permutation at a point, or the answer to a call. -/
inductive Event (S C D : Type)
  | asked (e : Entry S)
  | called (x : C) (d : D)

namespace Game
variable {S C D : Type}

/-- The values of the permutation seen, newest first. -/
def asks : List (Event S C D) → List (Entry S)
  | [] => []
  | .asked e :: τ => e :: asks τ
  | .called _ _ :: τ => asks τ

/-- The calls with the number of the step and the answer, newest first. -/
def calls : List (Event S C D) → List (C × ℕ × D)
  | [] => []
  | .asked _ :: τ => calls τ
  | .called x d :: τ => (x, τ.length, d) :: calls τ

/-- The first `k` steps of the adversary `A`, newest first; `ans x i` is the answer to the call of `x` in step `i`. -/
def play (A : List (Event S C D) → Move S C) (π : Equiv.Perm S) (ans : C → ℕ → D) : ℕ → List (Event S C D)
  | 0 => []
  | k + 1 => (match A (play A π ans k) with
    | .ask q => .asked (answer π q)
    | .call x => .called x (ans x k)) :: play A π ans k

theorem play_length (A : List (Event S C D) → Move S C) (π : Equiv.Perm S) (ans : C → ℕ → D) (k : ℕ) :
    (play A π ans k).length = k := by
  induction k with
  | zero => rfl
  | succ k ih => rw [play, List.length_cons, ih]

theorem answer_eq (π π₀ : Equiv.Perm S) (q : Bool × S) :
    answer π q = answer π₀ q ↔ π (answer π₀ q).2.1 = (answer π₀ q).2.2 := by
  obtain ⟨d, x⟩ := q
  cases d
  · simp only [answer, Prod.mk.injEq, true_and, and_true]
    rw [Equiv.symm_apply_eq, eq_comm]
  · simp [answer]

/-- A transcript is that of another permutation and other answers if they agree with what it contains. -/
theorem play_iff (A : List (Event S C D) → Move S C) (π₀ π : Equiv.Perm S) (ans₀ ans : C → ℕ → D) (k : ℕ) :
    play A π ans k = play A π₀ ans₀ k ↔
      Extends π (asks (play A π₀ ans₀ k)) ∧ ∀ p ∈ calls (play A π₀ ans₀ k), ans p.1 p.2.1 = p.2.2 := by
  induction k with
  | zero => simp [play, asks, calls, Extends]
  | succ k ih =>
    rw [play, play, List.cons.injEq]
    cases h : A (play A π₀ ans₀ k) with
    | ask q =>
      simp only [asks, calls, Extends, List.forall_mem_cons]
      rw [and_assoc, ← Extends, ← ih, ← answer_eq]
      constructor
      · rintro ⟨h1, h2⟩
        rw [h2, h] at h1
        exact ⟨by injection h1, h2⟩
      · rintro ⟨h1, h2⟩
        rw [h2, h]
        exact ⟨by simp only [h1], rfl⟩
    | call x =>
      simp only [asks, calls, List.forall_mem_cons, play_length]
      rw [and_left_comm, ← ih]
      constructor
      · rintro ⟨h1, h2⟩
        rw [h2, h] at h1
        exact ⟨by injection h1, h2⟩
      · rintro ⟨h1, h2⟩
        rw [h2, h]
        exact ⟨by simp only [h1], rfl⟩

theorem play_extends (A : List (Event S C D) → Move S C) (π : Equiv.Perm S) (ans : C → ℕ → D) (k : ℕ) :
    Extends π (asks (play A π ans k)) := ((play_iff A π π ans ans k).1 rfl).1

theorem calls_lt (A : List (Event S C D) → Move S C) (π : Equiv.Perm S) (ans : C → ℕ → D) (k : ℕ) :
    ∀ p ∈ calls (play A π ans k), p.2.1 < k := by
  induction k with
  | zero => intro p hp; exact absurd hp List.not_mem_nil
  | succ k ih =>
    rw [play]
    cases h : A (play A π ans k) with
    | ask q => exact fun p hp => (ih p hp).trans (Nat.lt_succ_self k)
    | call x =>
      simp only [calls, List.forall_mem_cons, play_length]
      exact ⟨Nat.lt_succ_self k, fun p hp => (ih p hp).trans (Nat.lt_succ_self k)⟩

theorem calls_nodup (A : List (Event S C D) → Move S C) (π : Equiv.Perm S) (ans : C → ℕ → D) (k : ℕ) :
    ((calls (play A π ans k)).map fun p => p.2.1).Nodup := by
  induction k with
  | zero => exact List.nodup_nil
  | succ k ih =>
    rw [play]
    cases h : A (play A π ans k) with
    | ask q => exact ih
    | call x =>
      simp only [calls, List.map_cons, play_length]
      refine List.nodup_cons.2 ⟨fun hk => ?_, ih⟩
      obtain ⟨p, hp, h⟩ := List.mem_map.1 hk
      exact absurd (calls_lt A π ans k p hp) (by omega)

/-! ### The questions alone -/

/-- The adversary goes on until the next question. -/
def settle (A : List (Event S C D) → Move S C) (ans : C → ℕ → D) : ℕ → List (Event S C D) → List (Event S C D)
  | 0, τ => τ
  | k + 1, τ => match A τ with
    | .ask _ => τ
    | .call x => settle A ans k (.called x (ans x τ.length) :: τ)

/-- What the adversary has seen before the next question. -/
def rebuild (A : List (Event S C D) → Move S C) (ans : C → ℕ → D) (N : ℕ) : List (Entry S) → List (Event S C D)
  | [] => settle A ans N []
  | e :: H => settle A ans (N - (rebuild A ans N H).length - 1) (.asked e :: rebuild A ans N H)

/-- The questions of an adversary whose calls are answered by `ans`. -/
def questions (A : List (Event S C D) → Move S C) (ans : C → ℕ → D) (N : ℕ) (s₀ : S) : Strategy S := fun H =>
  match A (rebuild A ans N H) with
  | .ask q => q
  | .call _ => (true, s₀)

theorem asks_transcript (A : List (Event S C D) → Move S C) (π : Equiv.Perm S) (ans : C → ℕ → D) (N : ℕ) (s₀ : S) (k : ℕ)
    (hk : k ≤ N) : rebuild A ans N (asks (play A π ans k)) = settle A ans (N - k) (play A π ans k) ∧
      transcript (questions A ans N s₀) π (asks (play A π ans k)).length = asks (play A π ans k) := by
  induction k with
  | zero => exact ⟨rfl, rfl⟩
  | succ k ih =>
    obtain ⟨h1, h2⟩ := ih (by omega)
    obtain ⟨j, hj⟩ : ∃ j, N - k = j + 1 := ⟨N - k - 1, by omega⟩
    have hj' : N - (k + 1) = j := by omega
    rw [hj] at h1
    rw [play, hj']
    cases h : A (play A π ans k) with
    | ask q =>
      simp only [asks]
      have h3 : settle A ans (j + 1) (play A π ans k) = play A π ans k := by rw [settle, h]
      rw [h3] at h1
      constructor
      · rw [rebuild, h1, play_length, hj, Nat.add_sub_cancel]
      · rw [List.length_cons, transcript, h2, questions, h1, h]
    | call x =>
      simp only [asks]
      refine ⟨?_, h2⟩
      rw [h1, settle, h, play_length]

theorem good_le {K : Type} {lab : S → K} {roots : Finset K} {B : Strategy S} {π : Equiv.Perm S} {k n : ℕ} (hk : k ≤ n)
    (h : Good lab roots (transcript B π n)) : Good lab roots (transcript B π k) := by
  induction n with
  | zero => rw [Nat.le_zero.1 hk]; exact h
  | succ n ih =>
    rcases Nat.lt_or_ge n k with h' | h'
    · rw [show k = n + 1 by omega]; exact h
    · exact ih h' h.1

/-! ### Random answers -/

section
variable {F : Type} [Fintype F] [DecidableEq F]

theorem agree_card {N : ℕ} (K : Finset (Fin N)) (f : Fin N → F) :
    (Finset.univ.filter fun g : Fin N → F => ∀ k ∈ K, g k = f k).card * Fintype.card F ^ K.card = Fintype.card F ^ N := by
  have : (Finset.univ.filter fun g : Fin N → F => ∀ k ∈ K, g k = f k) =
      Fintype.piFinset fun k => if k ∈ K then {f k} else Finset.univ := by
    ext g
    simp only [Finset.mem_filter, Finset.mem_univ, true_and, Fintype.mem_piFinset]
    refine forall_congr' fun k => ?_
    by_cases h : k ∈ K <;> simp [h]
  rw [this, Fintype.card_piFinset]
  have e : ∀ k : Fin N, (if k ∈ K then ({f k} : Finset F) else Finset.univ).card = if k ∈ K then 1 else Fintype.card F := by
    intro k
    by_cases h : k ∈ K <;> simp [h]
  rw [Finset.prod_congr rfl fun k _ => e k, Finset.prod_ite, Finset.prod_const_one, one_mul, Finset.prod_const, ← pow_add]
  congr 1
  have h1 := Finset.card_filter_add_card_filter_not (s := (Finset.univ : Finset (Fin N))) (fun k => k ∈ K)
  have h2 : (Finset.univ.filter fun k => k ∈ K) = K := by ext; simp
  rw [h2, Finset.card_univ, Fintype.card_fin] at h1
  omega

/-- The random answer in step `k`. -/
def sample [Zero F] {N : ℕ} (f : Fin N → F) (k : ℕ) : F := if h : k < N then f ⟨k, h⟩ else 0

end

section
variable {F : Type} [Field F] [Fintype F] [DecidableEq F] {C : Type}

/-- The answers in the ideal game. -/
def ideal {N : ℕ} (f : Fin N → F) : C → ℕ → Except Panic F := fun _ k => .ok (sample f k)

/-- Calls with capacity word and blocks `enc x`, of which those with `valid x` are allowed. -/
structure Calls (C F : Type) [Field F] where
  run : C → (State F 3 → State F 3) → Except Panic F
  enc : C → F × List (F × F)
  valid : C → Prop
  roots : Finset F
  run_eq : ∀ x, valid x → ∀ perm, run x perm = .ok (absorb (Spec.onTriples perm) ((enc x).1, 0, 0) (enc x).2).1
  inj : ∀ x y, valid x → valid y → enc x = enc y → x = y
  root : ∀ x, valid x → (enc x).1 ∈ roots
  ne_nil : ∀ x, valid x → (enc x).2 ≠ []
  length : ∀ x y, valid x → valid y → (enc x).1 = (enc y).1 → (enc x).2.length = (enc y).2.length

/-- The adversary has made allowed calls, all different, and has not asked for all evaluations of a call, with at most `n`
questions and at most `σ` blocks in the calls. -/
def Allowed (O : Calls C F) (n σ : ℕ) (π : Equiv.Perm (State F 3)) (τ : List (Event (State F 3) C (Except Panic F))) : Prop :=
  (asks τ).length ≤ n ∧ ((calls τ).map fun p => p.1).Nodup ∧ ((calls τ).map fun p => (O.enc p.1).2.length).sum ≤ σ ∧
    ∀ p ∈ calls τ, O.valid p.1 ∧ ¬ Asked π (asks τ) (O.enc p.1).1 (O.enc p.1).2

theorem Allowed.congr {O : Calls C F} {n σ : ℕ} {π π' : Equiv.Perm (State F 3)}
    {τ : List (Event (State F 3) C (Except Panic F))} (h : Extends π (asks τ)) (h' : Extends π' (asks τ))
    (hA : Allowed O n σ π τ) : Allowed O n σ π' τ :=
  ⟨hA.1, hA.2.1, hA.2.2.1, fun p hp => ⟨(hA.2.2.2 p hp).1, fun ha => (hA.2.2.2 p hp).2 (asked_congr h' h ha).2⟩⟩

variable {q N n σ : ℕ} (hq : Fintype.card F = q) (O : Calls C F)
  {A : List (Event (State F 3) C (Except Panic F)) → Move (State F 3) C}
include hq

/-- A good transcript is almost as frequent in the real game as in the ideal game. -/
theorem transcript_ge (π₀ : Equiv.Perm (State F 3)) (f₀ : Fin N → F)
    (hA : Allowed O n σ π₀ (play A π₀ (ideal f₀) N)) (hg : Good (fun s => s 0) O.roots (asks (play A π₀ (ideal f₀) N))) :
    {p : Equiv.Perm (State F 3) × (Fin N → F) | play A p.1 (ideal p.2) N = play A π₀ (ideal f₀) N}.ncard * q ≤
      {π : Equiv.Perm (State F 3) | play A π (fun x _ => O.run x π) N = play A π₀ (ideal f₀) N}.ncard * q ^ (N + 1) +
      σ * (σ + 2 * n + O.roots.card) *
        {p : Equiv.Perm (State F 3) × (Fin N → F) | play A p.1 (ideal p.2) N = play A π₀ (ideal f₀) N}.ncard := by
  classical
  obtain ⟨hn, hnd, hσ, hv⟩ := hA
  set τ := play A π₀ (ideal f₀) N with hτ
  have hlt := calls_lt A π₀ (ideal f₀) N
  have hpos := calls_nodup A π₀ (ideal f₀) N
  have hans : ∀ p ∈ calls τ, ideal f₀ p.1 p.2.1 = p.2.2 := ((play_iff A π₀ π₀ (ideal f₀) (ideal f₀) N).1 rfl).2
  rw [← hτ] at hlt hpos
  -- the samples that were used
  set K : Finset (Fin N) := Finset.univ.filter fun k => ∃ p ∈ calls τ, p.2.1 = k.1 with hK
  have hKc : K.card = (calls τ).length := by
    rw [← List.length_map (f := fun p : C × ℕ × Except Panic F => p.2.1), ← List.toFinset_card_of_nodup hpos]
    refine Finset.card_bij (fun k _ => k.1) ?_ (fun a _ b _ h => Fin.ext h) ?_
    · intro k hk
      obtain ⟨-, p, hp, h⟩ := Finset.mem_filter.1 hk
      exact List.mem_toFinset.2 (List.mem_map.2 ⟨p, hp, h⟩)
    · intro k hk
      obtain ⟨p, hp, rfl⟩ := List.mem_map.1 (List.mem_toFinset.1 hk)
      exact ⟨⟨p.2.1, hlt p hp⟩, Finset.mem_filter.2 ⟨Finset.mem_univ _, p, hp, rfl⟩, rfl⟩
  have hagree := agree_card K f₀
  rw [hq] at hagree
  have hfib : {p : Equiv.Perm (State F 3) × (Fin N → F) | play A p.1 (ideal p.2) N = τ}.ncard =
      {π : Equiv.Perm (State F 3) | Extends π (asks τ)}.ncard *
        (Finset.univ.filter fun g : Fin N → F => ∀ k ∈ K, g k = f₀ k).card := by
    rw [← Set.ncard_coe_finset, ← Set.ncard_prod]
    congr 1
    ext ⟨π, f⟩
    simp only [Set.mem_ofPred_eq, Set.mem_prod, Finset.coe_filter, Finset.mem_univ, true_and]
    rw [hτ, play_iff, ← hτ]
    refine and_congr_right fun _ => ?_
    constructor
    · intro h k hk
      obtain ⟨-, p, hp, hpk⟩ := Finset.mem_filter.1 hk
      have := (h p hp).trans (hans p hp).symm
      simp only [ideal, sample, hlt p hp, dif_pos, Except.ok.injEq] at this
      have e : (⟨p.2.1, hlt p hp⟩ : Fin N) = k := Fin.ext hpk
      rw [← e]
      exact this
    · intro h p hp
      rw [← hans p hp]
      simp only [ideal, sample, hlt p hp, dif_pos]
      rw [h _ (Finset.mem_filter.2 ⟨Finset.mem_univ _, p, hp, rfl⟩)]
  -- the calls
  set xs : Finset (F × List (F × F)) := ((calls τ).map fun p => O.enc p.1).toFinset with hxs
  have hmem : ∀ x ∈ xs, ∃ p ∈ calls τ, O.enc p.1 = x := fun x hx => List.mem_map.1 (List.mem_toFinset.1 hx)
  have hnd' : ((calls τ).map fun p => O.enc p.1).Nodup := by
    have : ((calls τ).map fun p => O.enc p.1) = ((calls τ).map fun p => p.1).map O.enc := by rw [List.map_map]; rfl
    rw [this]
    refine List.Nodup.map_on ?_ hnd
    intro x hx y hy h
    obtain ⟨p, hp, rfl⟩ := List.mem_map.1 hx
    obtain ⟨p', hp', rfl⟩ := List.mem_map.1 hy
    exact O.inj _ _ (hv p hp).1 (hv p' hp').1 h
  have hxc : xs.card = (calls τ).length := by rw [hxs, List.toFinset_card_of_nodup hnd', List.length_map]
  have hsum : ∑ x ∈ xs, x.2.length ≤ σ := by
    rw [hxs, List.sum_toFinset _ hnd', List.map_map]
    exact hσ
  have hd : ∃ d : F × List (F × F) → F, ∀ p ∈ calls τ, d (O.enc p.1) = sample f₀ p.2.1 := by
    refine ⟨fun y => if h : ∃ p ∈ calls τ, O.enc p.1 = y then sample f₀ h.choose.2.1 else 0, fun p hp => ?_⟩
    have h : ∃ p' ∈ calls τ, O.enc p'.1 = O.enc p.1 := ⟨p, hp, rfl⟩
    simp only [dif_pos h]
    rw [List.inj_on_of_nodup_map hnd' h.choose_spec.1 hp h.choose_spec.2]
  obtain ⟨d, hd⟩ := hd
  have key := digests_error hq hg (play_extends A π₀ (ideal f₀) N) (xs := xs)
    (fun x hx => by obtain ⟨p, hp, rfl⟩ := hmem x hx; exact O.root _ (hv p hp).1)
    (fun x hx => by obtain ⟨p, hp, rfl⟩ := hmem x hx; exact O.ne_nil _ (hv p hp).1)
    (fun x hx y hy h => by
      obtain ⟨p, hp, rfl⟩ := hmem x hx
      obtain ⟨p', hp', rfl⟩ := hmem y hy
      exact O.length _ _ (hv p hp).1 (hv p' hp').1 h)
    (fun x hx => by obtain ⟨p, hp, rfl⟩ := hmem x hx; exact (hv p hp).2) d hsum hn
  have hsub : {π : Equiv.Perm (State F 3) | Extends π (asks τ) ∧
      ∀ x ∈ xs, (absorb (Spec.onTriples π) (x.1, 0, 0) x.2).1 = d x}.ncard ≤
      {π : Equiv.Perm (State F 3) | play A π (fun x _ => O.run x π) N = τ}.ncard := by
    refine Set.ncard_le_ncard ?_ (Set.toFinite _)
    rintro π ⟨h1, h2⟩
    refine (play_iff A π₀ π (ideal f₀) _ N).2 ⟨h1, fun p hp => ?_⟩
    rw [← hans p hp, O.run_eq _ (hv p hp).1, h2 _ (List.mem_toFinset.2 (List.mem_map.2 ⟨p, hp, rfl⟩)), hd p hp]
    rfl
  rw [hfib]
  rw [hKc] at hagree
  rw [hxc] at key
  set a := {π : Equiv.Perm (State F 3) | Extends π (asks τ)}.ncard
  set t := {π : Equiv.Perm (State F 3) | Extends π (asks τ) ∧
      ∀ x ∈ xs, (absorb (Spec.onTriples π) (x.1, 0, 0) x.2).1 = d x}.ncard
  set c := (Finset.univ.filter fun g : Fin N → F => ∀ k ∈ K, g k = f₀ k).card
  set m := (calls τ).length
  calc a * c * q = a * q * c := by ring
    _ ≤ (t * q ^ (m + 1) + σ * (σ + 2 * n + O.roots.card) * a) * c := Nat.mul_le_mul_right _ key
    _ = t * (c * q ^ m * q) + σ * (σ + 2 * n + O.roots.card) * (a * c) := by ring
    _ = t * q ^ (N + 1) + σ * (σ + 2 * n + O.roots.card) * (a * c) := by rw [hagree, pow_succ]
    _ ≤ _ := Nat.add_le_add_right (Nat.mul_le_mul_right _ hsub) _

/-- Transcripts that are not good are rare in the ideal game. -/
theorem bad_pairs (hn3 : 2 * n ≤ q ^ 3) :
    {p : Equiv.Perm (State F 3) × (Fin N → F) | ¬ Good (fun s => s 0) O.roots (asks (play A p.1 (ideal p.2) N)) ∧
      (asks (play A p.1 (ideal p.2) N)).length ≤ n}.ncard * q ≤
      2 * n * (n + O.roots.card) * (q ^ N * (q ^ 3).factorial) := by
  classical
  have hS : Fintype.card (State F 3) = q ^ 3 := by rw [card_state, hq]; ring
  set P : Finset (Equiv.Perm (State F 3) × (Fin N → F)) := Finset.univ.filter fun p =>
    ¬ Good (fun s => s 0) O.roots (asks (play A p.1 (ideal p.2) N)) ∧ (asks (play A p.1 (ideal p.2) N)).length ≤ n with hP
  have e1 : {p : Equiv.Perm (State F 3) × (Fin N → F) | ¬ Good (fun s => s 0) O.roots
      (asks (play A p.1 (ideal p.2) N)) ∧ (asks (play A p.1 (ideal p.2) N)).length ≤ n}.ncard = P.card := by
    rw [← Set.ncard_coe_finset]
    congr 1
    ext p
    simp [hP]
  rw [e1, Finset.card_eq_sum_card_fiberwise (t := Finset.univ) (f := Prod.snd) fun _ _ => Finset.mem_coe.2 (Finset.mem_univ _),
    Finset.sum_mul]
  have hone : ∀ f ∈ (Finset.univ : Finset (Fin N → F)), (P.filter fun p => p.2 = f).card * q ≤
      2 * n * (n + O.roots.card) * (q ^ 3).factorial := by
    intro f _
    have hb := bad_le (lab := fun s : State F 3 => s 0) card_label card_state (pow_pos Fintype.card_pos 2) O.roots
      (questions A (ideal f) N 0) n (by rw [hS]; exact hn3)
    rw [hS, hq] at hb
    refine le_trans (Nat.mul_le_mul_right _ ?_) hb
    rw [← Set.ncard_coe_finset]
    refine Set.ncard_le_ncard_of_injOn Prod.fst ?_ ?_ (Set.toFinite _)
    · intro p hp
      obtain ⟨hp', rfl⟩ := Finset.mem_filter.1 (Finset.mem_coe.1 hp)
      refine fun hgood => (Finset.mem_filter.1 hp').2.1 ?_
      rw [← (asks_transcript A p.1 (ideal p.2) N 0 N le_rfl).2]
      exact good_le (Finset.mem_filter.1 hp').2.2 hgood
    · intro p hp p' hp' h
      exact Prod.ext h ((Finset.mem_filter.1 (Finset.mem_coe.1 hp)).2.trans
        (Finset.mem_filter.1 (Finset.mem_coe.1 hp')).2.symm)
  refine (Finset.sum_le_card_nsmul _ _ _ hone).trans (le_of_eq ?_)
  rw [Finset.card_univ, Fintype.card_fun, hq, Fintype.card_fin, smul_eq_mul]
  ring

/-- Whatever happens in the ideal game happens in the real game almost as often. -/
theorem real_ge (hn3 : 2 * n ≤ q ^ 3) (E : List (Event (State F 3) C (Except Panic F)) → Prop) :
    {p : Equiv.Perm (State F 3) × (Fin N → F) | E (play A p.1 (ideal p.2) N)}.ncard * q ≤
      {π : Equiv.Perm (State F 3) | E (play A π (fun x _ => O.run x π) N)}.ncard * q ^ (N + 1) +
      (2 * n * (n + O.roots.card) + σ * (σ + 2 * n + O.roots.card)) * (q ^ N * (q ^ 3).factorial) +
      {p : Equiv.Perm (State F 3) × (Fin N → F) | ¬ Allowed O n σ p.1 (play A p.1 (ideal p.2) N)}.ncard * q := by
  classical
  have hS : Fintype.card (State F 3) = q ^ 3 := by rw [card_state, hq]; ring
  let pl : Equiv.Perm (State F 3) × (Fin N → F) → List (Event (State F 3) C (Except Panic F)) := fun p =>
    play A p.1 (ideal p.2) N
  let good : List (Event (State F 3) C (Except Panic F)) → Prop := fun τ => Good (fun s => s 0) O.roots (asks τ)
  set P : Finset (Equiv.Perm (State F 3) × (Fin N → F)) := Finset.univ.filter fun p =>
    (E (pl p) ∧ good (pl p)) ∧ Allowed O n σ p.1 (pl p) with hP
  set T := P.image pl with hT
  set R : Finset (Equiv.Perm (State F 3)) := Finset.univ.filter fun π => E (play A π (fun x _ => O.run x π) N) with hR
  have hRc : {π : Equiv.Perm (State F 3) | E (play A π (fun x _ => O.run x π) N)}.ncard = R.card := by
    rw [← Set.ncard_coe_finset]
    congr 1
    ext π
    simp [hR]
  have hfib : ∀ τ ∈ T, (P.filter fun p => pl p = τ).card = {p | pl p = τ}.ncard := by
    intro τ hτ
    obtain ⟨p₀, hp₀, rfl⟩ := Finset.mem_image.1 hτ
    rw [← Set.ncard_coe_finset]
    congr 1
    ext p
    simp only [Finset.coe_filter, Set.mem_ofPred_eq, hP, Finset.mem_filter, Finset.mem_univ, true_and]
    constructor
    · exact fun h => h.2
    · intro h
      have h₀ := (Finset.mem_filter.1 hp₀).2
      have hx : Extends p.1 (asks (pl p)) := play_extends A p.1 (ideal p.2) N
      rw [h] at hx ⊢
      exact ⟨⟨h₀.1, h₀.2.congr (play_extends A p₀.1 (ideal p₀.2) N) hx⟩, rfl⟩
  have hPs : P.card = ∑ τ ∈ T, {p | pl p = τ}.ncard := by
    rw [Finset.card_eq_sum_card_fiberwise (t := T) (f := pl) fun p hp => Finset.mem_coe.2 (Finset.mem_image_of_mem _ hp)]
    exact Finset.sum_congr rfl hfib
  have hRs : ∑ τ ∈ T, {π : Equiv.Perm (State F 3) | play A π (fun x _ => O.run x π) N = τ}.ncard ≤ R.card := by
    have : ∀ τ ∈ T, {π : Equiv.Perm (State F 3) | play A π (fun x _ => O.run x π) N = τ}.ncard =
        (R.filter fun π => play A π (fun x _ => O.run x π) N = τ).card := by
      intro τ hτ
      obtain ⟨p₀, hp₀, rfl⟩ := Finset.mem_image.1 hτ
      rw [← Set.ncard_coe_finset]
      congr 1
      ext π
      simp only [Finset.coe_filter, Set.mem_ofPred_eq, hR, Finset.mem_filter, Finset.mem_univ, true_and]
      refine ⟨fun h => ⟨?_, h⟩, fun h => h.2⟩
      rw [h]
      exact (Finset.mem_filter.1 hp₀).2.1.1
    rw [Finset.sum_congr rfl this, ← Finset.card_biUnion fun τ _ τ' _ h => ?_]
    · exact Finset.card_le_card fun π hπ => by
        obtain ⟨τ, -, h⟩ := Finset.mem_biUnion.1 hπ
        exact (Finset.mem_filter.1 h).1
    · change Disjoint _ _
      rw [Finset.disjoint_left]
      intro π h1 h2
      exact h ((Finset.mem_filter.1 h1).2.symm.trans (Finset.mem_filter.1 h2).2)
  have hgood : P.card * q ≤ R.card * q ^ (N + 1) + σ * (σ + 2 * n + O.roots.card) * P.card := by
    rw [hPs, Finset.sum_mul, Finset.mul_sum]
    refine le_trans (Finset.sum_le_sum fun τ hτ => ?_) (le_trans (le_of_eq Finset.sum_add_distrib) (Nat.add_le_add_right
      (le_trans (le_of_eq (Finset.sum_mul _ _ _).symm) (Nat.mul_le_mul_right _ hRs)) _))
    obtain ⟨p₀, hp₀, rfl⟩ := Finset.mem_image.1 hτ
    exact transcript_ge hq O p₀.1 p₀.2 (Finset.mem_filter.1 hp₀).2.2 (Finset.mem_filter.1 hp₀).2.1.2
  have hall : P.card ≤ q ^ N * (q ^ 3).factorial := by
    refine (Finset.card_le_univ _).trans (le_of_eq ?_)
    rw [Fintype.card_prod, Fintype.card_perm, hS, Fintype.card_fun, hq, Fintype.card_fin, Nat.mul_comm]
  have hsplit : {p : Equiv.Perm (State F 3) × (Fin N → F) | E (play A p.1 (ideal p.2) N)}.ncard ≤
      P.card + ({p : Equiv.Perm (State F 3) × (Fin N → F) |
        ¬ Good (fun s => s 0) O.roots (asks (play A p.1 (ideal p.2) N)) ∧
          (asks (play A p.1 (ideal p.2) N)).length ≤ n}.ncard +
        {p : Equiv.Perm (State F 3) × (Fin N → F) | ¬ Allowed O n σ p.1 (play A p.1 (ideal p.2) N)}.ncard) := by
    rw [← Set.ncard_coe_finset]
    refine (Set.ncard_le_ncard ?_ (Set.toFinite _)).trans ((Set.ncard_union_le _ _).trans (Nat.add_le_add_left
      (Set.ncard_union_le _ _) _))
    intro p hp
    by_cases h' : Allowed O n σ p.1 (pl p)
    · by_cases h : good (pl p)
      · exact Or.inl (Finset.mem_coe.2 (Finset.mem_filter.2 ⟨Finset.mem_univ _, ⟨hp, h⟩, h'⟩))
      · exact Or.inr (Or.inl ⟨h, h'.1⟩)
    · exact Or.inr (Or.inr h')
  have hbad := bad_pairs (A := A) (N := N) hq O hn3
  rw [hRc]
  set v := {p : Equiv.Perm (State F 3) × (Fin N → F) | ¬ Allowed O n σ p.1 (play A p.1 (ideal p.2) N)}.ncard
  calc _ ≤ (P.card + (_ + v)) * q := Nat.mul_le_mul_right _ hsplit
    _ = P.card * q + (_ * q + v * q) := by rw [Nat.add_mul, Nat.add_mul]
    _ ≤ (R.card * q ^ (N + 1) + σ * (σ + 2 * n + O.roots.card) * (q ^ N * (q ^ 3).factorial)) +
        (2 * n * (n + O.roots.card) * (q ^ N * (q ^ 3).factorial) + v * q) :=
      Nat.add_le_add (hgood.trans (Nat.add_le_add_left (Nat.mul_le_mul_left _ hall) _)) (Nat.add_le_add_right hbad _)
    _ = _ := by ring

/-- Whatever happens in the real game happens in the ideal game almost as often. -/
theorem real_le (hn3 : 2 * n ≤ q ^ 3) (E : List (Event (State F 3) C (Except Panic F)) → Prop) :
    {π : Equiv.Perm (State F 3) | E (play A π (fun x _ => O.run x π) N)}.ncard * q ^ (N + 1) ≤
      {p : Equiv.Perm (State F 3) × (Fin N → F) | E (play A p.1 (ideal p.2) N)}.ncard * q +
      (2 * n * (n + O.roots.card) + σ * (σ + 2 * n + O.roots.card)) * (q ^ N * (q ^ 3).factorial) +
      {p : Equiv.Perm (State F 3) × (Fin N → F) | ¬ Allowed O n σ p.1 (play A p.1 (ideal p.2) N)}.ncard * q := by
  classical
  have hS : Fintype.card (State F 3) = q ^ 3 := by rw [card_state, hq]; ring
  have key := real_ge (A := A) (N := N) (σ := σ) hq O hn3 (fun τ => ¬ E τ)
  have c1 : {π : Equiv.Perm (State F 3) | E (play A π (fun x _ => O.run x π) N)}.ncard +
      {π : Equiv.Perm (State F 3) | ¬ E (play A π (fun x _ => O.run x π) N)}.ncard = (q ^ 3).factorial := by
    have := Set.ncard_add_ncard_compl {π : Equiv.Perm (State F 3) | E (play A π (fun x _ => O.run x π) N)}
    rw [Nat.card_eq_fintype_card, Fintype.card_perm, hS] at this
    exact this
  have c2 : {p : Equiv.Perm (State F 3) × (Fin N → F) | E (play A p.1 (ideal p.2) N)}.ncard +
      {p : Equiv.Perm (State F 3) × (Fin N → F) | ¬ E (play A p.1 (ideal p.2) N)}.ncard = q ^ N * (q ^ 3).factorial := by
    have := Set.ncard_add_ncard_compl {p : Equiv.Perm (State F 3) × (Fin N → F) | E (play A p.1 (ideal p.2) N)}
    rw [Nat.card_eq_fintype_card, Fintype.card_prod, Fintype.card_perm, hS, Fintype.card_fun, hq, Fintype.card_fin,
      Nat.mul_comm] at this
    exact this
  set a := {π : Equiv.Perm (State F 3) | E (play A π (fun x _ => O.run x π) N)}.ncard
  set b := {π : Equiv.Perm (State F 3) | ¬ E (play A π (fun x _ => O.run x π) N)}.ncard
  set c := {p : Equiv.Perm (State F 3) × (Fin N → F) | E (play A p.1 (ideal p.2) N)}.ncard
  set d := {p : Equiv.Perm (State F 3) × (Fin N → F) | ¬ E (play A p.1 (ideal p.2) N)}.ncard
  have e : (a + b) * q ^ (N + 1) = (c + d) * q := by rw [c1, c2, pow_succ]; ring
  rw [Nat.add_mul, Nat.add_mul] at e
  omega

end

end Game
end Props
