import Mathlib.FieldTheory.Finite.Basic
import Mathlib.RingTheory.RootsOfUnity.PrimitiveRoots
import Mathlib.Tactic.LinearCombination

/-!
# Model of `sqrt_tonelli_shanks`

Models `poseidon-base/src/primitives/pasta/mod.rs:45-86` (`#[allow(dead_code)]`), for any field with `F::S = S` and
`F::ROOT_OF_UNITY = root`.
-/

namespace Base.Sqrt

variable {F : Type} [Field F] [DecidableEq F]

/-- `conditional_select(a, b, choice)` of `subtle`: `b` if the choice is set. -/
def select {α : Type} (a b : α) (c : Bool) : α := if c then b else a

/-- Little-endian words; `pow_vartime` (crate `ff`) raises to this number. -/
def limbs (w : List ℕ) : ℕ := w.foldr (fun x acc => x + 2 ^ 64 * acc) 0

/-- The variables `k`, `tmp`, `j_less_than_v`, `z` of the inner loop. -/
structure Inner (F : Type) where
  k : ℕ
  tmp : F
  less : Bool
  z : F

/-- Body of the inner loop, mod.rs:64-72. -/
def innerStep (v : ℕ) (s : Inner F) (j : ℕ) : Inner F :=
  let one := decide (s.tmp = 1)
  let squared := select s.tmp s.z one ^ 2
  let tmp := select squared s.tmp one
  let newZ := select s.z squared one
  let less := s.less && !decide (j = v)
  let k := select j s.k one
  let z := select s.z newZ less
  ⟨k, tmp, less, z⟩

/-- The inner loop `for j in 2..max_v`, mod.rs:60-72. -/
def inner (maxV v : ℕ) (b z : F) : Inner F :=
  (List.range' 2 (maxV - 2)).foldl (innerStep v) ⟨1, b ^ 2, true, z⟩

/-- The variables `v`, `x`, `b`, `z` of the outer loop. -/
structure Outer (F : Type) where
  v : ℕ
  x : F
  b : F
  z : F

/-- Body of the outer loop, mod.rs:59-79. -/
def outerStep (maxV : ℕ) (s : Outer F) : Outer F :=
  let i := inner maxV s.v s.b s.z
  let result := s.x * i.z
  let x := select result s.x (decide (s.b = 1))
  let z := i.z ^ 2
  ⟨i.k, x, s.b * z, z⟩

/-- The outer loop `for max_v in (1..=F::S).rev()`, mod.rs:59-79, with `maxV` rounds to go. -/
def outer : ℕ → Outer F → Outer F
  | 0, s => s
  | maxV + 1, s => outer maxV (outerStep (maxV + 1) s)

/-- `sqrt_tonelli_shanks`, mod.rs:45-86; `CtOption` is `Option`. -/
def sqrtTonelliShanks (S : ℕ) (root : F) (f : F) (tm1d2 : List ℕ) : Option F :=
  let w := f ^ limbs tm1d2
  let x := w * f
  let s := outer S ⟨S, x, x * w, root⟩
  if s.x * s.x = f then some s.x else none

/-! ### Lemmas -/

/-- While the search is running: `b` has order `2^κ` (or `κ = 1` and `b = 1`). -/
theorem inner_run (v κ : ℕ) (b z : F) (h1 : 1 ≤ κ) (hv : κ + 1 ≤ v) (hκ : ∀ k, 1 ≤ k → (b ^ 2 ^ k = 1 ↔ κ ≤ k))
    (n : ℕ) : (List.range' 2 n).foldl (innerStep v) ⟨1, b ^ 2, true, z⟩ =
      ⟨min κ (n + 1), b ^ 2 ^ min κ (n + 1), decide (n + 1 < v), z ^ 2 ^ (min (n + 1) (v - 1) - κ)⟩ := by
  induction n with
  | zero =>
    have : min κ (0 + 1) = 1 := by omega
    have h2 : min (0 + 1) (v - 1) - κ = 0 := by omega
    simp only [List.range', List.foldl, this, h2]
    simp
    omega
  | succ n ih =>
    rw [List.range'_concat, List.foldl_append, ih]
    simp only [List.foldl, innerStep, one_mul]
    by_cases hk : κ ≤ n + 1
    · have m1 : min κ (n + 1) = κ := by omega
      have m2 : min κ (n + 1 + 1) = κ := by omega
      have hone : b ^ 2 ^ κ = 1 := (hκ κ h1).mpr le_rfl
      simp only [m1, m2, hone, decide_true, select, if_true]
      have hl : (decide (n + 1 < v) && !decide (2 + n = v)) = decide (n + 1 + 1 < v) := by
        by_cases h : n + 1 + 1 < v
        · simp [h]; omega
        · simp [h]; omega
      rw [hl]
      by_cases h : n + 1 + 1 < v
      · have e1 : min (n + 1) (v - 1) - κ = n + 1 - κ := by omega
        have e2 : min (n + 1 + 1) (v - 1) - κ = (n + 1 - κ) + 1 := by omega
        simp only [h, decide_true, if_true, e1, e2, pow_succ, pow_mul]
      · have e2 : min (n + 1 + 1) (v - 1) = min (n + 1) (v - 1) := by omega
        simp [h, e2]
    · have m1 : min κ (n + 1) = n + 1 := by omega
      have m2 : min κ (n + 1 + 1) = n + 1 + 1 := by omega
      have hone : ¬ b ^ 2 ^ (n + 1) = 1 := fun h => hk ((hκ _ (by omega)).mp h)
      have e1 : min (n + 1) (v - 1) - κ = 0 := by omega
      have e2 : min (n + 1 + 1) (v - 1) - κ = 0 := by omega
      simp only [m1, m2, hone, decide_false, select, e1, e2]
      have hl : (decide (n + 1 < v) && !decide (2 + n = v)) = decide (n + 1 + 1 < v) := by
        by_cases h : n + 1 + 1 < v
        · simp [h]; omega
        · simp [h]; omega
      rw [hl]
      simp
      refine ⟨by omega, ?_⟩
      rw [← pow_mul, ← pow_succ]

/-- Once `b = ±1` and `z = ±1`, the inner loop keeps both. -/
theorem inner_done (v : ℕ) (b z : F) (hb : b ^ 2 = 1) (hz : z ^ 2 = 1) (n : ℕ) :
    ∃ l z', (List.range' 2 n).foldl (innerStep v) ⟨1, b ^ 2, true, z⟩ = ⟨1, 1, l, z'⟩ ∧ z' ^ 2 = 1 := by
  induction n with
  | zero => exact ⟨true, z, by simp [hb], hz⟩
  | succ n ih =>
    obtain ⟨l, z', h, hz'⟩ := ih
    rw [List.range'_concat, List.foldl_append, h]
    simp only [List.foldl, innerStep, select, decide_true, if_true]
    refine ⟨_, _, rfl, ?_⟩
    split
    · rw [hz']; exact one_pow 2
    · exact hz'

/-- The root has been found; later iterations only change its sign. -/
def Done (f : F) (s : Outer F) : Prop := s.x ^ 2 = f ∧ s.b ^ 2 = 1 ∧ s.z ^ 2 = 1

theorem done_step (f : F) (m : ℕ) (s : Outer F) (h : Done f s) : Done f (outerStep m s) := by
  obtain ⟨h1, h2, h3⟩ := h
  obtain ⟨l, z', e, hz'⟩ := inner_done s.v s.b s.z h2 h3 (m - 2)
  simp only [Done, outerStep, inner, e, hz', select]
  refine ⟨?_, by simpa using h2, by simp⟩
  split
  · exact h1
  · rw [mul_pow, h1, hz', mul_one]

/-- The search is running. -/
def Run (f : F) (m : ℕ) (s : Outer F) : Prop :=
  s.x ^ 2 = s.b * f ∧ 1 ≤ s.v ∧ s.v ≤ m ∧ s.z ^ 2 ^ (s.v - 1) = -1 ∧ s.b ^ 2 ^ (s.v - 1) = 1

theorem run_step (f : F) (m : ℕ) (s : Outer F) (h : Run f (m + 1) s) :
    Run f m (outerStep (m + 1) s) ∨ Done f (outerStep (m + 1) s) := by
  obtain ⟨h1, hv1, hv2, hz, hb⟩ := h
  by_cases hone : s.b = 1
  · right
    rw [hone, one_mul] at h1
    by_cases hv : s.v = 1
    · refine done_step f _ s ⟨h1, by rw [hone, one_pow], ?_⟩
      rw [hv] at hz
      simp only [Nat.sub_self, pow_zero, pow_one] at hz
      rw [hz]; ring
    · have e := inner_run s.v 1 s.b s.z le_rfl (by omega) (fun k hk => by simp [hone, hk]) (m + 1 - 2)
      simp only [Done, outerStep, inner, e, select, decide_eq_true hone, if_true]
      have e2 : min (m + 1 - 2 + 1) (s.v - 1) - 1 = s.v - 2 := by omega
      have : ((s.z ^ 2 ^ (s.v - 2)) ^ 2) = -1 := by
        rw [← pow_mul, ← pow_succ, show s.v - 2 + 1 = s.v - 1 by omega, hz]
      rw [e2, this, hone]
      exact ⟨h1, by ring, by ring⟩
  · left
    have hex : ∃ k, 1 ≤ k ∧ s.b ^ 2 ^ k = 1 := by
      refine ⟨s.v - 1, ?_, hb⟩
      by_contra hv
      have : s.v - 1 = 0 := by omega
      rw [this] at hb
      exact hone (by simpa using hb)
    obtain ⟨κ, ⟨hk1, hk2⟩, hmin⟩ : ∃ κ, (1 ≤ κ ∧ s.b ^ 2 ^ κ = 1) ∧ ∀ k, (1 ≤ k ∧ s.b ^ 2 ^ k = 1) → κ ≤ k := by
      classical
      exact ⟨Nat.find hex, Nat.find_spec hex, fun k hk => Nat.find_min' hex hk⟩
    have hv : 1 ≤ s.v - 1 := by
      by_contra hv
      have : s.v - 1 = 0 := by omega
      rw [this] at hb
      exact hone (by simpa using hb)
    have hle := hmin (s.v - 1) ⟨hv, hb⟩
    have hup : ∀ k, κ ≤ k → s.b ^ 2 ^ k = 1 := by
      intro k hk
      obtain ⟨d, rfl⟩ := Nat.exists_eq_add_of_le hk
      rw [pow_add, pow_mul, hk2, one_pow]
    have hprev : s.b ^ 2 ^ (κ - 1) = -1 := by
      have hsq : (s.b ^ 2 ^ (κ - 1)) ^ 2 = 1 := by
        rw [← pow_mul, ← pow_succ, show κ - 1 + 1 = κ by omega, hk2]
      have hne : s.b ^ 2 ^ (κ - 1) ≠ 1 := by
        intro h
        by_cases hk : κ = 1
        · rw [hk] at h
          exact hone (by simpa using h)
        · have := hmin (κ - 1) ⟨by omega, h⟩
          omega
      have hprod : (s.b ^ 2 ^ (κ - 1) - 1) * (s.b ^ 2 ^ (κ - 1) + 1) = 0 := by linear_combination hsq
      rcases mul_eq_zero.mp hprod with h | h
      · exact absurd (sub_eq_zero.mp h) hne
      · exact eq_neg_of_add_eq_zero_left h
    have e := inner_run s.v κ s.b s.z hk1 (by omega) (fun k hk => ⟨fun h => hmin k ⟨hk, h⟩, hup k⟩) (m + 1 - 2)
    have m1 : min κ (m + 1 - 2 + 1) = κ := by omega
    have m2 : min (m + 1 - 2 + 1) (s.v - 1) - κ = s.v - 1 - κ := by omega
    rw [m1, m2] at e
    simp only [Run, outerStep, inner, e, select, hone, decide_false]
    have hz2 : ((s.z ^ 2 ^ (s.v - 1 - κ)) ^ 2) ^ 2 ^ (κ - 1) = -1 := by
      rw [← pow_mul, ← pow_mul, ← pow_succ', ← pow_add, show s.v - 1 - κ + (κ - 1 + 1) = s.v - 1 by omega, hz]
    refine ⟨?_, hk1, by omega, hz2, ?_⟩
    · simp only [Bool.false_eq_true, if_false, mul_pow, h1]; ring
    · rw [mul_pow, hz2, hprev]; ring

theorem done_outer (f : F) (m : ℕ) : ∀ s : Outer F, Done f s → Done f (outer m s) := by
  induction m with
  | zero => intro s h; exact h
  | succ m ih => intro s h; exact ih _ (done_step f _ s h)

theorem run_outer (f : F) (m : ℕ) : ∀ s : Outer F, Run f m s → Done f (outer m s) := by
  induction m with
  | zero => intro s h; have := h.2.1; have := h.2.2.1; omega
  | succ m ih =>
    intro s h
    rcases run_step f m s h with h' | h'
    · exact ih _ h'
    · exact done_outer f m _ h'

theorem zero_outer (m : ℕ) : ∀ s : Outer F, s.x = 0 → (outer m s).x = 0 := by
  induction m with
  | zero => intro s h; exact h
  | succ m ih =>
    intro s h
    refine ih _ ?_
    simp only [outerStep, select, h, zero_mul, ite_self]

end Base.Sqrt
