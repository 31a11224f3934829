import Verif.Props.ArgumentSame
import Mathlib.SetTheory.Cardinal.Finite
import Mathlib.Logic.Equiv.Fintype

/-!
# What a proof shows of the assignment

`create_proof` (used in `/repo/poseidon-circuit/tests/hash_proving.rs`, lines 154-165) fills the rows that cannot be
assigned with random values before it commits to a column. This file models these polynomials (a trusted model, like
`Halo2/Argument`) and shows that what the verifier reads does not depend on the assignment.
-/

set_option linter.unusedSectionVars false
set_option linter.unusedDecidableInType false

namespace Halo2
open Polynomial
variable {F : Type} [Field F]

/-! ### The honest prover -/

/-- A column with random values from row `u` on. -/
def blind {m : ℕ} (u : ℕ) (f : ℕ → F) (c : Fin m → F) (r : ℕ) : F :=
  if h : u ≤ r ∧ r - u < m then c ⟨r - u, h.2⟩ else f r

/-- The random values of a proof: advice columns and permuted columns are random from the first row that cannot be assigned
on, products one row later. -/
structure Key.Coins (K : Key F) where
  advice : Fin K.cs.numAdvice → Fin (K.n - K.usable) → F
  input : Fin K.lookups.length → Fin (K.n - K.usable) → F
  table : Fin K.lookups.length → Fin (K.n - K.usable) → F
  zPerm : Fin K.chunks → Fin (K.n - (K.usable + 1)) → F
  zLookup : Fin K.lookups.length → Fin (K.n - (K.usable + 1)) → F

open Classical in
/-- `permute_expression_pair`: input and table in an order such that each input is equal to the table on its row or to the
input before. (halo2 sorts; which of the orders is taken makes no difference here.) -/
noncomputable def permutedRows (u : ℕ) (A S : ℕ → F) : (ℕ → F) × (ℕ → F) :=
  if h : ∀ r < u, ∃ r' < u, A r = S r' then
    (Classical.choose (exists_permuted_rows u A S h), Classical.choose (Classical.choose_spec (exists_permuted_rows u A S h)))
  else (A, S)

namespace Key

/-- Advice polynomials of an assignment `w`. -/
noncomputable def honestAdvice (K : Key F) (w : ℕ → ℕ → F) (a : Fin K.cs.numAdvice → Fin (K.n - K.usable) → F) (i : ℕ) :
    F[X] :=
  interp K.n K.ω (if h : i < K.cs.numAdvice then blind K.usable (w i) (a ⟨i, h⟩) else w i)

/-- Permuted columns of lookup `q`. -/
noncomputable def permutedOf (K : Key F) (advice : ℕ → F[X]) (q : Expr F × Expr F) : (ℕ → F) × (ℕ → F) :=
  permutedRows K.usable (fun r => q.1.eval (K.grid advice) r) fun r => q.2.eval (K.grid advice) r

/-- The prover with assignment `w` (column and row) and random values `c`. -/
noncomputable def honest (K : Key F) (w : ℕ → ℕ → F) (c : K.Coins) : Prover F :=
  let advice := K.honestAdvice w c.advice
  let permuted : F → ℕ → F[X] × F[X] := fun θ i =>
    if h : i < K.lookups.length then
      (interp K.n K.ω (blind K.usable (K.permutedOf advice (K.lookups[i].compress θ)).1 (c.input ⟨i, h⟩)),
        interp K.n K.ω (blind K.usable (K.permutedOf advice (K.lookups[i].compress θ)).2 (c.table ⟨i, h⟩)))
    else 0
  let zPerm : F → F → ℕ → F[X] := fun β γ i =>
    if h : i < K.chunks then interp K.n K.ω (blind (K.usable + 1) (zPermRow K advice β γ i) (c.zPerm ⟨i, h⟩)) else 0
  let zLookup : F → F → F → ℕ → F[X] := fun θ β γ i =>
    if h : i < K.lookups.length then interp K.n K.ω (blind (K.usable + 1)
      (zLookupRow K advice (K.lookups[i].compress θ) (K.permutedOf advice (K.lookups[i].compress θ)).1
        (K.permutedOf advice (K.lookups[i].compress θ)).2 β γ) (c.zLookup ⟨i, h⟩))
    else 0
  ⟨advice, permuted, fun θ β γ => (zPerm β γ, zLookup θ β γ),
    fun θ β γ y => K.pieces ⟨advice, permuted θ, zPerm β γ, zLookup θ β γ⟩ θ β γ y⟩

/-- Rotations at which advice column `i` is opened. -/
def rots (K : Key F) (i : ℕ) : Finset ℤ := K.cs.rots i ∪ wideRots K.wide i

/-- What the verifier reads of polynomials that depend on the assignment, but for the quotient. (The last product of the
permutation argument is not opened at `ω^last x`; here it is.) -/
structure View (K : Key F) where
  advice : (i : Fin K.cs.numAdvice) → {k // k ∈ K.rots i} → F
  input : Fin K.lookups.length → F × F
  table : Fin K.lookups.length → F
  zPerm : Fin K.chunks → F × F × F
  zLookup : Fin K.lookups.length → F × F

/-- The view of the messages `m` at `x`. -/
noncomputable def view (K : Key F) (m : Messages F) (x : F) : K.View where
  advice i k := (K.opened m x).advice i k
  input i := ((K.opened m x).pInput i, (K.opened m x).pInputPrev i)
  table i := (K.opened m x).pTable i
  zPerm i := ((K.opened m x).zPerm i, (K.opened m x).zPermNext i, (K.opened m x).zPermLast i)
  zLookup i := ((K.opened m x).zLookup i, (K.opened m x).zLookupNext i)

end Key

/-! ### One polynomial -/

theorem blind_lt {m u : ℕ} (f : ℕ → F) (c : Fin m → F) {r : ℕ} (hr : r < u) : blind u f c r = f r := by
  rw [blind, dif_neg (by omega)]

theorem interp_add (n : ℕ) (ω : F) (f g : ℕ → F) : interp n ω (fun r => f r + g r) = interp n ω f + interp n ω g :=
  map_add (Lagrange.interpolate (Finset.range n) fun r => ω ^ r) f g

/-- A polynomial of degree less than `n` is determined by its values on the domain. -/
theorem interp_self {n : ℕ} {ω : F} (hω : IsPrimitiveRoot ω n) {p : F[X]} (hp : p.degree < n) {f : ℕ → F}
    (h : ∀ r < n, f r = p.eval (ω ^ r)) : interp n ω f = p := by
  refine Polynomial.eq_of_degrees_lt_of_eval_index_eq (s := Finset.range n) (v := fun r => ω ^ r)
    (fun a ha b hb h => hω.pow_inj (by simpa using ha) (by simpa using hb) h) ?_ ?_ fun r hr => ?_
  · rw [Finset.card_range]; exact interp_degree hω _
  · rw [Finset.card_range]; exact hp
  · rw [interp_eval hω _ (Finset.mem_range.mp hr), h r (Finset.mem_range.mp hr)]

theorem point_off {n : ℕ} {ω x : F} (hω : IsPrimitiveRoot ω n) (hx : x ^ n ≠ 1) (k : ℤ) (r : ℕ) : ω ^ k * x ≠ ω ^ r := by
  intro h
  have e := congrArg (· ^ n) h
  simp only [mul_pow] at e
  rw [← zpow_natCast (ω ^ k) n, ← zpow_mul, mul_comm, mul_comm k, zpow_mul, zpow_natCast, hω.pow_eq_one, one_zpow, mul_one,
    ← pow_mul, mul_comm r n, pow_mul, hω.pow_eq_one, one_pow] at e
  exact hx e

/-- Random values in the last `m` rows make a polynomial that is zero on the other rows take any values at `m` points. -/
theorem exists_coin {n m u : ℕ} {ω x : F} (hω : IsPrimitiveRoot ω n) (hx : x ^ n ≠ 1) (hu : u + m = n) (Q : Finset ℤ)
    (hQ : Q.card ≤ m) (D : F[X]) :
    ∃ d : Fin m → F, ∀ k ∈ Q, rotEval ω (interp n ω (blind u 0 d)) k x = rotEval ω D k x := by
  classical
  let pts : Finset F := Q.image fun k => ω ^ k * x
  let Z : F[X] := ∏ r ∈ Finset.range u, (X - C (ω ^ r))
  let s : F[X] := Lagrange.interpolate pts id fun p => D.eval p / Z.eval p
  have hZ : ∀ p ∈ pts, Z.eval p ≠ 0 := by
    intro p hp
    obtain ⟨k, -, rfl⟩ := Finset.mem_image.mp hp
    rw [eval_prod, Finset.prod_ne_zero_iff]
    intro r _
    rw [eval_sub, eval_X, eval_C, sub_ne_zero]
    exact point_off hω hx k r
  have hs : ∀ p ∈ pts, s.eval p = D.eval p / Z.eval p := fun p hp =>
    Lagrange.eval_interpolate_at_node _ (Function.injective_id.injOn) hp
  have hdeg : (Z * s).degree < n := by
    have h1 : Z.degree = u := by
      simp only [Z]
      rw [degree_prod, Finset.sum_congr rfl fun r _ => degree_X_sub_C (ω ^ r)]
      simp
    have h2 : s.degree < pts.card := Lagrange.degree_interpolate_lt _ (Function.injective_id.injOn)
    have h3 : pts.card ≤ m := Finset.card_image_le.trans hQ
    rw [degree_mul, h1, ← hu, Nat.cast_add]
    refine WithBot.add_lt_add_left (WithBot.natCast_ne_bot u) (lt_of_lt_of_le h2 ?_)
    exact_mod_cast h3
  refine ⟨fun j => (Z * s).eval (ω ^ (u + j)), fun k hk => ?_⟩
  have hp : ω ^ k * x ∈ pts := Finset.mem_image_of_mem _ hk
  rw [interp_self hω hdeg]
  · rw [rotEval, rotEval, eval_mul, hs _ hp, mul_div_cancel₀ _ (hZ _ hp)]
  · intro r hr
    unfold blind
    split_ifs with h
    · change eval (ω ^ (u + (r - u))) (Z * s) = _
      rw [show u + (r - u) = r by omega]
    · have hr' : r < u := by omega
      rw [eval_mul, eval_prod, Finset.prod_eq_zero (Finset.mem_range.mpr hr') (by simp), zero_mul]
      rfl

/-- What is read of a polynomial with `m` random values, at `m` points or fewer, does not depend on the other values. -/
theorem card_coin {n m u : ℕ} {ω x : F} (hω : IsPrimitiveRoot ω n) (hx : x ^ n ≠ 1) (hu : u + m = n) (Q : Finset ℤ)
    (hQ : Q.card ≤ m) (f f' : ℕ → F) (v : ℤ → F) :
    Nat.card {c : Fin m → F // ∀ k ∈ Q, rotEval ω (interp n ω (blind u f c)) k x = v k} =
      Nat.card {c : Fin m → F // ∀ k ∈ Q, rotEval ω (interp n ω (blind u f' c)) k x = v k} := by
  obtain ⟨d, hd⟩ := exists_coin hω hx hu Q hQ
    (interp n ω (blind u f (0 : Fin m → F)) - interp n ω (blind u f' (0 : Fin m → F)))
  refine Nat.card_congr ((Equiv.addRight d).subtypeEquiv fun c => ?_)
  refine forall₂_congr fun k hk => ?_
  have split : ∀ (f : ℕ → F) (c : Fin m → F), interp n ω (blind u f c) =
      interp n ω (blind u f (0 : Fin m → F)) + interp n ω (blind u 0 c) := by
    intro f c
    rw [← interp_add]
    congr 1
    funext r
    unfold blind
    split_ifs <;> simp
  have add : ∀ c c' : Fin m → F, interp n ω (blind u 0 (c + c')) =
      interp n ω (blind u 0 c) + interp n ω (blind u 0 c') := by
    intro c c'
    rw [← interp_add]
    congr 1
    funext r
    unfold blind
    split_ifs <;> simp
  have e := hd k hk
  have : rotEval ω (interp n ω (blind u f c)) k x = rotEval ω (interp n ω (blind u f' ((Equiv.addRight d) c))) k x := by
    rw [Equiv.coe_addRight, split f c, split f' (c + d), add]
    simp only [rotEval, eval_add, eval_sub] at e ⊢
    rw [e]
    ring
  rw [this]

/-! ### Counting -/

theorem card_pi {ι : Type} [Fintype ι] {B : Type} {p p' : ι → B → Prop}
    (h : ∀ i, Nat.card {b // p i b} = Nat.card {b // p' i b}) :
    Nat.card {f : ι → B // ∀ i, p i (f i)} = Nat.card {f : ι → B // ∀ i, p' i (f i)} := by
  rw [Nat.card_congr (Equiv.subtypePiEquivPi (p := fun i b => p i b)),
    Nat.card_congr (Equiv.subtypePiEquivPi (p := fun i b => p' i b)), Nat.card_pi, Nat.card_pi]
  exact Finset.prod_congr rfl fun i _ => h i

theorem card_and {A B : Type} [Finite A] [Finite B] {p p' : A → Prop} {q q' : A → B → Prop}
    (hp : Nat.card {a // p a} = Nat.card {a // p' a}) (hq : ∀ a a', Nat.card {b // q a b} = Nat.card {b // q' a' b}) :
    Nat.card {ab : A × B // p ab.1 ∧ q ab.1 ab.2} = Nat.card {ab : A × B // p' ab.1 ∧ q' ab.1 ab.2} := by
  classical
  have key : ∀ (p : A → Prop) (q : A → B → Prop), Nat.card {ab : A × B // p ab.1 ∧ q ab.1 ab.2} =
      Nat.card (Σ a : {a // p a}, {b // q a b}) := by
    intro p q
    refine Nat.card_congr ⟨fun z => ⟨⟨z.1.1, z.2.1⟩, ⟨z.1.2, z.2.2⟩⟩, fun z => ⟨(z.1.1, z.2.1), z.1.2, z.2.2⟩, ?_, ?_⟩
    · rintro ⟨⟨a, b⟩, h1, h2⟩; rfl
    · rintro ⟨⟨a, h1⟩, ⟨b, h2⟩⟩; rfl
  have := Fintype.ofFinite A
  rw [key, key, Nat.card_sigma, Nat.card_sigma]
  rcases isEmpty_or_nonempty A with hA | ⟨⟨a₀⟩⟩
  · simp
  · have e1 : ∀ a : {a // p a}, Nat.card {b // q a b} = Nat.card {b // q' a₀ b} := fun a => hq a a₀
    have e2 : ∀ a : {a // p' a}, Nat.card {b // q' a b} = Nat.card {b // q' a₀ b} := fun a =>
      (hq a₀ a).symm.trans (hq a₀ a₀)
    simp only [e1, e2, Finset.sum_const, Finset.card_univ, ← Nat.card_eq_fintype_card, hp]

theorem card_both {A B : Type} [Finite A] [Finite B] {p p' : A → Prop} {q q' : B → Prop}
    (hp : Nat.card {a // p a} = Nat.card {a // p' a}) (hq : Nat.card {b // q b} = Nat.card {b // q' b}) :
    Nat.card {ab : A × B // p ab.1 ∧ q ab.2} = Nat.card {ab : A × B // p' ab.1 ∧ q' ab.2} :=
  card_and (q := fun _ => q) (q' := fun _ => q') hp fun _ _ => hq

/-! ### The whole view -/

namespace Key

/-- Coins of the advice columns, and the others. -/
def Coins.equiv (K : Key F) : K.Coins ≃ (Fin K.cs.numAdvice → Fin (K.n - K.usable) → F) ×
    (Fin K.lookups.length → Fin (K.n - K.usable) → F) × (Fin K.lookups.length → Fin (K.n - K.usable) → F) ×
    (Fin K.chunks → Fin (K.n - (K.usable + 1)) → F) × (Fin K.lookups.length → Fin (K.n - (K.usable + 1)) → F) where
  toFun c := (c.advice, c.input, c.table, c.zPerm, c.zLookup)
  invFun c := ⟨c.1, c.2.1, c.2.2.1, c.2.2.2.1, c.2.2.2.2⟩
  left_inv _ := rfl
  right_inv _ := rfl

theorem rotEval_zero (ω : F) (p : F[X]) (x : F) : rotEval ω p 0 x = p.eval x := by
  rw [rotEval, zpow_zero, one_mul]

/-- Values to be read, by rotation. -/
def View.adviceAt {K : Key F} (v : K.View) (i : Fin K.cs.numAdvice) (k : ℤ) : F :=
  if h : k ∈ K.rots i then v.advice i ⟨k, h⟩ else 0

/-- Polynomials with values `f` on the first `u` rows and random values `c` beyond are read as `v`. -/
def Reads (K : Key F) (x : F) (u : ℕ) {N m : ℕ} (Q : Fin N → Finset ℤ) (v : Fin N → ℤ → F) (f : Fin N → ℕ → F)
    (c : Fin N → Fin m → F) : Prop :=
  ∀ i, ∀ k ∈ Q i, rotEval K.ω (interp K.n K.ω (blind u (f i) (c i))) k x = v i k

theorem card_reads {K : Key F} (hω : IsPrimitiveRoot K.ω K.n) {x : F} (hx : x ^ K.n ≠ 1) {u N m : ℕ} (hu : u + m = K.n)
    {Q : Fin N → Finset ℤ} (hQ : ∀ i, (Q i).card ≤ m) (v : Fin N → ℤ → F) (f f' : Fin N → ℕ → F) :
    Nat.card {c : Fin N → Fin m → F // K.Reads x u Q v f c} = Nat.card {c : Fin N → Fin m → F // K.Reads x u Q v f' c} :=
  card_pi fun i => card_coin hω hx hu (Q i) (hQ i) (f i) (f' i) (v i)

/-- The permuted columns of all lookups, and the products. -/
noncomputable def inputRows (K : Key F) (θ : F) (advice : ℕ → F[X]) (i : Fin K.lookups.length) : ℕ → F :=
  (K.permutedOf advice (K.lookups[i].compress θ)).1
noncomputable def tableRows (K : Key F) (θ : F) (advice : ℕ → F[X]) (i : Fin K.lookups.length) : ℕ → F :=
  (K.permutedOf advice (K.lookups[i].compress θ)).2
noncomputable def permRows (K : Key F) (β γ : F) (advice : ℕ → F[X]) (i : Fin K.chunks) : ℕ → F := zPermRow K advice β γ i
noncomputable def lookupRows (K : Key F) (θ β γ : F) (advice : ℕ → F[X]) (i : Fin K.lookups.length) : ℕ → F :=
  zLookupRow K advice (K.lookups[i].compress θ) (K.inputRows θ advice i) (K.tableRows θ advice i) β γ

/-- The view, column by column. -/
theorem view_iff {K : Key F} (hlast : 1 < K.n - K.usable) (w : ℕ → ℕ → F) (c : K.Coins) (θ β γ x : F) (v : K.View) :
    K.view ((K.honest w c).messages θ β γ) x = v ↔
      K.Reads x K.usable (fun i => K.rots i) v.adviceAt (fun i => w i) c.advice ∧
      K.Reads x K.usable (fun _ => {0, -1}) (fun i k => if k = 0 then (v.input i).1 else (v.input i).2)
        (K.inputRows θ (K.honestAdvice w c.advice)) c.input ∧
      K.Reads x K.usable (fun _ => {0}) (fun i _ => v.table i) (K.tableRows θ (K.honestAdvice w c.advice)) c.table ∧
      K.Reads x (K.usable + 1) (fun _ => {0, 1, -((K.n : ℤ) - K.usable)})
        (fun i k => if k = 0 then (v.zPerm i).1 else if k = 1 then (v.zPerm i).2.1 else (v.zPerm i).2.2)
        (K.permRows β γ (K.honestAdvice w c.advice)) c.zPerm ∧
      K.Reads x (K.usable + 1) (fun _ => {0, 1}) (fun i k => if k = 0 then (v.zLookup i).1 else (v.zLookup i).2)
        (K.lookupRows θ β γ (K.honestAdvice w c.advice)) c.zLookup := by
  obtain ⟨va, vi, vt, vp, vl⟩ := v
  have l0 : -((K.n : ℤ) - K.usable) ≠ 0 := by omega
  have l1 : -((K.n : ℤ) - K.usable) ≠ 1 := by omega
  simp only [Reads, inputRows, tableRows, permRows, lookupRows, view, View.mk.injEq, Finset.forall_mem_insert, Finset.mem_singleton,
    forall_eq, if_true, if_neg l0, if_neg l1, rotEval_zero,
    if_neg (show ¬ (-1 : ℤ) = 0 by decide), if_neg (show ¬ (1 : ℤ) = 0 by decide)]
  refine and_congr ?_ (and_congr ?_ (and_congr ?_ (and_congr ?_ ?_)))
  · rw [funext_iff]
    refine forall_congr' fun i => ?_
    rw [funext_iff, Subtype.forall]
    refine forall₂_congr fun k hk => ?_
    simp only [opened, Prover.messages, honest, honestAdvice, View.adviceAt, dif_pos hk, dif_pos i.isLt]
  · rw [funext_iff]
    refine forall_congr' fun i => ?_
    simp only [opened, Prover.messages, honest, dif_pos i.isLt, Prod.ext_iff, Fin.getElem_fin]
  · rw [funext_iff]
    refine forall_congr' fun i => ?_
    simp only [opened, Prover.messages, honest, dif_pos i.isLt, Fin.getElem_fin]
  · rw [funext_iff]
    refine forall_congr' fun i => ?_
    simp only [opened, Prover.messages, honest, dif_pos i.isLt, Prod.ext_iff]
  · rw [funext_iff]
    refine forall_congr' fun i => ?_
    simp only [opened, Prover.messages, honest, dif_pos i.isLt, Prod.ext_iff, Fin.getElem_fin]

/-- There are enough random values. -/
structure Blinds (K : Key F) : Prop where
  lt : K.usable + 4 ≤ K.n
  advice : ∀ i < K.cs.numAdvice, (K.rots i).card ≤ K.n - K.usable

/-- As many random values give the view for one assignment as for another. -/
theorem card_view [Finite F] {K : Key F} (hω : IsPrimitiveRoot K.ω K.n) (hb : K.Blinds) (w w' : ℕ → ℕ → F)
    (θ β γ : F) {x : F} (hx : x ^ K.n ≠ 1) (v : K.View) :
    Nat.card {c : K.Coins // K.view ((K.honest w c).messages θ β γ) x = v} =
      Nat.card {c : K.Coins // K.view ((K.honest w' c).messages θ β γ) x = v} := by
  have hlt := hb.lt
  have hu : K.usable + (K.n - K.usable) = K.n := by omega
  have hu' : K.usable + 1 + (K.n - (K.usable + 1)) = K.n := by omega
  simp only [view_iff (show 1 < K.n - K.usable by omega)]
  rw [Nat.card_congr ((Coins.equiv K).subtypeEquivOfSubtype'), Nat.card_congr ((Coins.equiv K).subtypeEquivOfSubtype')]
  have h1 := card_reads hω hx hu (Q := fun i : Fin K.cs.numAdvice => K.rots i) (fun i => hb.advice i i.isLt) v.adviceAt
    (fun i => w i) fun i => w' i
  have h2 := fun a a' => card_reads hω hx hu (Q := fun _ : Fin K.lookups.length => {0, -1})
    (fun _ => (Finset.card_le_two).trans (by omega)) (fun i k => if k = 0 then (v.input i).1 else (v.input i).2)
    (K.inputRows θ (K.honestAdvice w a)) (K.inputRows θ (K.honestAdvice w' a'))
  have h3 := fun a a' => card_reads hω hx hu (Q := fun _ : Fin K.lookups.length => {0})
    (fun _ => by rw [Finset.card_singleton]; omega) (fun i _ => v.table i)
    (K.tableRows θ (K.honestAdvice w a)) (K.tableRows θ (K.honestAdvice w' a'))
  have h4 := fun a a' => card_reads hω hx hu' (Q := fun _ : Fin K.chunks => {0, 1, -((K.n : ℤ) - K.usable)})
    (fun _ => (Finset.card_le_three).trans (by omega))
    (fun i k => if k = 0 then (v.zPerm i).1 else if k = 1 then (v.zPerm i).2.1 else (v.zPerm i).2.2)
    (K.permRows β γ (K.honestAdvice w a)) (K.permRows β γ (K.honestAdvice w' a'))
  have h5 := fun a a' => card_reads hω hx hu' (Q := fun _ : Fin K.lookups.length => {0, 1})
    (fun _ => (Finset.card_le_two).trans (by omega)) (fun i k => if k = 0 then (v.zLookup i).1 else (v.zLookup i).2)
    (K.lookupRows θ β γ (K.honestAdvice w a)) (K.lookupRows θ β γ (K.honestAdvice w' a'))
  have h45 := fun a a' => card_both (h4 a a') (h5 a a')
  have h35 := fun a a' => card_both (h3 a a') (h45 a a')
  have h25 := fun a a' => card_both (h2 a a') (h35 a a')
  exact card_and h1 h25

/-! ### The verifier needs nothing else -/

/-- Everything the verifier computes the terms from: the key and a view. -/
noncomputable def openedOf (K : Key F) (v : K.View) (x : F) : Opened F :=
  { K.opened ⟨0, 0, 0, 0⟩ x with
    advice := fun i k => if h : i < K.cs.numAdvice then v.adviceAt ⟨i, h⟩ k else 0
    pInput := fun i => if h : i < K.lookups.length then (v.input ⟨i, h⟩).1 else 0
    pInputPrev := fun i => if h : i < K.lookups.length then (v.input ⟨i, h⟩).2 else 0
    pTable := fun i => if h : i < K.lookups.length then v.table ⟨i, h⟩ else 0
    zPerm := fun i => if h : i < K.chunks then (v.zPerm ⟨i, h⟩).1 else 0
    zPermNext := fun i => if h : i < K.chunks then (v.zPerm ⟨i, h⟩).2.1 else 0
    zPermLast := fun i => if h : i < K.chunks then (v.zPerm ⟨i, h⟩).2.2 else 0
    zLookup := fun i => if h : i < K.lookups.length then (v.zLookup ⟨i, h⟩).1 else 0
    zLookupNext := fun i => if h : i < K.lookups.length then (v.zLookup ⟨i, h⟩).2 else 0 }

/-- `expected_h_eval`: the value of the quotient that the verifier expects. -/
noncomputable def expected (K : Key F) (v : K.View) (θ β γ y x : F) : F :=
  (terms K θ β γ (K.openedOf v x)).foldl (fun a t => a * y + t) 0 / (x ^ K.n - 1)

theorem evalAt_congr {o o' : Opened F} (hf : o.fixed = o'.fixed) (hs : o.selector = o'.selector) : ∀ {e : Expr F},
    (∀ i k, (Col.advice i, k) ∈ e.queries → o.advice i k = o'.advice i k) → e.evalAt o = e.evalAt o'
  | .const _, _ => rfl
  | .selector i, _ => congrFun hs i
  | .fixed i k, _ => congrFun (congrFun hf i) k
  | .advice i k, h => h i k (List.mem_singleton_self _)
  | .neg e, h => congrArg (fun a => -a) (evalAt_congr hf hs (e := e) h)
  | .add _ _, h => congrArg₂ (· + ·) (evalAt_congr hf hs fun i k hq => h i k (List.mem_append_left _ hq))
      (evalAt_congr hf hs fun i k hq => h i k (List.mem_append_right _ hq))
  | .mul _ _, h => congrArg₂ (· * ·) (evalAt_congr hf hs fun i k hq => h i k (List.mem_append_left _ hq))
      (evalAt_congr hf hs fun i k hq => h i k (List.mem_append_right _ hq))
  | .scaled a c, h => congrArg (· * c) (evalAt_congr hf hs (e := a) h)

theorem mem_wideRots {ws : List (Wide F)} {c : ℕ} {k : ℤ} : k ∈ wideRots ws c ↔
    ∃ w ∈ ws, ∃ p ∈ w.pairs, (Col.advice c, k) ∈ p.1.queries ∨ (Col.advice c, k) ∈ p.2.queries := by
  simp only [wideRots, List.mem_toFinset, List.mem_filterMap, List.mem_flatMap, List.mem_append]
  constructor
  · rintro ⟨⟨a, b⟩, ⟨w, hw, p, hp, hq⟩, h⟩
    split_ifs at h with h'
    simp only [Option.some.injEq] at h
    subst h
    subst h'
    exact ⟨w, hw, p, hp, hq⟩
  · rintro ⟨w, hw, p, hp, hq⟩
    exact ⟨(.advice c, k), ⟨w, hw, p, hp, hq⟩, by simp⟩

theorem compress_queries (θ : F) (es : List (Expr F)) {q : Col × ℤ} (h : q ∈ (compress θ es).queries) :
    ∃ e ∈ es, q ∈ e.queries := by
  have key : ∀ (es : List (Expr F)) (a : Expr F), q ∈ (es.foldl (fun acc e => .add (.scaled acc θ) e) a).queries →
      q ∈ a.queries ∨ ∃ e ∈ es, q ∈ e.queries := by
    intro es
    induction es with
    | nil => intro a h; exact Or.inl h
    | cons e es ih =>
      intro a h
      rcases ih _ h with h | ⟨e', he', h⟩
      · rcases List.mem_append.mp h with h | h
        · exact Or.inl h
        · exact Or.inr ⟨e, List.mem_cons_self, h⟩
      · exact Or.inr ⟨e', List.mem_cons_of_mem _ he', h⟩
  rcases key es (.const 0) h with h | h
  · cases h
  · exact h

/-- The terms are computed from the view. -/
theorem terms_view {K : Key F} (hown : ∀ i, K.cs.numAdvice ≤ i → K.rots i = ∅) (θ β γ : F) (m : Messages F) (x : F) :
    terms K θ β γ (K.opened m x) = terms K θ β γ (K.openedOf (K.view m x) x) := by
  have hq : ∀ i k, k ∈ K.rots i → (K.opened m x).advice i k = (K.openedOf (K.view m x) x).advice i k := by
    intro i k hk
    have hi : i < K.cs.numAdvice := by
      by_contra h
      rw [hown i (by omega)] at hk
      cases hk
    simp only [openedOf, dif_pos hi, View.adviceAt, dif_pos hk]
    rfl
  have hex : ∀ e : Expr F, (∀ i k, (Col.advice i, k) ∈ e.queries → k ∈ K.rots i) →
      e.evalAt (K.opened m x) = e.evalAt (K.openedOf (K.view m x) x) := fun e h =>
    evalAt_congr (o := K.opened m x) (o' := K.openedOf (K.view m x) x) rfl rfl fun i k hk => hq i k (h i k hk)
  unfold terms
  congr 1
  · congr 1
    · unfold gateTerms
      refine List.flatMap_congr fun p hp => List.map_congr_left fun e he => hex e fun i k hk => ?_
      exact Finset.mem_union_left _ (CS.mem_rots.mpr (Or.inl ⟨e, CS.mem_exprs.mpr (Or.inl ⟨p, hp, he⟩), hk⟩))
    · unfold permTerms
      split_ifs with hc
      · rfl
      · have hcol : ∀ j : Fin K.cols.length, (K.opened m x).col (K.cols.get j) =
            (K.openedOf (K.view m x) x).col (K.cols.get j) := by
          intro j
          have hmem : K.cols.get j ∈ K.cs.equality := Props.mem_permCols.mp (List.get_mem _ _)
          cases hj : K.cols.get j with
          | fixed i => rfl
          | advice i =>
            rw [hj] at hmem
            exact hq i 0 (Finset.mem_union_left _ (CS.mem_rots.mpr (Or.inr ⟨hmem, rfl⟩)))
        have z : ∀ i < K.chunks, (K.opened m x).zPerm i = (K.openedOf (K.view m x) x).zPerm i ∧
            (K.opened m x).zPermNext i = (K.openedOf (K.view m x) x).zPermNext i ∧
            (K.opened m x).zPermLast i = (K.openedOf (K.view m x) x).zPermLast i := by
          intro i hi
          simp only [openedOf, dif_pos hi]
          exact ⟨rfl, rfl, rfl⟩
        congr 1
        · congr 1
          · rw [(z 0 (by omega)).1, (z (K.chunks - 1) (by omega)).1]
            rfl
          · refine List.map_congr_left fun i hi => ?_
            rw [List.mem_range] at hi
            rw [(z (i + 1) (by omega)).1, (z i (by omega)).2.2]
            rfl
        · refine List.map_congr_left fun i hi => ?_
          rw [List.mem_range] at hi
          rw [(z i hi).1, (z i hi).2.1]
          simp only [hcol]
          rfl
  · refine List.flatMap_congr fun li hli => ?_
    obtain ⟨q, i⟩ := li
    obtain ⟨-, hi, e⟩ := List.mem_zipIdx hli
    simp only [Nat.zero_add, List.length_map, List.getElem_map] at hi e
    have hall : ∀ p ∈ K.lookups[i].pairs, ∀ c k, (Col.advice c, k) ∈ p.1.queries ∨ (Col.advice c, k) ∈ p.2.queries →
        k ∈ K.rots c := by
      intro p hp c k hk
      rcases List.mem_append.mp (List.getElem_mem hi : K.lookups[i] ∈ K.lookups) with h | h
      · obtain ⟨l, hl, el⟩ := List.mem_map.mp h
        rw [← el] at hp
        obtain rfl := List.mem_singleton.mp hp
        rcases hk with hk | hk
        · exact Finset.mem_union_left _ (CS.mem_rots.mpr (Or.inl ⟨_, CS.mem_exprs.mpr (Or.inr ⟨l, hl, rfl⟩), hk⟩))
        · simp [Expr.queries] at hk
      · exact Finset.mem_union_right _ (mem_wideRots.mpr ⟨_, h, p, hp, hk⟩)
    have h1 : q.1.evalAt (K.opened m x) = q.1.evalAt (K.openedOf (K.view m x) x) := by
      refine hex _ fun c k hk => ?_
      rw [e] at hk
      obtain ⟨e', he', hk⟩ := compress_queries _ _ hk
      obtain ⟨p, hp, rfl⟩ := List.mem_map.mp he'
      exact hall p hp c k (Or.inl hk)
    have h2 : q.2.evalAt (K.opened m x) = q.2.evalAt (K.openedOf (K.view m x) x) := by
      refine hex _ fun c k hk => ?_
      rw [e] at hk
      obtain ⟨e', he', hk⟩ := compress_queries _ _ hk
      obtain ⟨p, hp, rfl⟩ := List.mem_map.mp he'
      exact hall p hp c k (Or.inr hk)
    unfold lookupTerms
    simp only [h1, h2]
    simp only [openedOf, dif_pos hi, view]
    rfl

/-! ### The honest prover convinces -/

theorem permutedOf_spec {K : Key F} {advice : ℕ → F[X]} {q : Expr F × Expr F}
    (h : ∀ r < K.usable, ∃ r' < K.usable, q.1.eval (K.grid advice) r = q.2.eval (K.grid advice) r') {A S : ℕ → F}
    (e : K.permutedOf advice q = (A, S)) :
    (∀ b : F, ∏ r ∈ Finset.range K.usable, (A r + b) = ∏ r ∈ Finset.range K.usable, (q.1.eval (K.grid advice) r + b)) ∧
      (∀ c : F, ∏ r ∈ Finset.range K.usable, (S r + c) =
        ∏ r ∈ Finset.range K.usable, (q.2.eval (K.grid advice) r + c)) ∧
      (∀ r < K.usable, ∃ r' < K.usable, A r = q.1.eval (K.grid advice) r') ∧
      (∀ r < K.usable, ∃ r' < K.usable, S r = q.2.eval (K.grid advice) r') ∧
      (0 < K.usable → A 0 = S 0) ∧ ∀ r, r + 1 < K.usable → A (r + 1) = S (r + 1) ∨ A (r + 1) = A r := by
  rw [permutedOf, permutedRows, dif_pos h, Prod.mk.injEq] at e
  obtain ⟨rfl, rfl⟩ := e
  exact Classical.choose_spec (Classical.choose_spec (exists_permuted_rows K.usable (fun r => q.1.eval (K.grid advice) r)
    (fun r => q.2.eval (K.grid advice) r) h))

theorem interp_blind {n : ℕ} {ω : F} (hω : IsPrimitiveRoot ω n) {m u : ℕ} (f : ℕ → F) (c : Fin m → F) {r : ℕ} (hr : r < u)
    (hn : r < n) : (interp n ω (blind u f c)).eval (ω ^ r) = f r := by
  rw [interp_eval hω _ hn, blind_lt f c hr]

theorem honest_short {K : Key F} (hω : IsPrimitiveRoot K.ω K.n) (w : ℕ → ℕ → F) (c : K.Coins) :
    (K.honest w c).Short K.n := by
  have h0 : (0 : F[X]).degree < K.n := by rw [degree_zero]; exact WithBot.bot_lt_coe _
  refine ⟨fun i => interp_degree hω _, fun θ i => ?_, fun θ i => ?_, fun θ β γ i => ?_, fun θ β γ i => ?_,
    fun θ β γ y i => piece_degree _ _ _⟩
  all_goals
    simp only [honest]
    split_ifs
    · exact interp_degree hω _
    · exact h0

theorem honest_convinces {cs : CS F} {ws : List (Wide F)} {ops : List (Op F)} {n : ℕ} {ω δ : F} {K : Key F}
    (hK : keygenWith cs ws ops n ω δ = .ok K) (hω : IsPrimitiveRoot ω n) (w : ℕ → ℕ → F) (c : K.Coins)
    (hcs : cs.Holds (K.grid (K.honestAdvice w c.advice))) (hws : ∀ l ∈ ws, l.Holds (K.grid (K.honestAdvice w c.advice)))
    (hcop : CopiesHold (K.grid (K.honestAdvice w c.advice)) ops) {θ β γ x : F} (y : F)
    (hinv : Invertible K (K.honestAdvice w c.advice) θ β γ) (hx : x ^ n ≠ 1) :
    (K.honest w c).Convinces K (θ, β, γ, y, x) := by
  have hwf := keygen_wf hK hω
  obtain ⟨en, ecs, ews⟩ : K.n = n ∧ K.cs = cs ∧ K.wide = ws := by
    obtain ⟨-, -, s, -, rfl⟩ := keygen_ok hK
    exact ⟨rfl, rfl, rfl⟩
  rw [← ecs] at hcs
  rw [← ews] at hws
  have hlt := hwf.lt
  have hall : ∀ l ∈ K.lookups, l.Holds (K.grid (K.honestAdvice w c.advice)) := by
    intro l hl
    rcases List.mem_append.mp hl with hl | hl
    · obtain ⟨l', hl', rfl⟩ := List.mem_map.mp hl
      exact (Lookup.wide_holds hwf.lt.le l').mpr (hcs.2 l' hl')
    · exact hws l hl
  have hsh := honest_short hwf.root w c
  refine check_of_vanish hwf (m := (K.honest w c).messages θ β γ)
    ⟨hsh.advice, hsh.input θ, hsh.table θ, hsh.zPerm θ β γ, hsh.zLookup θ β γ⟩ ?_ y (by rw [en]; exact hx)
  intro r hr t ht
  rcases List.mem_append.mp ht with ht | ht
  · rcases List.mem_append.mp ht with ht | ht
    · obtain ⟨p, hp, ht⟩ := List.mem_flatMap.mp ht
      obtain ⟨e, he, rfl⟩ := List.mem_map.mp ht
      rw [expr_row hwf hr]
      exact hcs.1 p hp e he r hr
    · refine zPerm_terms hwf (perm_balance hK hω hcop β γ) hinv.perm (m := (K.honest w c).messages θ β γ) rfl
        (fun i hi r' hr' => ?_) r hr t ht
      simp only [Prover.messages, honest, dif_pos hi]
      exact interp_blind hwf.root _ _ (by omega) (by omega)
  · obtain ⟨⟨q, i⟩, hli, ht⟩ := List.mem_flatMap.mp ht
    obtain ⟨-, hi, e⟩ := List.mem_zipIdx hli
    simp only [Nat.zero_add, List.length_map, List.getElem_map] at hi e
    rw [e] at ht
    obtain ⟨hA, hS, mA, mS, h0, hs⟩ := permutedOf_spec
      (Wide.compressed (hall _ (List.getElem_mem hi)) θ) (Prod.mk.eta (p := K.permutedOf _ _)).symm
    refine lookup_terms hwf (K.lookups[i].compress θ) hA hS mA mS h0 hs (hinv.lookup _ (List.getElem_mem hi))
      (m := (K.honest w c).messages θ β γ) rfl (fun r' hr' => ?_) (fun r' hr' => ?_) (fun r' hr' => ?_) r hr t ht
    · simp only [Prover.messages, honest, dif_pos hi]
      exact interp_blind hwf.root _ _ hr' (by omega)
    · simp only [Prover.messages, honest, dif_pos hi]
      exact interp_blind hwf.root _ _ hr' (by omega)
    · simp only [Prover.messages, honest, dif_pos hi]
      exact interp_blind hwf.root _ _ (by omega) (by omega)

end Key

theorem keygen_blinds {cs : CS F} {ws : List (Wide F)} {ops : List (Op F)} {n : ℕ} {ω δ : F} {K : Key F}
    (hK : keygenWith cs ws ops n ω δ = .ok K) : K.Blinds := by
  obtain ⟨hmin, -, s, -, rfl⟩ := keygen_ok hK
  have h3 : 5 ≤ cs.blindingWith ws := by unfold CS.blindingWith; omega
  constructor
  · change n - (cs.blindingWith ws + 1) + 4 ≤ n
    omega
  · intro i hi
    change (cs.rots i ∪ wideRots ws i).card ≤ n - (n - (cs.blindingWith ws + 1))
    have : (cs.rots i ∪ wideRots ws i).card ≤ (Finset.range cs.numAdvice).sup fun c => (cs.rots c ∪ wideRots ws c).card :=
      Finset.le_sup (f := fun c => (cs.rots c ∪ wideRots ws c).card) (Finset.mem_range.mpr hi)
    have e : cs.blindingWith ws = max 3 ((Finset.range cs.numAdvice).sup fun c => (cs.rots c ∪ wideRots ws c).card) + 1 + 1 :=
      rfl
    omega

end Halo2

namespace Props
open Halo2 Circuit Circuit.Table Base.Bn256 Polynomial

/-- **C96.** A proof hides the assignment: for any circuit with a key, any two assignments, any challenges and anything
the verifier can read, as many random values of the prover make the verifier read it for one assignment as for the
other. -/
theorem C96_hiding {F : Type} [Field F] [Finite F] {cs : CS F} {ws : List (Wide F)} {ops : List (Op F)} {n : ℕ} {ω δ : F}
    {K : Key F} (hK : keygenWith cs ws ops n ω δ = .ok K) (hω : IsPrimitiveRoot ω n) (w w' : ℕ → ℕ → F) (θ β γ : F) {x : F}
    (hx : x ^ n ≠ 1) (v : K.View) :
    Nat.card {c : K.Coins // K.view ((K.honest w c).messages θ β γ) x = v} =
      Nat.card {c : K.Coins // K.view ((K.honest w' c).messages θ β γ) x = v} := by
  have e : K.n = n := by
    obtain ⟨-, -, s, -, rfl⟩ := keygen_ok hK
    rfl
  exact Key.card_view (keygen_wf hK hω).root (keygen_blinds hK) w w' θ β γ (by rw [e]; exact hx) v

/-- The verifier reads nothing else: what it reads decides what value of the quotient it accepts. -/
theorem C96_quotient {F : Type} [Field F] {cs : CS F} {ws : List (Wide F)} {ops : List (Op F)} {n : ℕ} {ω δ : F}
    {K : Key F} (hK : keygenWith cs ws ops n ω δ = .ok K)
    (hown : ∀ i, cs.numAdvice ≤ i → cs.rots i = ∅ ∧ wideRots ws i = ∅) (P : Prover F) (θ β γ y x : F) :
    P.Convinces K (θ, β, γ, y, x) ↔ x ^ n ≠ 1 ∧
      ∑ i ∈ Finset.range (K.degree - 1), (x ^ n) ^ i * (P.quotient θ β γ y i).eval x =
        K.expected (K.view (P.messages θ β γ) x) θ β γ y x := by
  obtain ⟨en, h⟩ : K.n = n ∧ ∀ i, K.cs.numAdvice ≤ i → K.rots i = ∅ := by
    obtain ⟨-, -, s, -, rfl⟩ := keygen_ok hK
    exact ⟨rfl, fun i hi => by
      change cs.rots i ∪ wideRots ws i = ∅
      rw [(hown i hi).1, (hown i hi).2, Finset.empty_union]⟩
  unfold Prover.Convinces Key.Check Key.expected
  rw [← en]
  refine and_congr_right fun hx => ?_
  rw [Key.terms_view h, eq_comm, eq_div_iff (sub_ne_zero.mpr hx)]

/-- The prover that hides its assignment convinces the verifier, but for `K.loss` challenges in `q`. -/
theorem C96_complete {F : Type} [Field F] [Fintype F] {cs : CS F} {ws : List (Wide F)} {ops : List (Op F)} {n : ℕ} {ω δ : F}
    {K : Key F} (hK : keygenWith cs ws ops n ω δ = .ok K) (hω : IsPrimitiveRoot ω n) (w : ℕ → ℕ → F) (c : K.Coins)
    (hcs : cs.Holds (K.grid (K.honest w c).advice)) (hws : ∀ l ∈ ws, l.Holds (K.grid (K.honest w c).advice))
    (hcop : CopiesHold (K.grid (K.honest w c).advice) ops) :
    (K.honest w c).Short n ∧
      Fintype.card F ^ 5 ≤ Nat.card {d // (K.honest w c).Convinces K d} + K.loss * Fintype.card F ^ 4 := by
  have hwf := keygen_wf hK hω
  have en : K.n = n := by
    obtain ⟨-, -, s, -, rfl⟩ := keygen_ok hK
    rfl
  refine ⟨en ▸ Key.honest_short hwf.root w c, ?_⟩
  rw [nat_card_eq_count]
  have h1 := count_add_not fun d => (K.honest w c).Convinces K d
  have h2 : count (fun d => ¬ (K.honest w c).Convinces K d) ≤ K.loss * Fintype.card F ^ 4 := by
    refine (count_mono ?_).trans (Key.count_loss hwf (K.honest w c).advice)
    rintro ⟨θ, β, γ, y, x⟩ hc ⟨hi, hx⟩
    exact hc (Key.honest_convinces hK hω w c hcs hws hcop y hi (by rw [← en]; exact hx))
  have h3 : Fintype.card (F × F × F × F × F) = Fintype.card F ^ 5 := by
    simp only [Fintype.card_prod]
    ring
  rw [← h3, ← h1]
  exact Nat.add_le_add_left h2 _

/-- The test circuits of the hash table: two tables have the same key, the proofs of a table of complete blocks convince
the verifier whatever the random values, and they show nothing of the table. -/
theorem C96_tests {k : ChipKind} {ch : Chip Fr 3} (hch : bnChip k = .ok ch) (short legacy : Bool) (mode mode' : LoadMode)
    {STEP : ℕ} {t t' : HashTable Fr} {calcs : ℕ} (hS : STEP < 2 ^ 64) (hc : calcs < 2 ^ 64)
    (ht : ∀ c ∈ t.controls, c < 2 ^ 64) (ht' : ∀ c ∈ t'.controls, c < 2 ^ 64) {kk : ℕ} (hkk : kk ≤ 28) {x y : Run Fr}
    (hx : x = testRun ch short legacy mode STEP t calcs) (hy : y = testRun ch short legacy mode' STEP t' calcs)
    {L L' : Layouter Fr} (hL : x.load = .ok L) (hL' : y.load = .ok L') {K : Key Fr}
    (hK : keygen x.configured.2 L.ops (2 ^ kk) (omega kk) delta = .ok K) :
    keygen y.configured.2 L'.ops (2 ^ kk) (omega kk) delta = .ok K ∧
    (Complete STEP STEP t calcs → ∀ c : K.Coins, (K.honest (finalAdvice L.ops) c).Short (2 ^ kk) ∧
      Base.Bn256.r ^ 5 ≤ Nat.card {d // (K.honest (finalAdvice L.ops) c).Convinces K d} +
        17 * 2 ^ kk * Base.Bn256.r ^ 4) ∧
    (∀ (P : Prover Fr) (θ β γ y z : Fr), P.Convinces K (θ, β, γ, y, z) ↔ z ^ 2 ^ kk ≠ 1 ∧
      ∑ i ∈ Finset.range (K.degree - 1), (z ^ 2 ^ kk) ^ i * (P.quotient θ β γ y i).eval z =
        K.expected (K.view (P.messages θ β γ) z) θ β γ y z) ∧
    ∀ θ β γ z : Fr, z ^ 2 ^ kk ≠ 1 → ∀ v : K.View,
      Nat.card {c : K.Coins // K.view ((K.honest (finalAdvice L.ops) c).messages θ β γ) z = v} =
        Nat.card {c : K.Coins // K.view ((K.honest (finalAdvice L'.ops) c).messages θ β γ) z = v} := by
  have hlegal : x.Legal := by
    rw [hx]
    exact ⟨fun i => i.isLt, fun i j h => Fin.ext h, by simp [testRun], hS, hS, hc, ht⟩
  have hbn : x.IsBn k short := by rw [hx]; exact ⟨hch, rfl⟩
  have eS : x.STEP = STEP := by rw [hx]; rfl
  have es : x.step = STEP := by rw [hx]; rfl
  have et : x.table = t := by rw [hx]; rfl
  have ec : x.calcs = calcs := by rw [hx]; rfl
  have eb : x.before.ops = [] := by rw [hx]; rfl
  have e0 : x.cs = ⟨6, 1, 0, [], [], []⟩ := by rw [hx]; rfl
  have h0 : ∀ c, x.cs.rots c = ∅ := by rw [hx]; intro c; rfl
  have hω := omega_primitive hkk
  have hcard : Fintype.card Fr = Base.Bn256.r := ZMod.card Base.Bn256.r
  refine ⟨?_, fun hcom c => ?_, fun P θ β γ y z => ?_, fun θ β γ z hz v => C96_hiding hK hω _ _ θ β γ hz v⟩
  · obtain ⟨L₁, h1, h2⟩ := C91_tests hch short legacy mode mode hS hc ht hx hL rfl
    obtain ⟨L₂, h3, h4⟩ := C91_tests hch short legacy mode' mode hS hc ht' hy hL' rfl
    have : L₁ = L₂ := by
      rw [h1] at h3
      injection h3
    subst this
    rw [← h4, h2]
    exact hK
  · have hnew : x.newOps L = L.ops := by rw [Run.newOps, eb]; rfl
    obtain ⟨-, hlo⟩ := slack_le hbn hlegal (by rw [e0]) (by rw [e0]) (by rw [e0]) hK
    have hK' : keygen x.configured.2 (L.ops ++ []) (2 ^ kk) (omega kk) delta = .ok K := by rw [List.append_nil]; exact hK
    have hlaid := laid_grid hbn hlegal (Or.inl hL) (post := []) (by rw [eb]; simp) (by rw [eb]; simp) hK'
      (K.honest (finalAdvice L.ops) c).advice
    have hwf := keygen_wf hK hω
    have hhon : x.Honest L [] (K.grid (K.honest (finalAdvice L.ops) c).advice) := by
      refine ⟨hlaid, by rw [eb]; simp, fun i _ r hr => ?_⟩
      have hr' : r < K.usable := hr
      have := hwf.lt
      rw [List.append_nil]
      change (interp K.n K.ω _).eval (K.ω ^ r) = _
      rw [interp_eval hwf.root _ (by omega)]
      split_ifs
      · exact blind_lt _ _ hr'
      · rfl
    have hsat : x.Satisfies L (K.grid (K.honest (finalAdvice L.ops) c).advice) := by
      obtain ⟨⟨lw, -⟩, hn⟩ := hbn.lawful
      obtain ⟨s, -, -, -, h⟩ := Run.honest_iff lw fr_big hlegal hn (Or.inl hL) hhon
      rw [h, eS, es, et, ec]
      exact (complete_iff _ _ _ _).mp hcom
    have hg : x.newGates = x.configured.2.gates := by rw [Run.newGates, e0]; rfl
    have hl : x.newLookups = x.configured.2.lookups := by rw [Run.newLookups, e0]; rfl
    obtain ⟨h1, h3⟩ := C96_complete hK hω (finalAdvice L.ops) c
      ⟨fun p hp => hsat.gates p (by rw [hg]; exact hp), fun l hl' => hsat.lookups l (by rw [hl]; exact hl')⟩
      (by simp) (by have := hsat.copies; rw [hnew] at this; exact this)
    refine ⟨h1, ?_⟩
    rw [hcard] at h3
    exact h3.trans (Nat.add_le_add_left (Nat.mul_le_mul_right _ hlo) _)
  · refine C96_quotient hK (fun i hi => ⟨?_, rfl⟩) P θ β γ y z
    exact configured_own hbn hlegal (fun c _ => h0 c) i hi

/-- Whatever the verifier reads of a proof could be from a proof of any other assignment. -/
theorem C96_any {F : Type} [Field F] [Finite F] {cs : CS F} {ws : List (Wide F)} {ops : List (Op F)} {n : ℕ} {ω δ : F}
    {K : Key F} (hK : keygenWith cs ws ops n ω δ = .ok K) (hω : IsPrimitiveRoot ω n) (w w' : ℕ → ℕ → F) (θ β γ : F) {x : F}
    (hx : x ^ n ≠ 1) (c : K.Coins) :
    ∃ c' : K.Coins, K.view ((K.honest w' c').messages θ β γ) x = K.view ((K.honest w c).messages θ β γ) x := by
  have h := C96_hiding hK hω w w' θ β γ hx (K.view ((K.honest w c).messages θ β γ) x)
  have : Finite K.Coins := Finite.of_equiv _ (Key.Coins.equiv K).symm
  have h1 : Nat.card {c' : K.Coins // K.view ((K.honest w c').messages θ β γ) x =
      K.view ((K.honest w c).messages θ β γ) x} ≠ 0 :=
    Nat.card_ne_zero.mpr ⟨⟨⟨c, rfl⟩⟩, inferInstance⟩
  rw [h] at h1
  obtain ⟨⟨c', hc'⟩⟩ := (Nat.card_ne_zero.mp h1).1
  exact ⟨c', hc'⟩

-- `vk_validity` (hash_proving.rs:82-111) on `2^8` rows: the table [1, 2], [0, 1] is proven with the key of the empty table,
-- and the proof cannot be told from one of the empty table
example {b : Bool} (short legacy : Bool) (mode : LoadMode) {ch : Chip Fr 3} (hch : bnChip (.pow5 b) = .ok ch)
    {x y : Run Fr} (hx : x = testRun ch short legacy mode 62 ⟨[(1, 2), (0, 1)], [], [], []⟩ 3)
    (hy : y = testRun ch short legacy mode 62 .empty 3) :
    ∃ L L', x.load = .ok L ∧ y.load = .ok L' ∧ ∃ K, keygen y.configured.2 L'.ops (2 ^ 8) (omega 8) delta = .ok K ∧
      (∀ c : K.Coins, Base.Bn256.r ^ 5 ≤ Nat.card {d // (K.honest (finalAdvice L.ops) c).Convinces K d} +
        17 * 2 ^ 8 * Base.Bn256.r ^ 4) ∧
      ∀ (c : K.Coins) (θ β γ z : Fr), z ^ 2 ^ 8 ≠ 1 → ∃ c', K.view ((K.honest (finalAdvice L'.ops) c').messages θ β γ) z =
        K.view ((K.honest (finalAdvice L.ops) c).messages θ β γ) z := by
  have hlegal : x.Legal := by
    rw [hx]
    exact ⟨fun i => i.isLt, fun i j h => Fin.ext h, by simp [testRun], by simp [testRun], by simp [testRun],
      by simp [testRun], by simp [testRun]⟩
  have hbn : x.IsBn (.pow5 b) short := by rw [hx]; exact ⟨hch, rfl⟩
  obtain ⟨L, hL⟩ := (C41_checks hbn hlegal).1.mpr (by
    rw [hx]
    exact ⟨fun _ => by simp [testRun], by intro a m _ _ ck h; simp [testRun, rowCk] at h⟩)
  obtain ⟨L', hL', -⟩ := C91_tests hch short legacy mode mode (by norm_num) (by norm_num) (by simp) hx hL hy
  obtain ⟨K, hK⟩ := (C88_tests hch short legacy mode (by norm_num) (by norm_num) (by simp) (kk := 8) (by norm_num) hx
    hL).1.mpr ⟨by norm_num, by norm_num, by simp [ChipKind.rows]⟩
  obtain ⟨h1, h2, -, -⟩ := C96_tests hch short legacy mode mode (by norm_num) (by norm_num) (by simp)
    (by simp [HashTable.empty]) (by norm_num) hx hy hL hL' hK
  refine ⟨L, L', hL, hL', K, h1, fun c => (h2 ?_ c).2, fun c θ β γ z hz =>
    C96_any hK (omega_primitive (by norm_num)) _ _ θ β γ hz c⟩
  refine ⟨fun j _ h => ?_, fun j hj => ?_⟩
  · simp [rowCtl] at h
  · obtain rfl : j = 2 := by omega
    simp [rowCtl, rowWords]

end Props
