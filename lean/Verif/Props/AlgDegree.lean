import Verif.Props.Provable
import Verif.Props.Pasta
import Mathlib.Algebra.Polynomial.Degree.Lemmas
import Mathlib.Algebra.Polynomial.Roots
import Mathlib.Algebra.Polynomial.BigOperators
import Mathlib.Data.Set.Card.Arithmetic

/-!
# The algebraic degree of the permutation: C68

Every word of the output is a polynomial in every word of the input. Its degree is the largest possible, `5` to the
power of the number of rounds, and this is less than the size of the field. So a digest has few preimages that differ
in one word.
-/

set_option linter.unusedVariables false

namespace Props
open Base Polynomial

section General
variable {F : Type} [Field F] {T : ℕ} [NeZero T]

/-- Leading coefficients after one round with S-box `x^e`: those of the words without S-box disappear. -/
def leadRound (e : ℕ) (M : Matrix (Fin T) (Fin T) F) (h rp r : ℕ) (v : Fin T → F) : Fin T → F :=
  M.mulVec fun i => if (r < h ∨ h + rp ≤ r) ∨ i = 0 then v i ^ e else 0

/-- The words are polynomials of degree at most `d`, with coefficients `v` at `d`. -/
private def Lead (P : Fin T → F[X]) (d : ℕ) (v : Fin T → F) : Prop :=
  ∀ i, (P i).natDegree ≤ d ∧ (P i).coeff d = v i

private theorem lead_round (e : ℕ) (he : 2 ≤ e) (M : Matrix (Fin T) (Fin T) F) (h rp r : ℕ) (c : ℕ → Fin T → F)
    {P : Fin T → F[X]} {d : ℕ} {v : Fin T → F} (hd : 0 < d) (hP : Lead P d v) :
    ∃ Q : Fin T → F[X], Lead Q (e * d) (leadRound e M h rp r v) ∧
      ∀ x, Spec.round (fun v => v ^ e) M h rp c r (fun i => (P i).eval x) = fun i => (Q i).eval x := by
  obtain ⟨S, hS⟩ : ∃ S : Fin T → F[X], S = fun i =>
    if (r < h ∨ h + rp ≤ r) ∨ i = 0 then (P i + C (c r i)) ^ e else P i + C (c r i) := ⟨_, rfl⟩
  have hdd : d < e * d := by nlinarith
  have hadd : ∀ i, (P i + C (c r i)).natDegree ≤ d := fun i =>
    (natDegree_add_le_of_degree_le (hP i).1 (by rw [natDegree_C]; omega))
  have hSl : Lead S (e * d) fun i => if (r < h ∨ h + rp ≤ r) ∨ i = 0 then v i ^ e else 0 := by
    intro i
    rw [hS]
    simp only
    split_ifs with hi
    · refine ⟨natDegree_pow_le_of_le e (hadd i), ?_⟩
      rw [coeff_pow_of_natDegree_le (hadd i), coeff_add, (hP i).2, coeff_C, if_neg (by omega), add_zero]
    · exact ⟨(hadd i).trans hdd.le, coeff_eq_zero_of_natDegree_lt (lt_of_le_of_lt (hadd i) hdd)⟩
  refine ⟨fun i => ∑ j, C (M i j) * S j, fun i => ⟨?_, ?_⟩, fun x => ?_⟩
  · exact natDegree_sum_le_of_forall_le _ _ fun j _ => (natDegree_C_mul_le _ _).trans (hSl j).1
  · rw [finsetSum_coeff]
    simp only [coeff_C_mul, (hSl _).2]
    rfl
  · funext i
    rw [eval_finsetSum]
    simp only [eval_mul, eval_C]
    unfold Spec.round
    split_ifs with hr
    · simp only [Spec.fullRound, Matrix.mulVec, dotProduct, hS, hr, true_or, if_true, eval_pow, eval_add, eval_C]
    · simp only [Spec.partialRound, Matrix.mulVec, dotProduct, hS, hr, false_or]
      refine Finset.sum_congr rfl fun j _ => ?_
      split_ifs <;> simp only [eval_pow, eval_add, eval_C]

private theorem lead_rounds (e : ℕ) (he : 2 ≤ e) (M : Matrix (Fin T) (Fin T) F) (h rp : ℕ) (c : ℕ → Fin T → F)
    (l : List ℕ) : ∀ {P : Fin T → F[X]} {d : ℕ} {v : Fin T → F}, 0 < d → Lead P d v →
    ∃ Q : Fin T → F[X], Lead Q (e ^ l.length * d) (l.foldl (fun v r => leadRound e M h rp r v) v) ∧
      ∀ x, l.foldl (fun x r => Spec.round (fun v => v ^ e) M h rp c r x) (fun i => (P i).eval x) =
        fun i => (Q i).eval x := by
  induction l with
  | nil => intro P d v _ hP; exact ⟨P, by simpa using hP, fun x => rfl⟩
  | cons r l ih =>
    intro P d v hd hP
    obtain ⟨Q, hQ, hx⟩ := lead_round e he M h rp r c hd hP
    obtain ⟨R, hR, hx'⟩ := ih (Nat.mul_pos (by omega) hd) hQ
    refine ⟨R, ?_, fun x => ?_⟩
    · rw [List.length_cons, pow_succ, Nat.mul_assoc]
      exact hR
    · rw [List.foldl_cons, hx]
      exact hx' x

/-- **C68.** On every line of states the output words are polynomials whose degree is at most `e` to the power of the
number of rounds, and the coefficient of that power is computed by `leadRound` from the direction of the line (it does
not depend on the round constants or the line's base point). -/
theorem C68_lead (e : ℕ) (he : 2 ≤ e) (M : Matrix (Fin T) (Fin T) F) (h rp : ℕ) (c : ℕ → Fin T → F) (s w : Fin T → F)
    (i : Fin T) : ∃ p : F[X], (∀ x, Spec.poseidon (fun v => v ^ e) M h rp c (fun j => s j + x * w j) i = p.eval x) ∧
      p.natDegree ≤ e ^ (2 * h + rp) ∧ p.coeff (e ^ (2 * h + rp)) =
        (List.range (2 * h + rp)).foldl (fun v r => leadRound e M h rp r v) w i := by
  obtain ⟨Q, hQ, hx⟩ := lead_rounds e he M h rp c (List.range (2 * h + rp))
    (P := fun j => C (s j) + C (w j) * X) (d := 1) (v := w) one_pos (fun j => by
      refine ⟨natDegree_add_le_of_degree_le (by rw [natDegree_C]; omega) (natDegree_C_mul_le _ _ |>.trans natDegree_X_le), ?_⟩
      rw [coeff_add, coeff_C_mul_X, coeff_C]
      simp)
  rw [List.length_range, Nat.mul_one] at hQ
  refine ⟨Q i, fun x => ?_, hQ i⟩
  have := congrFun (hx x) i
  rw [← this]
  have e : (fun j => s j + x * w j) = fun j => eval x (C (s j) + C (w j) * X) := by
    funext j
    simp only [eval_add, eval_mul, eval_C, eval_X]
    ring
  rw [e]
  rfl

/-- A polynomial with few roots takes each value few times. -/
private theorem card_le [Finite F] {f : F → F} {p : F[X]} (hp : ∀ x, f x = p.eval x) {n : ℕ}
    (hn : p.natDegree = n) (h0 : 0 < n) (d : F) : {x | f x = d}.ncard ≤ n := by
  classical
  have h1 : p - C d ≠ 0 := fun h => by
    have : p = C d := sub_eq_zero.mp h
    rw [this, natDegree_C] at hn
    omega
  have h2 : {x | f x = d} ⊆ ((p - C d).roots.toFinset : Set F) := by
    intro x hx
    have hx : f x = d := hx
    rw [Finset.mem_coe, Multiset.mem_toFinset, mem_roots h1, IsRoot.def, eval_sub, eval_C, ← hp, hx, sub_self]
  refine (Set.ncard_le_ncard h2).trans ?_
  rw [Set.ncard_coe_finset]
  refine (Multiset.toFinset_card_le _).trans ((card_roots' _).trans ?_)
  rw [natDegree_sub_C, hn]

/-- Polynomials with the same values, of degree less than the size of the field, are equal. -/
private theorem degree_le [Fintype F] {p q : F[X]} (h : ∀ x, p.eval x = q.eval x)
    (hp : p.natDegree < Fintype.card F) : p.natDegree ≤ q.natDegree := by
  by_contra hlt
  have h1 : p - q ≠ 0 := fun e => by
    rw [sub_eq_zero.mp e] at hlt
    exact hlt le_rfl
  have h2 := card_roots' (p - q)
  classical
  have h3 : (Finset.univ : Finset F) ⊆ (p - q).roots.toFinset := by
    intro x _
    rw [Multiset.mem_toFinset, mem_roots h1, IsRoot.def, eval_sub, h, sub_self]
  have h4 := (Finset.card_le_card h3).trans (Multiset.toFinset_card_le _)
  rw [Finset.card_univ] at h4
  have h5 : (p - q).natDegree ≤ p.natDegree := (natDegree_sub_le _ _).trans (max_le le_rfl (by omega))
  omega

end General

/-! ### Leading coefficients, computed -/

/-- `leadRound` for width 3 and `x^5`, on representatives modulo `p`. -/
def natLeadRound (p : ℕ) (m : ℕ → ℕ → ℕ) (full : Bool) (s : ℕ × ℕ × ℕ) : ℕ × ℕ × ℕ :=
  let q (x : ℕ) : ℕ := let a := x * x % p; a * a % p * x % p
  let x := q s.1
  let y := if full then q s.2.1 else 0
  let z := if full then q s.2.2 else 0
  ((m 0 0 * x + m 0 1 * y + m 0 2 * z) % p, (m 1 0 * x + m 1 1 * y + m 1 2 * z) % p,
    (m 2 0 * x + m 2 1 * y + m 2 2 * z) % p)

private theorem natLeadRound_cast {p : ℕ} [Fact p.Prime] (M : Matrix (Fin 3) (Fin 3) (ZMod p)) (m : ℕ → ℕ → ℕ)
    (hM : ∀ i j, M i j = ((m i j : ℕ) : ZMod p)) (h rp r : ℕ) (s : ℕ × ℕ × ℕ) :
    leadRound 5 M h rp r ![(s.1 : ZMod p), (s.2.1 : ZMod p), (s.2.2 : ZMod p)] =
      (fun t => ![(t.1 : ZMod p), (t.2.1 : ZMod p), (t.2.2 : ZMod p)])
        (natLeadRound p m (decide (r < h ∨ h + rp ≤ r)) s) := by
  have hq : ∀ x : ℕ, (((let a := x * x % p; a * a % p * x % p) : ℕ) : ZMod p) = (x : ZMod p) ^ 5 := by
    intro x
    simp only [ZMod.natCast_mod, Nat.cast_mul]
    ring
  unfold leadRound
  by_cases hr : r < h ∨ h + rp ≤ r
  · simp only [hr, true_or, if_true, decide_true, natLeadRound]
    funext i
    fin_cases i <;>
    · simp only [Matrix.mulVec, dotProduct, Fin.sum_univ_three, hM, ZMod.natCast_mod, Nat.cast_add, Nat.cast_mul]
      simp
      ring
  · simp only [hr, false_or, decide_false, natLeadRound]
    funext i
    fin_cases i <;>
    · simp only [Matrix.mulVec, dotProduct, Fin.sum_univ_three, hM, ZMod.natCast_mod, Nat.cast_add, Nat.cast_mul]
      simp
      left; ring

private theorem natLead_cast {p : ℕ} [Fact p.Prime] (M : Matrix (Fin 3) (Fin 3) (ZMod p)) (m : ℕ → ℕ → ℕ)
    (hM : ∀ i j, M i j = ((m i j : ℕ) : ZMod p)) (h rp : ℕ) (l : List ℕ) : ∀ s : ℕ × ℕ × ℕ,
    l.foldl (fun v r => leadRound 5 M h rp r v) ![(s.1 : ZMod p), (s.2.1 : ZMod p), (s.2.2 : ZMod p)] =
      (fun t => ![(t.1 : ZMod p), (t.2.1 : ZMod p), (t.2.2 : ZMod p)])
        (l.foldl (fun s r => natLeadRound p m (decide (r < h ∨ h + rp ≤ r)) s) s) := by
  induction l with
  | nil => intro s; rfl
  | cons r l ih =>
    intro s
    rw [List.foldl_cons, List.foldl_cons, natLeadRound_cast M m hM]
    exact ih _

/-- The direction of word `j`. -/
private theorem single_eq {p : ℕ} [Fact p.Prime] (j : Fin 3) : (Pi.single j 1 : Fin 3 → ZMod p) =
    (fun t : ℕ × ℕ × ℕ => ![(t.1 : ZMod p), (t.2.1 : ZMod p), (t.2.2 : ZMod p)])
      (if j = 0 then (1, 0, 0) else if j = 1 then (0, 1, 0) else (0, 0, 1)) := by
  funext i
  fin_cases j <;> fin_cases i <;> simp [Pi.single, Function.update]

private theorem update_line {F : Type} [Field F] (s : Fin 3 → F) (j : Fin 3) (x : F) :
    Function.update s j x = fun i => Function.update s j 0 i + x * (Pi.single j 1 : Fin 3 → F) i := by
  funext i
  by_cases h : i = j
  · subst h; simp
  · simp [h]

private theorem cast_ne_zero {p : ℕ} {t : ℕ × ℕ × ℕ} (h : t.1 % p ≠ 0 ∧ t.2.1 % p ≠ 0 ∧ t.2.2 % p ≠ 0) (i : Fin 3) :
    (![(t.1 : ZMod p), (t.2.1 : ZMod p), (t.2.2 : ZMod p)] : Fin 3 → ZMod p) i ≠ 0 := by
  have key : ∀ n : ℕ, n % p ≠ 0 → (n : ZMod p) ≠ 0 := fun n hn e =>
    hn (Nat.mod_eq_zero_of_dvd ((ZMod.natCast_eq_zero_iff n p).mp e))
  fin_cases i
  · exact key _ h.1
  · exact key _ h.2.1
  · exact key _ h.2.2

/-- The polynomial of a width-3 permutation with `x^5`, for a matrix given by numbers. -/
private theorem exact_degree {p : ℕ} [Fact p.Prime] (M : Matrix (Fin 3) (Fin 3) (ZMod p)) (m : ℕ → ℕ → ℕ)
    (hM : ∀ i j, M i j = ((m i j : ℕ) : ZMod p)) (h rp : ℕ) (c : ℕ → Fin 3 → ZMod p)
    (hlead : ∀ t ∈ [(1, 0, 0), (0, 1, 0), (0, 0, 1)], (fun t : ℕ × ℕ × ℕ => t.1 % p ≠ 0 ∧ t.2.1 % p ≠ 0 ∧ t.2.2 % p ≠ 0)
      ((List.range (2 * h + rp)).foldl (fun s r => natLeadRound p m (decide (r < h ∨ h + rp ≤ r)) s) t))
    (s : Fin 3 → ZMod p) (j i : Fin 3) : ∃ q : (ZMod p)[X],
      (∀ x, Spec.poseidon (fun v => v ^ 5) M h rp c (Function.update s j x) i = q.eval x) ∧
      q.natDegree = 5 ^ (2 * h + rp) := by
  obtain ⟨q, h1, h2, h3⟩ := C68_lead 5 (by norm_num) M h rp c (Function.update s j 0) (Pi.single j 1) i
  refine ⟨q, fun x => by rw [update_line]; exact h1 x, natDegree_eq_of_le_of_coeff_ne_zero h2 ?_⟩
  rw [h3, single_eq, natLead_cast M m hM]
  refine cast_ne_zero (hlead _ ?_) i
  fin_cases j <;> simp

/-! ### BN254 -/

/-- **C68, BN254.** Whatever the other two words are, each output word is a polynomial of degree exactly `5^65` in each
input word, and no polynomial of smaller degree takes the same values. -/
theorem C68_bn254 (s : Fin 3 → Bn256.Fr) (j i : Fin 3) : ∃ q : Bn256.Fr[X],
    (∀ short x, ∃ o, Bn256.permuteFr short (Function.update s j x) = .ok o ∧ o i = q.eval x) ∧
    q.natDegree = 5 ^ 65 ∧ ∀ q' : Bn256.Fr[X], (∀ x, q'.eval x = q.eval x) → 5 ^ 65 ≤ q'.natDegree := by
  obtain ⟨q, h1, h2⟩ := exact_degree (p := Bn256.r) (Matrix.of Bn256.mds)
    (fun i j => (Bn256.mdsStrings.getD i []).getD j 0) (fun i j => rfl) 4 57
    (fun i => Bn256.roundConstants.getD i 0) (by decide +kernel) s j i
  refine ⟨q, fun short x => ⟨_, ?_, h1 x⟩, h2, fun q' hq' => ?_⟩
  · rw [Circuit.permuteFr_eq]
    rfl
  · rw [← h2]
    refine degree_le (fun x => (hq' x).symm) ?_
    rw [h2, ZMod.card]
    norm_num [Bn256.r]

open Bn256 in
/-- Each value of an output word is taken by at most `5^65` values of one input word. -/
private theorem perm_card (s : Fin 3 → Fr) (j i : Fin 3) (d : Fr) (f : Fr → Except Panic Fr)
    (hf : ∀ x, f x = .ok (permBn (Function.update s j x) i)) : {x | f x = .ok d}.ncard ≤ 5 ^ 65 := by
  obtain ⟨q, h1, h2, -⟩ := C68_bn254 s j i
  have e : {x | f x = .ok d} = {x | permBn (Function.update s j x) i = d} := by
    ext x
    rw [Set.mem_ofPred_eq, Set.mem_ofPred_eq, hf]
    exact ⟨Except.ok.inj, congrArg _⟩
  rw [e]
  refine card_le (p := q) (fun x => ?_) h2 (by norm_num) d
  obtain ⟨o, e1, e2⟩ := h1 true x
  rw [Circuit.permuteFr_eq] at e1
  rw [← e2, ← Except.ok.inj e1]
  rfl

open Bn256 in
/-- **C68**, preimages of `hash_with_domain`: with the other arguments fixed, at most `5^65` values of one argument give
a digest, out of more than `2^102 · 5^65`; and at most `5^65 · r` of the `r²` pairs of words. -/
theorem C68_preimages (short : Bool) (D : Fr) :
    2 ^ 102 * 5 ^ 65 < r ∧
    (∀ b dom, {a | hashWithDomainFr short ![a, b] dom = .ok D}.ncard ≤ 5 ^ 65) ∧
    (∀ a dom, {b | hashWithDomainFr short ![a, b] dom = .ok D}.ncard ≤ 5 ^ 65) ∧
    (∀ a b, {dom | hashWithDomainFr short ![a, b] dom = .ok D}.ncard ≤ 5 ^ 65) ∧
    ∀ dom, {w : Fr × Fr | hashWithDomainFr short ![w.1, w.2] dom = .ok D}.ncard ≤ 5 ^ 65 * r := by
  have h := (C04_C05_bn254 short false).1
  have key : ∀ dom, ∀ b, {a | hashWithDomainFr short ![a, b] dom = .ok D}.ncard ≤ 5 ^ 65 := by
    intro dom b
    refine perm_card ![dom, 0, b] 1 0 D _ fun a => ?_
    rw [h, show Function.update ![dom, 0, b] 1 a = ![dom, a, b] by funext i; fin_cases i <;> rfl]
  refine ⟨by norm_num [r], fun b dom => key dom b, fun a dom => ?_, fun a b => ?_, fun dom => ?_⟩
  · refine perm_card ![dom, a, 0] 2 0 D _ fun b => ?_
    rw [h, show Function.update ![dom, a, 0] 2 b = ![dom, a, b] by funext i; fin_cases i <;> rfl]
  · refine perm_card ![0, a, b] 0 0 D _ fun dom => ?_
    rw [h, show Function.update ![0, a, b] 0 dom = ![dom, a, b] by funext i; fin_cases i <;> rfl]
  · classical
    have e : {w : Fr × Fr | hashWithDomainFr short ![w.1, w.2] dom = .ok D} =
        ⋃ b ∈ (Finset.univ : Finset Fr), (fun a => (a, b)) '' {a | hashWithDomainFr short ![a, b] dom = .ok D} := by
      ext ⟨a, b⟩
      simp
    rw [e]
    refine (Finset.set_ncard_biUnion_le _ _).trans ?_
    refine (Finset.sum_le_card_nsmul _ _ (5 ^ 65) fun b _ => ?_).trans ?_
    · rw [Set.ncard_image_of_injective _ fun a a' h => (Prod.mk.inj h).1]
      exact key dom b
    · rw [Finset.card_univ, ZMod.card, smul_eq_mul, Nat.mul_comm]

open Bn256 in
private theorem perm_card_add (s : Fin 3 → Fr) (j i : Fin 3) (u d : Fr) (f : Fr → Except Panic Fr)
    (hf : ∀ x, f x = .ok (permBn (Function.update s j (u + x)) i)) : {x | f x = .ok d}.ncard ≤ 5 ^ 65 := by
  rw [← Set.ncard_image_of_injective _ (add_right_injective u)]
  refine le_trans (le_of_eq ?_) (perm_card s j i d (fun z => f (z - u)) fun z => by rw [hf, add_sub_cancel])
  congr 1
  ext z
  constructor
  · rintro ⟨x, hx, rfl⟩
    simpa using hx
  · exact fun h => ⟨z - u, h, add_sub_cancel u z⟩

private theorem absorbPairs_flatMap {F : Type} [Field F] (π : F × F × F → F × F × F) (pairs : List (F × F)) :
    ∀ s, ∃ s', ∀ tail, Spec.absorbPairs π s ((pairs.flatMap fun w => [w.1, w.2]) ++ tail) =
      Spec.absorbPairs π s' tail := by
  induction pairs with
  | nil => exact fun s => ⟨s, fun tail => rfl⟩
  | cons w pairs ih =>
    rintro ⟨c, x, y⟩
    obtain ⟨s', h⟩ := ih (π (c, x + w.1, y + w.2))
    refine ⟨s', fun tail => ?_⟩
    rw [← h]
    rfl

open Bn256 in
/-- The digest of a message as a function of its last block of `n` words. -/
theorem message_last (short legacy : Bool) (cap : Option ℕ) (pairs : List (Fr × Fr)) (hlen : 2 * pairs.length + 2 < 2 ^ 64)
    (n : ℕ) (h0 : n ≠ 0) (h2 : n ≤ 2) : ∃ s : Fr × Fr × Fr, ∀ tail : List Fr, tail.length = n →
      hashMsgFr short legacy ((pairs.flatMap fun w => [w.1, w.2]) ++ tail) cap =
        .ok (Spec.absorbPairs (Spec.onTriples permBn) s tail).1 := by
  have h := (C04_C05_bn254 short legacy).2
  have hl : (pairs.flatMap fun w => [w.1, w.2]).length = 2 * pairs.length := by
    simp [List.length_flatMap, Nat.mul_comm]
  obtain ⟨s, hs⟩ := absorbPairs_flatMap (Spec.onTriples permBn) pairs
    (((cap.getD ((2 * pairs.length + n) * if legacy then 1 else 2 ^ 64) : ℕ) : Fr), 0, 0)
  refine ⟨s, fun tail e => ?_⟩
  have h0' : tail ≠ [] := fun h => h0 (by rw [← e, h, List.length_nil])
  rw [h _ _ (fun h => h0' (List.append_eq_nil_iff.1 h).2) (by rw [List.length_append, hl]; omega), ← hs,
    List.length_append, hl, e]
  rfl

open Bn256 in
/-- **C68**, preimages of `hash_msg`: whatever pairs of words come before, at most `5^65` values of a last single word, or
of one word of a last pair, give a digest. -/
theorem C68_message (short legacy : Bool) (cap : Option ℕ) (pairs : List (Fr × Fr)) (hlen : 2 * pairs.length + 2 < 2 ^ 64)
    (D : Fr) :
    {x | hashMsgFr short legacy ((pairs.flatMap fun w => [w.1, w.2]) ++ [x]) cap = .ok D}.ncard ≤ 5 ^ 65 ∧
    ∀ y, {x | hashMsgFr short legacy ((pairs.flatMap fun w => [w.1, w.2]) ++ [x, y]) cap = .ok D}.ncard ≤ 5 ^ 65 ∧
      {x | hashMsgFr short legacy ((pairs.flatMap fun w => [w.1, w.2]) ++ [y, x]) cap = .ok D}.ncard ≤ 5 ^ 65 := by
  refine ⟨?_, fun y => ⟨?_, ?_⟩⟩
  · obtain ⟨⟨c, u, v⟩, hs⟩ := message_last short legacy cap pairs hlen 1 (by simp) (by simp)
    refine perm_card_add ![c, 0, v] 1 0 u D _ fun x => ?_
    rw [hs [x] rfl, show Function.update ![c, 0, v] 1 (u + x) = ![c, u + x, v] by funext i; fin_cases i <;> rfl]
    rfl
  · obtain ⟨⟨c, u, v⟩, hs⟩ := message_last short legacy cap pairs hlen 2 (by simp) (by simp)
    refine perm_card_add ![c, 0, v + y] 1 0 u D _ fun x => ?_
    rw [hs [x, y] rfl, show Function.update ![c, 0, v + y] 1 (u + x) = ![c, u + x, v + y] by funext i; fin_cases i <;> rfl]
    rfl
  · obtain ⟨⟨c, u, v⟩, hs⟩ := message_last short legacy cap pairs hlen 2 (by simp) (by simp)
    refine perm_card_add ![c, u + y, 0] 2 0 v D _ fun x => ?_
    rw [hs [y, x] rfl, show Function.update ![c, u + y, 0] 2 (v + x) = ![c, u + y, v + x] by funext i; fin_cases i <;> rfl]
    rfl

/-! ### Pallas -/

/-- **C68**, Pallas: degree exactly `5^64` in each input word. -/
theorem C68_pasta (s : Fin 3 → Pasta.Fp) (j i : Fin 3) : ∃ q : Pasta.Fp[X],
    (∀ short x, ∃ o, Pasta.permuteFp short (Function.update s j x) = .ok o ∧ o i = q.eval x) ∧
    q.natDegree = 5 ^ 64 ∧ ∀ q' : Pasta.Fp[X], (∀ x, q'.eval x = q.eval x) → 5 ^ 64 ≤ q'.natDegree := by
  obtain ⟨q, h1, h2⟩ := exact_degree (p := Pasta.p) (Matrix.of Pasta.mds)
    (fun i j => Pasta.rawNat (Pasta.mdsWords.getD (i * 3 + j) [])) (fun i j => rfl) 4 56
    (fun i => Pasta.roundConstants.getD i 0) (by decide +kernel) s j i
  refine ⟨q, fun short x => ⟨_, (C50_pasta_permutation short).1 _, h1 x⟩, h2, fun q' hq' => ?_⟩
  rw [← h2]
  refine degree_le (fun x => (hq' x).symm) ?_
  rw [h2, ZMod.card]
  norm_num [Pasta.p]

/-! ### The hypotheses can be met, and the bounds are not trivial -/

/-- `C68_lead` without partial rounds, in a field where everything can be seen: one word, matrix 1, two rounds of
`x^5` over the rationals give `((x + 1)^5 + 1)^5`, with leading coefficient `1`. -/
example : (List.range (2 * 1 + 0)).foldl (fun v r => leadRound 5 (1 : Matrix (Fin 1) (Fin 1) ℚ) 1 0 r v) 1 0 = 1 := by
  simp [leadRound, List.range_succ]

/-- A direction that a partial round ignores has leading coefficient 0: the bound of `C68_lead` is then not reached. -/
example : leadRound 5 (1 : Matrix (Fin 2) (Fin 2) ℚ) 0 1 0 (Pi.single 1 1) = 0 := by
  funext i
  fin_cases i <;> simp [leadRound]

/-- The digest of `[1, 2]` has a preimage of each shape, so the sets of `C68_preimages` are not empty. -/
example : ∃ D, (1 : Bn256.Fr) ∈ {a | Bn256.hashWithDomainFr true ![a, 2] 0 = .ok D} ∧
    (2 : Bn256.Fr) ∈ {b | Bn256.hashWithDomainFr true ![1, b] 0 = .ok D} :=
  ⟨_, (C04_C05_bn254 true false).1 1 2 0, (C04_C05_bn254 true false).1 1 2 0⟩

/-- The digest of a message of 5 words, `[1, 2, 3, 4, 5]`, has a preimage counted by `C68_message`. -/
example : ∃ D, (5 : Bn256.Fr) ∈ {x | Bn256.hashMsgFr true false
    (([(1, 2), (3, 4)] : List (Bn256.Fr × Bn256.Fr)).flatMap (fun w => [w.1, w.2]) ++ [x]) none = .ok D} :=
  ⟨_, (C04_C05_bn254 true false).2 _ none (by simp) (by simp)⟩

end Props
