import Verif.Props.TableTrie
import Verif.Props.IdealCapacity

/-!
# Tries with a random permutation: C110

C109 reduces what can go wrong with a trie to nodes with the same digest and nodes with digest 0. With a random permutation both are hard
to find, for an adversary that asks the permutation in both directions and calls the code.
-/

set_option linter.unusedVariables false
set_option linter.unusedSectionVars false

namespace Props
open Base Base.Bn256 Collide Ideal Game Simulate

/-! ### Specification -/

/-- The adversary has called `hash_with_domain` for the node. -/
def PathNode.Called {len : ℕ} {domains : Finset Fr} (τ : Seen len domains) (n : PathNode) : Prop :=
  ∃ p ∈ calls τ, p.1.1 = .node n.dom n.left n.right ∧ p.2.2 = .ok n.digest

/-- The adversary has two tries with one root. -/
def TwoTries {len : ℕ} {domains : Finset Fr} (leaf : Fr) (τ : Seen len domains) : Prop :=
  ∃ (t t' : Trie) (D : Fr) (ns ns' : List PathNode), t.Nodes leaf D ns ∧ t'.Nodes leaf D ns' ∧ t ≠ t' ∧ ∀ n ∈ ns ++ ns', n.Called τ

/-- The adversary has a trie and a path to its root that shows a leaf which is not there. -/
def FalseLeaf {len : ℕ} {domains : Finset Fr} (leaf : Fr) (τ : Seen len domains) : Prop :=
  ∃ (t : Trie) (D w a b : Fr) (ns : List PathNode) (p : List PathStep), t.Nodes leaf D ns ∧ (∀ s ∈ p, s.dom ≠ leaf) ∧ pathRoot w p = D ∧
    t.at (p.reverse.map PathStep.onRight) ≠ some (.leaf a b) ∧ ∀ n ∈ ns ++ (⟨w, a, b, leaf⟩ :: pathNodes w p), n.Called τ

/-- The adversary has a trie and a path to its root that shows nothing where there is something. -/
def FalseAbsence {len : ℕ} {domains : Finset Fr} (leaf : Fr) (τ : Seen len domains) : Prop :=
  ∃ (t : Trie) (D : Fr) (ns : List PathNode) (p : List PathStep), t.Nodes leaf D ns ∧ (∀ s ∈ p, s.dom ≠ leaf) ∧ pathRoot 0 p = D ∧
    t.at (p.reverse.map PathStep.onRight) ≠ some .empty ∧ ∀ n ∈ ns ++ pathNodes 0 p, n.Called τ

/-! ### Theorems -/

theorem frequency_mono {Ω : Type} [Finite Ω] {P Q : Ω → Prop} (h : ∀ ω, P ω → Q ω) : frequency P ≤ frequency Q := by
  have h1 : {ω | P ω}.ncard ≤ {ω | Q ω}.ncard := Set.ncard_le_ncard (fun ω hω => h ω hω) (Set.toFinite _)
  rw [frequency, frequency]
  exact div_le_div_of_nonneg_right (by exact_mod_cast h1) (Nat.cast_nonneg _)

theorem frequency_or {Ω : Type} [Finite Ω] (P Q : Ω → Prop) : frequency (fun ω => P ω ∨ Q ω) ≤ frequency P + frequency Q := by
  have h1 : {ω | P ω ∨ Q ω}.ncard ≤ {ω | P ω}.ncard + {ω | Q ω}.ncard := Set.ncard_union_le _ _
  rw [frequency, frequency, frequency, ← add_div]
  exact div_le_div_of_nonneg_right (by exact_mod_cast h1) (Nat.cast_nonneg _)

/-- Calls with the same digest, or digest 0. -/
def Unlucky {len : ℕ} {domains : Finset Fr} (τ : Seen len domains) : Prop :=
  (∃ p ∈ calls τ, ∃ p' ∈ calls τ, p.1 ≠ p'.1 ∧ p.2.2 = p'.2.2) ∨ ∃ p ∈ calls τ, p.2.2 = .ok 0

theorem Clashes.unlucky {len : ℕ} {domains : Finset Fr} {τ : Seen len domains} {ns ms : List PathNode} (h : Clashes ns ms)
    (hc : ∀ n ∈ ns ++ ms, n.Called τ) : Unlucky τ := by
  rcases h with ⟨n, h1, n', h2, h3, h4⟩ | ⟨n, h1, h2⟩
  · obtain ⟨p, q1, q2, q3⟩ := hc n (List.mem_append_left _ h1)
    obtain ⟨p', q1', q2', q3'⟩ := hc n' (List.mem_append_right _ h2)
    refine .inl ⟨p, q1, p', q1', fun e => h4 ?_, by rw [q3, q3', h3]⟩
    rw [e, q2'] at q2
    injection q2 with e1 e2 e3
    rw [e1, e2, e3]
  · obtain ⟨p, q1, q2, q3⟩ := hc n h1
    exact .inr ⟨p, q1, by rw [q3, h2]⟩

variable (legacy : Bool) {len : ℕ} (hl : len < 2 ^ 64) {domains : Finset Fr}
  (hd : ∀ l, 1 ≤ l → l ≤ len → ((l * if legacy then 1 else 2 ^ 64 : ℕ) : Fr) ∉ domains)
include hl hd

theorem unlucky_le (A : Distinguisher len domains) (N σ : ℕ)
    (hσ : ∀ (f : ValidCall len domains → Fr) (coins : ℕ → State Fr 3),
      blocks (simulated (validCalls legacy len hl domains hd) A f coins N) ≤ σ) :
    frequency (fun π => Unlucky (withCode legacy A N π)) ≤
      ((N * N + N + (N + σ) * (N + σ + (len + domains.card)) : ℕ) : ℚ) / (r : ℕ) := by
  classical
  have h := (abs_le.1 (C106_indifferentiable legacy hl hd A N σ hσ Unlucky)).2
  have hr : (0 : ℚ) < (r : ℕ) := by exact_mod_cast (by norm_num [r] : 0 < r)
  have hk : (0 : ℚ) < Nat.card ((ValidCall len domains → Fr) × (Fin N → State Fr 3)) := by exact_mod_cast Nat.card_pos
  have h1 : frequency (fun ω => ∃ p ∈ calls (withSimulator legacy hl hd A N ω), ∃ p' ∈ calls (withSimulator legacy hl hd A N ω),
      p.1 ≠ p'.1 ∧ p.2.2 = p'.2.2) ≤ ((N * N : ℕ) : ℚ) / (r : ℕ) := by
    have ht := collision_le (validCalls legacy len hl domains hd) A (ZMod.card r) N
    rw [frequency, div_le_div_iff₀ hk hr, Nat.card_eq_fintype_card]
    exact_mod_cast ht
  have h2 : frequency (fun ω => ∃ p ∈ calls (withSimulator legacy hl hd A N ω), p.2.2 = .ok 0) ≤ ((N : ℕ) : ℚ) / (r : ℕ) := by
    have ht := touch_le (validCalls legacy len hl domains hd) A (ZMod.card r) N 1 (fun _ => {0}) (fun _ => le_rfl)
    have hsub : {ω : (ValidCall len domains → Fr) × (Fin N → State Fr 3) |
        ∃ p ∈ calls (withSimulator legacy hl hd A N ω), p.2.2 = .ok 0}.ncard ≤
        {ω : Coins (ValidCall len domains) Fr N | ∃ j < N, ∃ x, touch (validCalls legacy len hl domains hd) A
          (simulated (validCalls legacy len hl domains hd) A ω.1 (coin ω.2) j) = some x ∧ ω.1 x ∈ ({0} : Finset Fr)}.ncard := by
      refine Set.ncard_le_ncard ?_ (Set.toFinite _)
      rintro ω ⟨p, hp, he⟩
      obtain ⟨h1, j, hj, h2⟩ := simulated_calls (validCalls legacy len hl domains hd) A N p hp
      rw [h1] at he
      exact ⟨j, hj, p.1, h2, Finset.mem_singleton.2 (by injection he)⟩
    have ht := (Nat.mul_le_mul_right _ hsub).trans ht
    rw [Nat.mul_one] at ht
    rw [frequency, div_le_div_iff₀ hk hr, Nat.card_eq_fintype_card]
    exact_mod_cast ht
  have h3 : frequency (fun ω => Unlucky (withSimulator legacy hl hd A N ω)) ≤ ((N * N : ℕ) : ℚ) / (r : ℕ) + ((N : ℕ) : ℚ) / (r : ℕ) :=
    (frequency_or _ _).trans (add_le_add h1 h2)
  rw [Nat.cast_add, add_div, Nat.cast_add, add_div]
  linarith

/-- **C110.** With a random permutation, two tries with one root, a false leaf, or a false absence are hard to find. -/
theorem C110_trie (leaf : Fr) (A : Distinguisher len domains) (N σ : ℕ)
    (hσ : ∀ (f : ValidCall len domains → Fr) (coins : ℕ → State Fr 3),
      blocks (simulated (validCalls legacy len hl domains hd) A f coins N) ≤ σ) :
    frequency (fun π => TwoTries leaf (withCode legacy A N π) ∨ FalseLeaf leaf (withCode legacy A N π) ∨
        FalseAbsence leaf (withCode legacy A N π)) ≤
      ((N * N + N + (N + σ) * (N + σ + (len + domains.card)) : ℕ) : ℚ) / (r : ℕ) := by
  refine (frequency_mono fun π h => ?_).trans (unlucky_le legacy hl hd A N σ hσ)
  rcases h with ⟨t, t', D, ns, ns', h1, h2, h3, h4⟩ | ⟨t, D, w, a, b, ns, p, h1, h2, h3, h4, h5⟩ | ⟨t, D, ns, p, h1, h2, h3, h4, h5⟩
  · exact (Clashes.of_bind h1 h2 h3).unlucky h4
  · exact (Clashes.of_member h1 p h2 h3 h4).unlucky h5
  · exact (Clashes.of_absent h1 p h2 h3 h4).unlucky h5

/-- **C110**, in numbers: with `2^120` steps and blocks, at most `2^-12`. -/
theorem C110_numbers (leaf : Fr) (A : Distinguisher len domains) (N σ : ℕ)
    (hσ : ∀ (f : ValidCall len domains → Fr) (coins : ℕ → State Fr 3),
      blocks (simulated (validCalls legacy len hl domains hd) A f coins N) ≤ σ) (hn : N + σ ≤ 2 ^ 120) (hR : len + domains.card < 2 ^ 64) :
    frequency (fun π => TwoTries leaf (withCode legacy A N π) ∨ FalseLeaf leaf (withCode legacy A N π) ∨
        FalseAbsence leaf (withCode legacy A N π)) ≤ 1 / 2 ^ 12 := by
  refine (C110_trie legacy hl hd leaf A N σ hσ).trans ?_
  have h1 : N * N + N + (N + σ) * (N + σ + (len + domains.card)) ≤ 2 ^ 120 * 2 ^ 120 + 2 ^ 120 + 2 ^ 120 * (2 ^ 120 + 2 ^ 64) :=
    Nat.add_le_add (Nat.add_le_add (Nat.mul_le_mul (by omega) (by omega)) (by omega)) (Nat.mul_le_mul hn (by omega))
  have h2 : (2 ^ 120 * 2 ^ 120 + 2 ^ 120 + 2 ^ 120 * (2 ^ 120 + 2 ^ 64)) * 2 ^ 12 ≤ r := by norm_num [r]
  have h3 := (Nat.mul_le_mul_right (2 ^ 12) h1).trans h2
  have hr : (0 : ℚ) < (r : ℕ) := by exact_mod_cast (by norm_num [r] : 0 < r)
  rw [div_le_div_iff₀ hr (by positivity), one_mul]
  exact_mod_cast h3

omit hl hd

/-! ### Examples -/

/-- The adversary that calls the nodes of a trie of two leaves and a branch, and then one more leaf. -/
noncomputable def trieAdversary : Distinguisher 0 {1, 2} := fun τ => match τ with
  | [] => .call ⟨.node 1 5 6, by simp [Call.Valid]⟩
  | [.called _ _] => .call ⟨.node 1 7 8, by simp [Call.Valid]⟩
  | [.called _ (.ok b), .called _ (.ok a)] => .call ⟨.node 2 a b, by simp [Call.Valid]⟩
  | _ => .call ⟨.node 1 9 9, by simp [Call.Valid]⟩

example (leaf : Fr) : frequency (fun π => TwoTries leaf (withCode false trieAdversary 4 π) ∨
    FalseLeaf leaf (withCode false trieAdversary 4 π) ∨ FalseAbsence leaf (withCode false trieAdversary 4 π)) ≤ 1 / 2 ^ 12 := by
  refine C110_numbers false (len := 0) (by norm_num) (fun l h1 h2 => by omega) leaf trieAdversary 4 4 (fun f coins => ?_) (by norm_num)
    (by rw [Nat.zero_add]; exact lt_of_le_of_lt (Finset.card_insert_le _ _) (by simp))
  have : ∀ τ : Seen 0 {1, 2}, blocks τ ≤ τ.length := by
    intro τ
    induction τ with
    | nil => exact le_rfl
    | cons e τ ih =>
      cases e with
      | asked e => exact ih.trans (Nat.le_succ _)
      | called x d =>
        have e1 : blocks (Event.called x d :: τ) = x.1.blocks.length + blocks τ := rfl
        obtain ⟨m | ⟨d', a, b⟩, hx⟩ := x
        · have h1 : 0 < m.length := List.length_pos_iff.2 hx.1
          have h2 : m.length ≤ 0 := hx.2
          omega
        · rw [e1, List.length_cons, Nat.add_comm]
          exact Nat.succ_le_succ ih
  have h := this (simulated (validCalls false 0 (by norm_num) {1, 2} (fun l h1 h2 => by omega)) trieAdversary f coins 4)
  rwa [simulated_length] at h

end Props
