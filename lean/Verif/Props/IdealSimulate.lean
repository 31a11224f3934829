import Verif.Props.IdealDigest
import Verif.Props.IdealSimulateGame
import Mathlib.Data.Set.Finite.List
import Mathlib.Tactic.FieldSimp
import Mathlib.Tactic.Linarith

/-!
# The hash function cannot be told from a random function: C106

`hash_msg` and `hash_with_domain` with a random permutation, which the adversary may ask in both directions, cannot be told from
a random function with a simulated permutation. The simulator sees the questions to the permutation only, not the calls, and may
itself call the random function.
-/

set_option linter.unusedVariables false
set_option linter.unusedSectionVars false

namespace Props
open Base Base.Bn256 Collide Ideal Game Simulate

/-! ### The calls -/

/-- Messages of 1 to `len` words, and nodes with given domains. -/
abbrev ValidCall (len : ℕ) (domains : Finset Fr) : Type := {x : Call // x.Valid len domains}

instance (len : ℕ) (domains : Finset Fr) : Finite (ValidCall len domains) := by
  have h : {x : Call | x.Valid len domains} ⊆ Call.msg '' {m | m.length ≤ len} ∪
      Set.range fun u : Fr × Fr × Fr => Call.node u.1 u.2.1 u.2.2 := by
    rintro (m | ⟨d, a, b⟩) hx
    · exact .inl ⟨m, hx.2, rfl⟩
    · exact .inr ⟨(d, a, b), rfl⟩
  exact (((List.finite_length_le Fr len).image _).union (Set.finite_range _)).subset h |>.to_subtype

noncomputable instance (len : ℕ) (domains : Finset Fr) : Fintype (ValidCall len domains) := Fintype.ofFinite _

/-- The calls of C104 that are valid. -/
def validCalls (legacy : Bool) (len : ℕ) (hl : len < 2 ^ 64) (domains : Finset Fr)
    (hd : ∀ l, 1 ≤ l → l ≤ len → ((l * if legacy then 1 else 2 ^ 64 : ℕ) : Fr) ∉ domains) : Calls (ValidCall len domains) Fr where
  run x perm := x.1.run legacy perm
  enc x := (x.1.cap legacy, x.1.blocks)
  valid _ := True
  roots := (callsOf legacy len hl domains hd).roots
  run_eq x _ perm := (callsOf legacy len hl domains hd).run_eq x.1 x.2 perm
  inj x y _ _ h := Subtype.ext ((callsOf legacy len hl domains hd).inj x.1 y.1 x.2 y.2 h)
  root x _ := (callsOf legacy len hl domains hd).root x.1 x.2
  ne_nil x _ := (callsOf legacy len hl domains hd).ne_nil x.1 x.2
  length x y _ _ h := (callsOf legacy len hl domains hd).length x.1 y.1 x.2 y.2 h

/-! ### Specification -/

/-- How often something happens. -/
noncomputable def frequency {Ω : Type} (P : Ω → Prop) : ℚ := {ω | P ω}.ncard / Nat.card Ω

/-- What a distinguisher has seen. -/
abbrev Seen (len : ℕ) (domains : Finset Fr) := List (Event (State Fr 3) (ValidCall len domains) (Except Panic Fr))

/-- A distinguisher: from what it has seen it decides what to do next. -/
abbrev Distinguisher (len : ℕ) (domains : Finset Fr) := Seen len domains → Move (State Fr 3) (ValidCall len domains)

variable (legacy : Bool) {len : ℕ} (hl : len < 2 ^ 64) {domains : Finset Fr}
  (hd : ∀ l, 1 ≤ l → l ≤ len → ((l * if legacy then 1 else 2 ^ 64 : ℕ) : Fr) ∉ domains)

/-- The code, run with the permutation `π` that the distinguisher can ask. -/
def withCode (A : Distinguisher len domains) (N : ℕ) (π : Equiv.Perm (State Fr 3)) : Seen len domains :=
  play A π (fun x _ => x.1.run legacy π) N

/-- The function `ω.1` of the calls, and the simulator with the random states `ω.2`. -/
noncomputable def withSimulator (A : Distinguisher len domains) (N : ℕ)
    (ω : (ValidCall len domains → Fr) × (Fin N → State Fr 3)) : Seen len domains :=
  simulated (validCalls legacy len hl domains hd) A ω.1 (coin ω.2) N

/-- The number of blocks in the calls. -/
def blocks (τ : Seen len domains) : ℕ := ((calls τ).map fun p => p.1.1.blocks.length).sum

/-! ### Theorems -/

theorem ratio_le {X Z K L D q : ℕ} (hK : 0 < K) (hL : 0 < L) (hq : 0 < q)
    (h : X * L * q ≤ Z * K * q + D * K * L) : (X : ℚ) / K - (Z : ℚ) / L ≤ (D : ℚ) / q := by
  have h' : (X : ℚ) * L * q ≤ Z * K * q + D * K * L := by exact_mod_cast h
  have hK' : (0 : ℚ) < K := by exact_mod_cast hK
  have hL' : (0 : ℚ) < L := by exact_mod_cast hL
  have hq' : (0 : ℚ) < q := by exact_mod_cast hq
  rw [div_sub_div _ _ hK'.ne' hL'.ne', div_le_div_iff₀ (mul_pos hK' hL') hq']
  nlinarith

theorem frequency_not {Ω : Type} [Finite Ω] [Nonempty Ω] (P : Ω → Prop) : frequency (fun ω => ¬ P ω) = 1 - frequency P := by
  have h := Set.ncard_add_ncard_compl {ω | P ω}
  have hc : (0 : ℚ) < Nat.card Ω := by exact_mod_cast Nat.card_pos
  rw [frequency, frequency, eq_sub_iff_add_eq, ← add_div, div_eq_one_iff_eq hc.ne', add_comm]
  exact_mod_cast h

section
include hl hd

/-- One direction. -/
theorem frequency_le (A : Distinguisher len domains) (N σ : ℕ)
    (hσ : ∀ (f : ValidCall len domains → Fr) (coins : ℕ → State Fr 3),
      blocks (simulated (validCalls legacy len hl domains hd) A f coins N) ≤ σ) (E : Seen len domains → Prop) :
    frequency (fun ω => E (withSimulator legacy hl hd A N ω)) - frequency (fun π => E (withCode legacy A N π)) ≤
      (((N + σ) * (N + σ + (len + domains.card)) : ℕ) : ℚ) / (r : ℕ) := by
  classical
  have hR : (validCalls legacy len hl domains hd).roots.card ≤ len + domains.card := Call.card_caps legacy len domains
  have h := simulated_le (ZMod.card r) (validCalls legacy len hl domains hd) (fun _ => trivial) A N σ hσ E
  have h := h.trans (Nat.add_le_add_left (Nat.mul_le_mul_right _ (Nat.mul_le_mul_right _
    (Nat.mul_le_mul_left (N + σ) (Nat.add_le_add_left hR (N + σ))))) _)
  have hp : Nat.card (Equiv.Perm (State Fr 3)) = (r ^ 3).factorial := by
    rw [Nat.card_eq_fintype_card, Fintype.card_perm, card_state, ZMod.card r, ← pow_succ]
  have hk : Nat.card ((ValidCall len domains → Fr) × (Fin N → State Fr 3)) = Fintype.card (Coins (ValidCall len domains) Fr N) :=
    Nat.card_eq_fintype_card
  rw [frequency, frequency, hp, hk]
  exact ratio_le Fintype.card_pos (Nat.factorial_pos _) (by norm_num [r]) h

/-- **C106.** Every event has almost the same frequency with the code and a random permutation as with a random function and the
simulator. -/
theorem C106_indifferentiable (A : Distinguisher len domains) (N σ : ℕ)
    (hσ : ∀ (f : ValidCall len domains → Fr) (coins : ℕ → State Fr 3),
      blocks (simulated (validCalls legacy len hl domains hd) A f coins N) ≤ σ) (E : Seen len domains → Prop) :
    |frequency (fun π => E (withCode legacy A N π)) - frequency (fun ω => E (withSimulator legacy hl hd A N ω))| ≤
      (((N + σ) * (N + σ + (len + domains.card)) : ℕ) : ℚ) / (r : ℕ) := by
  have h1 := frequency_le legacy hl hd A N σ hσ E
  have h2 := frequency_le legacy hl hd A N σ hσ fun τ => ¬ E τ
  rw [frequency_not, frequency_not] at h2
  rw [abs_le]
  constructor <;> linarith

/-- **C106**, without a bound on the calls: a call has at most `len / 2 + 1` blocks. -/
theorem C106_steps (A : Distinguisher len domains) (N : ℕ) (E : Seen len domains → Prop) :
    |frequency (fun π => E (withCode legacy A N π)) - frequency (fun ω => E (withSimulator legacy hl hd A N ω))| ≤
      (((N + N * (len / 2 + 1)) * (N + N * (len / 2 + 1) + (len + domains.card)) : ℕ) : ℚ) / (r : ℕ) := by
  refine C106_indifferentiable legacy hl hd A N _ (fun f coins => ?_) E
  have hb : ∀ x : ValidCall len domains, x.1.blocks.length ≤ len / 2 + 1 := by
    rintro ⟨m | ⟨d, a, b⟩, hx⟩
    · have h : (pairs m).length = (m.length + 1) / 2 := pairs_length m
      have h2 : m.length ≤ len := hx.2
      show (pairs m).length ≤ _
      omega
    · show 1 ≤ _
      omega
  have hc : ∀ τ : Seen len domains, blocks τ ≤ τ.length * (len / 2 + 1) := by
    intro τ
    induction τ with
    | nil => exact Nat.zero_le _
    | cons e τ ih =>
      rw [List.length_cons, Nat.add_mul, Nat.one_mul]
      cases e with
      | asked e => exact ih.trans (Nat.le_add_right _ _)
      | called x d =>
        have : blocks (Event.called x d :: τ) = x.1.blocks.length + blocks τ := rfl
        rw [this]
        have := hb x
        omega
  have := hc (simulated (validCalls legacy len hl domains hd) A f coins N)
  rwa [simulated_length] at this

/-- **C106**, in numbers: with `2^120` steps and blocks and up to `2^64` capacities, no event differs by more than `2^-13`. -/
theorem C106_numbers (A : Distinguisher len domains) (N σ : ℕ)
    (hσ : ∀ (f : ValidCall len domains → Fr) (coins : ℕ → State Fr 3),
      blocks (simulated (validCalls legacy len hl domains hd) A f coins N) ≤ σ) (hn : N + σ ≤ 2 ^ 120)
    (hR : len + domains.card < 2 ^ 64) (E : Seen len domains → Prop) :
    |frequency (fun π => E (withCode legacy A N π)) - frequency (fun ω => E (withSimulator legacy hl hd A N ω))| ≤ 1 / 2 ^ 13 := by
  refine (C106_indifferentiable legacy hl hd A N σ hσ E).trans ?_
  have h1 : (N + σ) * (N + σ + (len + domains.card)) ≤ 2 ^ 120 * (2 ^ 120 + 2 ^ 64) := Nat.mul_le_mul hn (by omega)
  have h2 : 2 ^ 120 * (2 ^ 120 + 2 ^ 64) * 2 ^ 13 ≤ r := by norm_num [r]
  have h3 : (N + σ) * (N + σ + (len + domains.card)) * 2 ^ 13 ≤ r := (Nat.mul_le_mul_right _ h1).trans h2
  have hr : (0 : ℚ) < (r : ℕ) := by exact_mod_cast (by norm_num [r] : 0 < r)
  rw [div_le_div_iff₀ hr (by positivity), one_mul]
  exact_mod_cast h3

/-- **C106**, a use: if for each call at most `s` digests are wanted, a call with a wanted digest is hard to find. -/
theorem C106_wanted (A : Distinguisher len domains) (N σ : ℕ)
    (hσ : ∀ (f : ValidCall len domains → Fr) (coins : ℕ → State Fr 3),
      blocks (simulated (validCalls legacy len hl domains hd) A f coins N) ≤ σ) (s : ℕ)
    (W : ValidCall len domains → Finset Fr) (hW : ∀ x, (W x).card ≤ s) :
    frequency (fun π => ∃ p ∈ calls (withCode legacy A N π), ∃ y ∈ W p.1, p.2.2 = .ok y) ≤
      ((N * s + (N + σ) * (N + σ + (len + domains.card)) : ℕ) : ℚ) / (r : ℕ) := by
  classical
  have h := (abs_le.1 (C106_indifferentiable legacy hl hd A N σ hσ fun τ => ∃ p ∈ calls τ, ∃ y ∈ W p.1, p.2.2 = .ok y)).2
  have h2 : frequency (fun ω => ∃ p ∈ calls (withSimulator legacy hl hd A N ω), ∃ y ∈ W p.1, p.2.2 = .ok y) ≤
      ((N * s : ℕ) : ℚ) / (r : ℕ) := by
    have ht := touch_le (validCalls legacy len hl domains hd) A (ZMod.card r) N s W hW
    have hsub : {ω : (ValidCall len domains → Fr) × (Fin N → State Fr 3) |
        ∃ p ∈ calls (withSimulator legacy hl hd A N ω), ∃ y ∈ W p.1, p.2.2 = .ok y}.ncard ≤
        {ω : Coins (ValidCall len domains) Fr N | ∃ j < N, ∃ x, touch (validCalls legacy len hl domains hd) A
          (simulated (validCalls legacy len hl domains hd) A ω.1 (coin ω.2) j) = some x ∧ ω.1 x ∈ W x}.ncard := by
      refine Set.ncard_le_ncard ?_ (Set.toFinite _)
      rintro ω ⟨p, hp, y, hy, he⟩
      obtain ⟨h1, j, hj, h2⟩ := simulated_calls (validCalls legacy len hl domains hd) A N p hp
      rw [h1] at he
      obtain rfl : ω.1 p.1 = y := by injection he
      exact ⟨j, hj, p.1, h2, hy⟩
    have ht := (Nat.mul_le_mul_right _ hsub).trans ht
    have hr : (0 : ℚ) < (r : ℕ) := by exact_mod_cast (by norm_num [r] : 0 < r)
    have hk : (0 : ℚ) < Nat.card ((ValidCall len domains → Fr) × (Fin N → State Fr 3)) := by exact_mod_cast Nat.card_pos
    rw [frequency, div_le_div_iff₀ hk hr, Nat.card_eq_fintype_card]
    exact_mod_cast ht
  rw [Nat.cast_add, add_div]
  linarith

end

/-- **C106**, what the simulator knows: it calls the function at most once for a question, and its answer depends on the questions
before, the random state and this digest only. -/
theorem C106_oracle {C : Type} (O : Calls C Fr) (coin : State Fr 3) (H : List (Entry (State Fr 3))) (a : Bool × State Fr 3) :
    ∃ l : List C, l.length ≤ 1 ∧ ∀ f f' : C → Fr, (∀ x ∈ l, f x = f' x) → simulate O f coin H a = simulate O f' coin H a := by
  obtain ⟨d, s⟩ := a
  cases d with
  | false => exact ⟨[], Nat.zero_le _, fun f f' _ => rfl⟩
  | true =>
    by_cases h1 : ∃ e ∈ H, e.2.1 = s
    · refine ⟨[], Nat.zero_le _, fun f f' _ => ?_⟩
      simp only [simulate, dif_pos h1]
    · by_cases h2 : ∃ x, Completes O H s x
      · refine ⟨[h2.choose], le_rfl, fun f f' h => ?_⟩
        simp only [simulate, dif_neg h1, dif_pos h2]
        rw [h _ List.mem_cons_self]
      · refine ⟨[], Nat.zero_le _, fun f f' _ => ?_⟩
        simp only [simulate, dif_neg h1, dif_neg h2]

/-- **C106**, the condition on the domains is needed: if a domain is the capacity of messages of two words, the digests of the node
and of the message are the same, and those of a random function are not. -/
theorem C106_needed (a b : Fr) (d : Fr) (hd2 : d = ((2 * if legacy then 1 else 2 ^ 64 : ℕ) : Fr))
    (x y : ValidCall 2 {d}) (hx : x.1 = .msg [a, b]) (hy : y.1 = .node d a b) :
    frequency (fun π : Equiv.Perm (State Fr 3) => x.1.run legacy π = y.1.run legacy π) = 1 ∧
      frequency (fun f : ValidCall 2 {d} → Fr => f x = f y) ≤ 1 / (r : ℕ) := by
  classical
  constructor
  · have h : {π : Equiv.Perm (State Fr 3) | x.1.run legacy π = y.1.run legacy π} = Set.univ := by
      refine Set.eq_univ_of_forall fun π => ?_
      show x.1.run legacy π = y.1.run legacy π
      rw [Call.run_eq legacy π (by norm_num) x.2, Call.run_eq legacy π (by norm_num) y.2, hx, hy]
      have e1 : (Call.msg [a, b]).cap legacy = (Call.node d a b).cap legacy := hd2.symm
      have e2 : (Call.msg [a, b]).blocks = (Call.node d a b).blocks := rfl
      rw [e1, e2]
    have hc : (0 : ℚ) < Nat.card (Equiv.Perm (State Fr 3)) := by exact_mod_cast Nat.card_pos
    rw [frequency, h, Set.ncard_univ, div_self hc.ne']
  · have hxy : x ≠ y := by
      rintro rfl
      rw [hx] at hy
      cases hy
    have h := coord_le (X := Unit) (Y := Fr) (K := ValidCall 2 {d}) x (fun ω => {ω.2 y})
      (fun ω v => by simp only [Function.update_of_ne hxy.symm]) 1 fun _ => le_rfl
    have hle : {f : ValidCall 2 {d} → Fr | f x = f y}.ncard ≤
        {ω : Unit × (ValidCall 2 {d} → Fr) | ω.2 x ∈ ({ω.2 y} : Finset Fr)}.ncard := by
      refine Set.ncard_le_ncard_of_injOn (fun f => ((), f)) ?_ ?_ (Set.toFinite _)
      · intro f hf
        exact Finset.mem_singleton.2 hf
      · intro f _ f' _ h
        exact (Prod.mk.inj h).2
    have h := (Nat.mul_le_mul_right _ hle).trans h
    rw [ZMod.card r, Fintype.card_prod, Fintype.card_unit, one_mul] at h
    have hr : (0 : ℚ) < (r : ℕ) := by exact_mod_cast (by norm_num [r] : 0 < r)
    have hk : (0 : ℚ) < Nat.card (ValidCall 2 {d} → Fr) := by exact_mod_cast Nat.card_pos
    rw [frequency, div_le_div_iff₀ hk hr, Nat.card_eq_fintype_card]
    exact_mod_cast h

/-! ### Examples -/

/-- A question to the permutation, the call with this evaluation, a question to the inverse, and the call of a message. -/
def exampleDistinguisher : Distinguisher 3 {0} := fun τ => match τ.length with
  | 0 => .ask (true, vec (0, 1, 2))
  | 1 => .call ⟨.node 0 1 2, Finset.mem_singleton_self 0⟩
  | 2 => .ask (false, vec (7, 8, 9))
  | _ => .call ⟨.msg [5, 6, 7], by simp [Call.Valid]⟩

theorem example_domains : ∀ l, 1 ≤ l → l ≤ 3 → ((l * if false then 1 else 2 ^ 64 : ℕ) : Fr) ∉ ({0} : Finset Fr) := by
  intro l h1 h2
  rw [Finset.mem_singleton]
  interval_cases l <;> decide

theorem example_blocks (f : ValidCall 3 {0} → Fr) (coins : ℕ → State Fr 3) :
    blocks (simulated (validCalls false 3 (by norm_num) {0} example_domains) exampleDistinguisher f coins 4) ≤ 3 := by
  have : calls (simulated (validCalls false 3 (by norm_num) {0} example_domains) exampleDistinguisher f coins 4) =
      [(⟨.msg [5, 6, 7], by simp [Call.Valid]⟩, 3, .ok (f ⟨.msg [5, 6, 7], by simp [Call.Valid]⟩)),
        (⟨.node 0 1 2, Finset.mem_singleton_self 0⟩, 1, .ok (f ⟨.node 0 1 2, Finset.mem_singleton_self 0⟩))] := rfl
  rw [blocks, this]
  simp [Call.blocks, pairs]

/-- No test on what the example sees tells the code from a random function. -/
example (E : Seen 3 {0} → Prop) : |frequency (fun π => E (withCode false exampleDistinguisher 4 π)) -
    frequency (fun ω => E (withSimulator false (by norm_num) example_domains exampleDistinguisher 4 ω))| ≤
    (((4 + 3) * (4 + 3 + (3 + 1)) : ℕ) : ℚ) / (r : ℕ) := by
  have h := C106_indifferentiable false (by norm_num) example_domains exampleDistinguisher 4 3 example_blocks E
  rwa [Finset.card_singleton] at h

/-- The example finds a digest that is one of the words of the call with frequency at most `89 / r`. -/
example : frequency (fun π => ∃ p ∈ calls (withCode false exampleDistinguisher 4 π),
    ∃ y ∈ ((p.1.1.blocks.flatMap fun b => [b.1, b.2]).take 3).toFinset, p.2.2 = .ok y) ≤ (89 : ℕ) / (r : ℕ) := by
  have h := C106_wanted false (by norm_num) example_domains exampleDistinguisher 4 3 example_blocks 3
    (fun x => ((x.1.blocks.flatMap fun b => [b.1, b.2]).take 3).toFinset)
    (fun x => (List.toFinset_card_le _).trans (by rw [List.length_take]; omega))
  rwa [Finset.card_singleton] at h

/-- The simulator gives the evaluation of a call the digest of the call. -/
example (f : ValidCall 3 {0} → Fr) (coin : State Fr 3) :
    simulate (validCalls false 3 (by norm_num) {0} example_domains) f coin [] (true, vec (0, 1, 2)) =
      (true, vec (0, 1, 2), ![f ⟨.node 0 1 2, Finset.mem_singleton_self 0⟩, coin 1, coin 2]) := by
  set O := validCalls false 3 (by norm_num) {0} example_domains
  have hc : Completes O [] (vec (0, 1, 2)) ⟨.node 0 1 2, Finset.mem_singleton_self 0⟩ :=
    ⟨[], (1, 2), (0, 0, 0), rfl, .nil, by simp [add]⟩
  have h1 : ¬ ∃ e ∈ ([] : List (Entry (State Fr 3))), e.2.1 = vec (0, 1, 2) := by simp
  have h2 : ∃ x, Completes O [] (vec (0, 1, 2)) x := ⟨_, hc⟩
  simp only [simulate, dif_neg h1, dif_pos h2]
  rw [(Inv.empty O (fun _ => trivial) f).completes (fun _ => trivial) h2.choose_spec hc]

/-- With the capacity of two words as a domain. -/
example : frequency (fun π : Equiv.Perm (State Fr 3) => (Call.msg [1, 2]).run false π =
    (Call.node ((2 * 2 ^ 64 : ℕ) : Fr) 1 2).run false π) = 1 :=
  (C106_needed false 1 2 ((2 * 2 ^ 64 : ℕ) : Fr) rfl ⟨.msg [1, 2], by simp [Call.Valid]⟩
    ⟨.node ((2 * 2 ^ 64 : ℕ) : Fr) 1 2, Finset.mem_singleton_self _⟩ rfl rfl).1

end Props
