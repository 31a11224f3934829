import Verif.Props.IdealSimulate

/-!
# Messages with a given capacity: C107

`hash_msg` takes the capacity from its caller, if given. If the capacities used determine the number of words, it cannot be told from
a random function either. The hash table is such a case: its control is a number of bytes, which fixes the number of rows.
-/

set_option linter.unusedVariables false
set_option linter.unusedSectionVars false

namespace Props
open Base Base.Bn256 Collide Ideal Game Simulate

/-! ### Collisions of the random function -/

namespace Simulate
section
variable {F : Type} [Field F] {C : Type} (O : Calls C F)
  (A : List (Event (State F 3) C (Except Panic F)) → Move (State F 3) C)

/-- The digests and the first words of values that were seen. -/
def seen : List (Event (State F 3) C (Except Panic F)) → List F
  | [] => []
  | .asked e :: τ => e.2.2 0 :: seen τ
  | .called _ (.ok d) :: τ => d :: seen τ
  | .called _ (.error _) :: τ => seen τ

theorem seen_length (τ : List (Event (State F 3) C (Except Panic F))) : (seen τ).length ≤ τ.length := by
  induction τ with
  | nil => exact le_rfl
  | cons e τ ih =>
    cases e with
    | asked e => simpa [seen] using ih
    | called x d =>
      cases d with
      | ok d => simpa [seen] using ih
      | error d => simpa [seen] using ih.trans (Nat.le_succ _)

theorem seen_cons {e : Event (State F 3) C (Except Panic F)} {τ : List (Event (State F 3) C (Except Panic F))} {y : F}
    (h : y ∈ seen τ) : y ∈ seen (e :: τ) := by
  cases e with
  | asked e => exact List.mem_cons_of_mem _ h
  | called x d =>
    cases d with
    | ok d => exact List.mem_cons_of_mem _ h
    | error d => exact h

/-- A value of the function is seen when it is evaluated. -/
theorem seen_touch {f : C → F} {coins : ℕ → State F 3} {j k : ℕ} (hj : j < k) {x : C}
    (h : touch O A (simulated O A f coins j) = some x) : f x ∈ seen (simulated O A f coins k) := by
  induction k, hj using Nat.le_induction with
  | succ k _ ih =>
    rw [simulated]
    exact seen_cons ih
  | base =>
    rw [simulated]
    simp only [touch] at h
    cases hA : A (simulated O A f coins j) with
    | call y =>
      rw [hA] at h
      obtain rfl : y = x := Option.some.inj h
      exact List.mem_cons_self
    | ask a =>
      rw [hA] at h
      obtain ⟨d, s⟩ := a
      cases d with
      | false => exact absurd h (by simp)
      | true =>
        by_cases h1 : ∃ e ∈ asks (simulated O A f coins j), e.2.1 = s
        · simp only [if_pos h1] at h
          exact absurd h (by simp)
        · by_cases h2 : ∃ x, Completes O (asks (simulated O A f coins j)) s x
          · simp only [if_neg h1, dif_pos h2, Option.some.injEq] at h
            subst h
            simp only [simulate, dif_neg h1, dif_pos h2, seen]
            exact List.mem_cons_self
          · simp only [if_neg h1, dif_neg h2] at h
            exact absurd h (by simp)

variable [Fintype F] [DecidableEq F] [Fintype C] [DecidableEq C]

/-- A new value of the function that was seen before is rare. -/
theorem fresh_le {q : ℕ} (hq : Fintype.card F = q) (N : ℕ) :
    {ω : Coins C F N | ∃ j < N, ∃ x, touch O A (simulated O A ω.1 (coin ω.2) j) = some x ∧
      (∀ i < j, touch O A (simulated O A ω.1 (coin ω.2) i) ≠ some x) ∧
      ω.1 x ∈ seen (simulated O A ω.1 (coin ω.2) j)}.ncard * q ≤ N * N * Fintype.card (Coins C F N) := by
  classical
  let g : ℕ → Coins C F N → Option C := fun j ω => touch O A (simulated O A ω.1 (coin ω.2) j)
  let T : ℕ → Finset (Coins C F N) := fun j => Finset.univ.filter fun ω =>
    ∃ x, g j ω = some x ∧ (∀ i < j, g i ω ≠ some x) ∧ ω.1 x ∈ seen (simulated O A ω.1 (coin ω.2) j)
  have one : ∀ j, (T j).card * q ≤ j * Fintype.card (Coins C F N) := by
    intro j
    let B : Coins C F N → Finset F := fun ω => (seen (simulated O A ω.1 (coin ω.2) j)).toFinset
    have hB : ∀ ω, (B ω).card ≤ j := by
      intro ω
      refine (List.toFinset_card_le _).trans ((seen_length _).trans_eq ?_)
      rw [simulated_length]
    have h2 : ((Finset.univ : Finset (Coins C F N)).sigma B).card ≤ j * Fintype.card (Coins C F N) := by
      rw [Finset.card_sigma]
      refine (Finset.sum_le_card_nsmul _ _ _ fun ω _ => hB ω).trans (le_of_eq ?_)
      rw [Finset.card_univ, smul_eq_mul, Nat.mul_comm]
    have upd : ∀ (ω : Coins C F N) x y, (∀ i < j, g i ω ≠ some x) → ∀ i ≤ j,
        simulated O A (Function.update ω.1 x y) (coin ω.2) i = simulated O A ω.1 (coin ω.2) i := by
      intro ω x y h i hi
      rw [simulated_update O A y fun k hk => h k (by omega)]
    rw [← hq, ← Finset.card_univ (α := F), ← Finset.card_product]
    refine le_trans (Finset.card_le_card_of_injOn (fun u => match g j u.1 with
      | some x => (⟨(Function.update u.1.1 x u.2, u.1.2), u.1.1 x⟩ : (_ : Coins C F N) × F)
      | none => ⟨u.1, 0⟩) ?_ ?_) h2
    · rintro ⟨ω, y⟩ hu
      obtain ⟨x, h1, h3, h4⟩ := (Finset.mem_filter.1 (Finset.mem_product.1 (Finset.mem_coe.1 hu)).1).2
      simp only at h1 h3 h4
      simp only [h1]
      refine Finset.mem_coe.2 (Finset.mem_sigma.2 ⟨Finset.mem_univ _, ?_⟩)
      simp only [B, upd ω x y h3 j le_rfl]
      exact List.mem_toFinset.2 h4
    · rintro ⟨ω, y⟩ hu ⟨ω', y'⟩ hu' h
      obtain ⟨x, h1, h3, -⟩ := (Finset.mem_filter.1 (Finset.mem_product.1 (Finset.mem_coe.1 hu)).1).2
      obtain ⟨x', h1', h3', -⟩ := (Finset.mem_filter.1 (Finset.mem_product.1 (Finset.mem_coe.1 hu')).1).2
      simp only at h1 h3 h1' h3'
      simp only [h1, h1', Sigma.mk.injEq, Prod.mk.injEq, heq_eq_eq] at h
      obtain ⟨⟨e1, e2⟩, e3⟩ := h
      have hx : x = x' := by
        have k1 := upd ω x y h3 j le_rfl
        have k2 := upd ω' x' y' h3' j le_rfl
        rw [e1, e2, k2] at k1
        have h1 : touch O A (simulated O A ω.1 (coin ω.2) j) = some x := h1
        have h1' : touch O A (simulated O A ω'.1 (coin ω'.2) j) = some x' := h1'
        rw [e2, ← k1, h1'] at h1
        exact (Option.some.inj h1).symm
      subst hx
      have hy : y = y' := by
        have := congrFun e1 x
        rwa [Function.update_self, Function.update_self] at this
      subst hy
      have hf : ω.1 = ω'.1 := by
        funext z
        by_cases hz : z = x
        · subst hz
          exact e3
        · have := congrFun e1 z
          rwa [Function.update_of_ne hz, Function.update_of_ne hz] at this
      exact Prod.ext (Prod.ext hf e2) rfl
  have hsub : {ω : Coins C F N | ∃ j < N, ∃ x, touch O A (simulated O A ω.1 (coin ω.2) j) = some x ∧
      (∀ i < j, touch O A (simulated O A ω.1 (coin ω.2) i) ≠ some x) ∧
      ω.1 x ∈ seen (simulated O A ω.1 (coin ω.2) j)}.ncard ≤ ((Finset.range N).biUnion T).card := by
    rw [← Set.ncard_coe_finset]
    refine Set.ncard_le_ncard ?_ (Set.toFinite _)
    rintro ω ⟨j, hj, h⟩
    exact Finset.mem_coe.2 (Finset.mem_biUnion.2 ⟨j, Finset.mem_range.2 hj, Finset.mem_filter.2 ⟨Finset.mem_univ _, h⟩⟩)
  refine (Nat.mul_le_mul_right _ (hsub.trans Finset.card_biUnion_le)).trans ?_
  rw [Finset.sum_mul]
  refine (Finset.sum_le_card_nsmul _ _ _ fun j hj => (one j).trans (Nat.mul_le_mul_right _ (Finset.mem_range.1 hj).le)).trans
    (le_of_eq ?_)
  rw [Finset.card_range, smul_eq_mul, Nat.mul_assoc]

/-- Collisions among the calls are rare. -/
theorem collision_le {q : ℕ} (hq : Fintype.card F = q) (N : ℕ) :
    {ω : Coins C F N | ∃ p ∈ calls (simulated O A ω.1 (coin ω.2) N), ∃ p' ∈ calls (simulated O A ω.1 (coin ω.2) N),
      p.1 ≠ p'.1 ∧ p.2.2 = p'.2.2}.ncard * q ≤ N * N * Fintype.card (Coins C F N) := by
  classical
  refine le_trans (Nat.mul_le_mul_right _ (Set.ncard_le_ncard ?_ (Set.toFinite _))) (fresh_le O A hq N)
  have key : ∀ (ω : Coins C F N) (x y : C) (j k : ℕ), j < k → k < N →
      touch O A (simulated O A ω.1 (coin ω.2) j) = some x → touch O A (simulated O A ω.1 (coin ω.2) k) = some y →
      (∀ i < k, touch O A (simulated O A ω.1 (coin ω.2) i) ≠ some y) → ω.1 x = ω.1 y →
      ∃ j < N, ∃ x, touch O A (simulated O A ω.1 (coin ω.2) j) = some x ∧
        (∀ i < j, touch O A (simulated O A ω.1 (coin ω.2) i) ≠ some x) ∧ ω.1 x ∈ seen (simulated O A ω.1 (coin ω.2) j) := by
    intro ω x y j k hjk hk h1 h2 h3 h4
    refine ⟨k, hk, y, h2, h3, ?_⟩
    rw [← h4]
    exact seen_touch O A hjk h1
  rintro ω ⟨p, hp, p', hp', hne, heq⟩
  obtain ⟨e1, j, hj, t1⟩ := simulated_calls O A N p hp
  obtain ⟨e2, j', hj', t2⟩ := simulated_calls O A N p' hp'
  rw [e1, e2] at heq
  have heq : ω.1 p.1 = ω.1 p'.1 := by injection heq
  have x1 : ∃ j, touch O A (simulated O A ω.1 (coin ω.2) j) = some p.1 := ⟨j, t1⟩
  have x2 : ∃ j, touch O A (simulated O A ω.1 (coin ω.2) j) = some p'.1 := ⟨j', t2⟩
  have l1 := Nat.find_min' x1 t1
  have l2 := Nat.find_min' x2 t2
  rcases lt_trichotomy (Nat.find x1) (Nat.find x2) with h | h | h
  · exact key ω p.1 p'.1 _ _ h (by omega) (Nat.find_spec x1) (Nat.find_spec x2) (fun i hi => Nat.find_min x2 hi) heq
  · have a1 := Nat.find_spec x1
    have a2 := Nat.find_spec x2
    rw [h] at a1
    exact absurd (Option.some.inj (a1.symm.trans a2)) hne
  · exact key ω p'.1 p.1 _ _ h (by omega) (Nat.find_spec x2) (Nat.find_spec x1) (fun i hi => Nat.find_min x1 hi) heq.symm

end

/-! ### Frequencies -/

section
variable {C : Type} [Fintype C] (O : Calls C Fr) (hv : ∀ x, O.valid x)
  (A : List (Event (State Fr 3) C (Except Panic Fr)) → Move (State Fr 3) C) (N σ : ℕ)
  (hσ : ∀ (f : C → Fr) (coins : ℕ → State Fr 3), ((calls (simulated O A f coins N)).map fun p => (O.enc p.1).2.length).sum ≤ σ)
include hv hσ

theorem calls_le (E : List (Event (State Fr 3) C (Except Panic Fr)) → Prop) :
    frequency (fun ω : Coins C Fr N => E (simulated O A ω.1 (coin ω.2) N)) -
      frequency (fun π : Equiv.Perm (State Fr 3) => E (play A π (fun x _ => O.run x π) N)) ≤
      (((N + σ) * (N + σ + O.roots.card) : ℕ) : ℚ) / (r : ℕ) := by
  classical
  have h := simulated_le (ZMod.card r) O hv A N σ hσ E
  have hp : Nat.card (Equiv.Perm (State Fr 3)) = (r ^ 3).factorial := by
    rw [Nat.card_eq_fintype_card, Fintype.card_perm, card_state, ZMod.card r, ← pow_succ]
  have hk : Nat.card (Coins C Fr N) = Fintype.card (Coins C Fr N) := Nat.card_eq_fintype_card
  rw [frequency, frequency, hp, hk]
  exact ratio_le Fintype.card_pos (Nat.factorial_pos _) (by norm_num [r]) h

theorem calls_frequency (E : List (Event (State Fr 3) C (Except Panic Fr)) → Prop) :
    |frequency (fun π : Equiv.Perm (State Fr 3) => E (play A π (fun x _ => O.run x π) N)) -
      frequency (fun ω : Coins C Fr N => E (simulated O A ω.1 (coin ω.2) N))| ≤
      (((N + σ) * (N + σ + O.roots.card) : ℕ) : ℚ) / (r : ℕ) := by
  have h1 := calls_le O hv A N σ hσ E
  have h2 := calls_le O hv A N σ hσ fun τ => ¬ E τ
  rw [frequency_not, frequency_not] at h2
  rw [abs_le]
  constructor <;> linarith

theorem calls_collision :
    frequency (fun π : Equiv.Perm (State Fr 3) => ∃ p ∈ calls (play A π (fun x _ => O.run x π) N),
      ∃ p' ∈ calls (play A π (fun x _ => O.run x π) N), p.1 ≠ p'.1 ∧ p.2.2 = p'.2.2) ≤
      ((N * N + (N + σ) * (N + σ + O.roots.card) : ℕ) : ℚ) / (r : ℕ) := by
  classical
  have h := (abs_le.1 (calls_frequency O hv A N σ hσ fun τ => ∃ p ∈ calls τ, ∃ p' ∈ calls τ, p.1 ≠ p'.1 ∧ p.2.2 = p'.2.2)).2
  have h2 : frequency (fun ω : Coins C Fr N => ∃ p ∈ calls (simulated O A ω.1 (coin ω.2) N),
      ∃ p' ∈ calls (simulated O A ω.1 (coin ω.2) N), p.1 ≠ p'.1 ∧ p.2.2 = p'.2.2) ≤ ((N * N : ℕ) : ℚ) / (r : ℕ) := by
    have ht := collision_le O A (ZMod.card r) N
    have hr : (0 : ℚ) < (r : ℕ) := by exact_mod_cast (by norm_num [r] : 0 < r)
    have hk : (0 : ℚ) < Nat.card (Coins C Fr N) := by exact_mod_cast Nat.card_pos
    rw [frequency, div_le_div_iff₀ hk hr, Nat.card_eq_fintype_card]
    exact_mod_cast ht
  rw [Nat.cast_add, add_div]
  linarith

end
end Simulate

/-! ### The calls -/

/-- Calls of `hash_msg` with a capacity, and of `hash_with_domain`. -/
inductive CapCall
  | msg (cap : ℕ) (m : List Fr)
  | node (d a b : Fr)

/-- The capacity word and the pairs of words that a call absorbs. -/
def CapCall.word : CapCall → Fr
  | .msg cap _ => (cap : Fr)
  | .node d _ _ => d

def CapCall.blocks : CapCall → List (Fr × Fr)
  | .msg _ m => pairs m
  | .node _ a b => [(a, b)]

/-- The code of the call, with `perm` in place of the permutation. -/
def CapCall.run (legacy : Bool) (perm : State Fr 3 → State Fr 3) : CapCall → Except Panic Fr
  | .msg cap m => hashMsg legacy perm m (some cap)
  | .node d a b => hashWithDomain perm ![a, b] d

/-- Messages with a capacity `c` of `caps` and `lens c` words, and nodes with given domains. -/
def CapCall.Valid (caps : Finset ℕ) (lens : ℕ → ℕ) (domains : Finset Fr) : CapCall → Prop
  | .msg cap m => cap ∈ caps ∧ m.length = lens cap
  | .node d _ _ => d ∈ domains

/-- What the capacities have to fulfil: they are of type `u128`, they are not domains, and there is a message for each. -/
structure Lengths (caps : Finset ℕ) (lens : ℕ → ℕ) (domains : Finset Fr) : Prop where
  u128 : ∀ c ∈ caps, c < 2 ^ 128
  pos : ∀ c ∈ caps, 1 ≤ lens c
  usize : ∀ c ∈ caps, lens c < 2 ^ 64
  domain : ∀ c ∈ caps, (c : Fr) ∉ domains

variable {caps : Finset ℕ} {lens : ℕ → ℕ} {domains : Finset Fr}

theorem Lengths.inj (h : Lengths caps lens domains) {c c' : ℕ} (hc : c ∈ caps) (hc' : c' ∈ caps) (e : (c : Fr) = (c' : Fr)) :
    c = c' := by
  have hr : 2 ^ 128 < r := by norm_num [r]
  have e2 := (ZMod.natCast_eq_natCast_iff' c c' r).1 e
  rwa [Nat.mod_eq_of_lt ((h.u128 c hc).trans hr), Nat.mod_eq_of_lt ((h.u128 c' hc').trans hr)] at e2

/-- Two valid calls with the same capacity word are messages of the same capacity and length or nodes of the same domain. -/
theorem CapCall.of_word (h : Lengths caps lens domains) {x y : CapCall} (hx : x.Valid caps lens domains)
    (hy : y.Valid caps lens domains) (e : x.word = y.word) :
    (∃ c m m', x = .msg c m ∧ y = .msg c m' ∧ m.length = m'.length) ∨ ∃ d a b a' b', x = .node d a b ∧ y = .node d a' b' := by
  cases x with
  | msg c m =>
    cases y with
    | msg c' m' =>
      obtain rfl := h.inj hx.1 hy.1 e
      exact .inl ⟨c, m, m', rfl, rfl, hx.2.trans hy.2.symm⟩
    | node d a b =>
      have e : (c : Fr) = d := e
      have hy : d ∈ domains := hy
      rw [← e] at hy
      exact absurd hy (h.domain c hx.1)
  | node d a b =>
    cases y with
    | msg c' m' =>
      have e : d = (c' : Fr) := e
      have hx : d ∈ domains := hx
      rw [e] at hx
      exact absurd hx (h.domain c' hy.1)
    | node d' a' b' =>
      have e : d = d' := e
      subst e
      exact .inr ⟨d, a, b, a', b', rfl, rfl⟩

theorem CapCall.run_eq (legacy : Bool) (perm : State Fr 3 → State Fr 3) (h : Lengths caps lens domains) {x : CapCall}
    (hx : x.Valid caps lens domains) :
    x.run legacy perm = .ok (absorb (Spec.onTriples perm) (x.word, 0, 0) x.blocks).1 := by
  cases x with
  | msg c m =>
    have h1 := h.pos c hx.1
    have h2 := h.usize c hx.1
    rw [← hx.2] at h1 h2
    rw [CapCall.run, C05_hash_msg legacy perm m h2 (List.length_pos_iff.1 h1), Spec.spongeHash, absorb_pairs]
    rfl
  | node d a b =>
    rw [CapCall.run, (C04_hash_with_domain perm a b d).1]
    simp [CapCall.blocks, CapCall.word, absorb, Spec.onTriples]

/-- The valid calls. -/
abbrev ValidCapCall (caps : Finset ℕ) (lens : ℕ → ℕ) (domains : Finset Fr) : Type := {x : CapCall // x.Valid caps lens domains}

instance : Finite (ValidCapCall caps lens domains) := by
  have h : {x : CapCall | x.Valid caps lens domains} ⊆
      (⋃ c ∈ (caps : Set ℕ), CapCall.msg c '' {m | m.length = lens c}) ∪
      Set.range fun u : Fr × Fr × Fr => CapCall.node u.1 u.2.1 u.2.2 := by
    rintro (⟨c, m⟩ | ⟨d, a, b⟩) hx
    · exact .inl (Set.mem_biUnion (Finset.mem_coe.2 hx.1) ⟨m, hx.2, rfl⟩)
    · exact .inr ⟨(d, a, b), rfl⟩
  refine Set.Finite.to_subtype (Set.Finite.subset (Set.Finite.union ?_ (Set.finite_range _)) h)
  exact (Finset.finite_toSet caps).biUnion fun c _ => (List.finite_length_eq Fr (lens c)).image _

noncomputable instance : Fintype (ValidCapCall caps lens domains) := Fintype.ofFinite _

/-- The valid calls as calls of the game. -/
def capCalls (legacy : Bool) (h : Lengths caps lens domains) : Calls (ValidCapCall caps lens domains) Fr where
  run x perm := x.1.run legacy perm
  enc x := (x.1.word, x.1.blocks)
  valid _ := True
  roots := caps.image (fun c : ℕ => (c : Fr)) ∪ domains
  run_eq x _ perm := x.1.run_eq legacy perm h x.2
  inj x y _ _ e := by
    obtain ⟨e1, e2⟩ := Prod.mk.inj e
    refine Subtype.ext ?_
    rcases CapCall.of_word h x.2 y.2 e1 with ⟨c, m, m', h1, h2, e⟩ | ⟨d, a, b, a', b', h1, h2⟩
    · rw [h1, h2] at e2
      rw [h1, h2, pairs_inj m m' e e2]
    · rw [h1, h2] at e2
      have e2 : [(a, b)] = [(a', b')] := e2
      simp only [List.cons.injEq, Prod.mk.injEq, and_true] at e2
      rw [h1, h2, e2.1, e2.2]
  root := by
    rintro ⟨⟨c, m⟩ | ⟨d, a, b⟩, hx⟩ -
    · exact Finset.mem_union_left _ (Finset.mem_image.2 ⟨c, hx.1, rfl⟩)
    · exact Finset.mem_union_right _ hx
  ne_nil := by
    rintro ⟨⟨c, m⟩ | ⟨d, a, b⟩, hx⟩ -
    · have h1 := h.pos c hx.1
      rw [← hx.2] at h1
      exact pairs_ne_nil (List.length_pos_iff.1 h1)
    · exact List.cons_ne_nil _ _
  length x y _ _ e := by
    rcases CapCall.of_word h x.2 y.2 e with ⟨c, m, m', h1, h2, e⟩ | ⟨d, a, b, a', b', h1, h2⟩
    · show x.1.blocks.length = y.1.blocks.length
      rw [h1, h2]
      show (pairs m).length = (pairs m').length
      rw [pairs_length, pairs_length, e]
    · show x.1.blocks.length = y.1.blocks.length
      rw [h1, h2]
      rfl

theorem capCalls_roots (legacy : Bool) (h : Lengths caps lens domains) :
    (capCalls legacy h).roots.card ≤ caps.card + domains.card :=
  (Finset.card_union_le _ _).trans (Nat.add_le_add_right Finset.card_image_le _)

/-! ### Specification -/

/-- What a distinguisher has seen. -/
abbrev CapSeen (caps : Finset ℕ) (lens : ℕ → ℕ) (domains : Finset Fr) :=
  List (Event (State Fr 3) (ValidCapCall caps lens domains) (Except Panic Fr))

/-- A distinguisher. -/
abbrev CapDistinguisher (caps : Finset ℕ) (lens : ℕ → ℕ) (domains : Finset Fr) :=
  CapSeen caps lens domains → Move (State Fr 3) (ValidCapCall caps lens domains)

/-- The code, run with the permutation `π` that the distinguisher can ask. -/
def withCapCode (legacy : Bool) (A : CapDistinguisher caps lens domains) (N : ℕ) (π : Equiv.Perm (State Fr 3)) :
    CapSeen caps lens domains :=
  play A π (fun x _ => x.1.run legacy π) N

/-- The function `ω.1` of the calls, and the simulator of C106 with the random states `ω.2`. -/
noncomputable def withCapSimulator (legacy : Bool) (h : Lengths caps lens domains) (A : CapDistinguisher caps lens domains) (N : ℕ)
    (ω : (ValidCapCall caps lens domains → Fr) × (Fin N → State Fr 3)) : CapSeen caps lens domains :=
  simulated (capCalls legacy h) A ω.1 (coin ω.2) N

/-- The number of blocks in the calls. -/
def capBlocks (τ : CapSeen caps lens domains) : ℕ := ((calls τ).map fun p => p.1.1.blocks.length).sum

/-! ### Theorems -/

section
variable (legacy : Bool) (h : Lengths caps lens domains)

private theorem bound_mono {X N σ R R' q : ℕ} (hR : R ≤ R') :
    ((X + (N + σ) * (N + σ + R) : ℕ) : ℚ) / q ≤ ((X + (N + σ) * (N + σ + R') : ℕ) : ℚ) / q := by
  refine div_le_div_of_nonneg_right ?_ (Nat.cast_nonneg q)
  exact_mod_cast Nat.add_le_add_left (Nat.mul_le_mul_left _ (Nat.add_le_add_left hR _)) X

/-- **C107.** If the capacities determine the numbers of words, `hash_msg` with these capacities and `hash_with_domain` cannot be
told from a random function. -/
theorem C107_capacity (A : CapDistinguisher caps lens domains) (N σ : ℕ)
    (hσ : ∀ (f : ValidCapCall caps lens domains → Fr) (coins : ℕ → State Fr 3),
      capBlocks (simulated (capCalls legacy h) A f coins N) ≤ σ) (E : CapSeen caps lens domains → Prop) :
    |frequency (fun π => E (withCapCode legacy A N π)) - frequency (fun ω => E (withCapSimulator legacy h A N ω))| ≤
      (((N + σ) * (N + σ + (caps.card + domains.card)) : ℕ) : ℚ) / (r : ℕ) := by
  have h1 := calls_frequency (capCalls legacy h) (fun _ => trivial) A N σ hσ E
  have h2 := bound_mono (X := 0) (N := N) (σ := σ) (q := r) (capCalls_roots legacy h)
  rw [Nat.zero_add, Nat.zero_add] at h2
  exact h1.trans h2

/-- **C107**, a use: two calls that differ, in the capacity or in the words, with the same digest are hard to find. -/
theorem C107_collision (A : CapDistinguisher caps lens domains) (N σ : ℕ)
    (hσ : ∀ (f : ValidCapCall caps lens domains → Fr) (coins : ℕ → State Fr 3),
      capBlocks (simulated (capCalls legacy h) A f coins N) ≤ σ) :
    frequency (fun π => ∃ p ∈ calls (withCapCode legacy A N π), ∃ p' ∈ calls (withCapCode legacy A N π),
      p.1 ≠ p'.1 ∧ p.2.2 = p'.2.2) ≤
      ((N * N + (N + σ) * (N + σ + (caps.card + domains.card)) : ℕ) : ℚ) / (r : ℕ) :=
  (calls_collision (capCalls legacy h) (fun _ => trivial) A N σ hσ).trans (bound_mono (capCalls_roots legacy h))

end

/-- The capacities for the hash table: `c * 2^64` for the control `c`, or `c` in the legacy encoding. -/
def controls (legacy : Bool) (most : ℕ) : Finset ℕ := (Finset.Icc 1 most).image fun c => c * if legacy then 1 else 2 ^ 64

/-- The number of words for such a capacity: two for each row, and a row for each `step` units. -/
def words (legacy : Bool) (step cap : ℕ) : ℕ := 2 * ((cap / (if legacy then 1 else 2 ^ 64) + step - 1) / step)

theorem words_control (legacy : Bool) (step c : ℕ) :
    words legacy step (c * if legacy then 1 else 2 ^ 64) = 2 * ((c + step - 1) / step) := by
  unfold words
  rw [Nat.mul_div_cancel]
  cases legacy <;> norm_num

/-- **C107**, for the hash table: the capacities of controls up to `most`, with the number of words of C60, are such capacities. -/
theorem C107_controls (legacy : Bool) (most step : ℕ) (hs : 1 ≤ step) (hm : most + step < 2 ^ 63)
    (hd : ∀ c, 1 ≤ c → c ≤ most → ((c * if legacy then 1 else 2 ^ 64 : ℕ) : Fr) ∉ domains) :
    Lengths (controls legacy most) (words legacy step) domains ∧ (controls legacy most).card ≤ most := by
  have key : ∀ c ∈ controls legacy most, ∃ d, 1 ≤ d ∧ d ≤ most ∧ c = d * if legacy then 1 else 2 ^ 64 := by
    intro c hc
    obtain ⟨d, h1, h2⟩ := Finset.mem_image.1 hc
    exact ⟨d, (Finset.mem_Icc.1 h1).1, (Finset.mem_Icc.1 h1).2, h2.symm⟩
  refine ⟨⟨?_, ?_, ?_, ?_⟩, ?_⟩
  · intro c hc
    obtain ⟨d, h1, h2, rfl⟩ := key c hc
    refine lt_of_le_of_lt (Nat.mul_le_mul (le_refl d) (show (if legacy then 1 else 2 ^ 64) ≤ 2 ^ 64 by cases legacy <;> norm_num)) ?_
    omega
  · intro c hc
    obtain ⟨d, h1, h2, rfl⟩ := key c hc
    rw [words_control]
    have : 1 ≤ (d + step - 1) / step := (Nat.one_le_div_iff hs).2 (by omega)
    omega
  · intro c hc
    obtain ⟨d, h1, h2, rfl⟩ := key c hc
    rw [words_control]
    have := Nat.div_le_self (d + step - 1) step
    omega
  · intro c hc
    obtain ⟨d, h1, h2, rfl⟩ := key c hc
    exact hd d h1 h2
  · refine Finset.card_image_le.trans ?_
    rw [Nat.card_Icc]
    omega

/-- **C107**, for the hash table, in numbers: with `2^120` steps and blocks, no two of the messages and nodes are found that have the
same digest, except with frequency `2^-12`. -/
theorem C107_table (legacy : Bool) (most step : ℕ) (hs : 1 ≤ step) (hm : most + step < 2 ^ 63)
    (hd : ∀ c, 1 ≤ c → c ≤ most → ((c * if legacy then 1 else 2 ^ 64 : ℕ) : Fr) ∉ domains) (hc : domains.card < 2 ^ 63)
    (A : CapDistinguisher (controls legacy most) (words legacy step) domains) (N σ : ℕ)
    (hσ : ∀ (f : ValidCapCall (controls legacy most) (words legacy step) domains → Fr) (coins : ℕ → State Fr 3),
      capBlocks (simulated (capCalls legacy (C107_controls legacy most step hs hm hd).1) A f coins N) ≤ σ)
    (hn : N + σ ≤ 2 ^ 120) :
    frequency (fun π => ∃ p ∈ calls (withCapCode legacy A N π), ∃ p' ∈ calls (withCapCode legacy A N π),
      p.1 ≠ p'.1 ∧ p.2.2 = p'.2.2) ≤ 1 / 2 ^ 12 := by
  have hl := C107_controls legacy most step hs hm hd
  refine (C107_collision legacy hl.1 A N σ hσ).trans ?_
  have h0 : N * N ≤ 2 ^ 120 * 2 ^ 120 := Nat.mul_le_mul (by omega) (by omega)
  have h1 : (N + σ) * (N + σ + ((controls legacy most).card + domains.card)) ≤ 2 ^ 120 * (2 ^ 120 + 2 ^ 64) :=
    Nat.mul_le_mul hn (by have := hl.2; omega)
  have h2 : (2 ^ 120 * 2 ^ 120 + 2 ^ 120 * (2 ^ 120 + 2 ^ 64)) * 2 ^ 12 ≤ r := by norm_num [r]
  have h3 := (Nat.mul_le_mul_right (2 ^ 12) (Nat.add_le_add h0 h1)).trans h2
  have hr : (0 : ℚ) < (r : ℕ) := by exact_mod_cast (by norm_num [r] : 0 < r)
  rw [div_le_div_iff₀ hr (by positivity), one_mul]
  exact_mod_cast h3

/-- **C107**, the condition on the capacities is needed: with one capacity for messages of different lengths, a message of an odd
number of words and the same message with a zero have the same digest for every permutation. -/
theorem C107_needed (legacy : Bool) (cap : ℕ) (m : List Fr) (hlen : m.length + 1 < 2 ^ 64) (hodd : m.length % 2 = 1) :
    m ≠ m ++ [0] ∧ ∀ π : Equiv.Perm (State Fr 3),
      hashMsg legacy π m (some cap) = hashMsg legacy π (m ++ [0]) (some cap) ∧ ∃ d, hashMsg legacy π m (some cap) = .ok d := by
  refine ⟨fun e => by simpa using congrArg List.length e, fun π => ⟨C08_zero_padding_collides legacy π m hlen hodd cap, ?_⟩⟩
  rw [C05_hash_msg legacy π m (by omega) (by rintro rfl; simp at hodd)]
  exact ⟨_, rfl⟩

/-! ### Examples -/

/-- Controls up to 124 bytes with 62 bytes for each row, and nodes of domain 0 and 512. -/
theorem example_controls : Lengths (controls false 124) (words false 62) {0, 512} := by
  refine (C107_controls false 124 62 (by norm_num) (by norm_num) fun c h1 h2 => ?_).1
  simp only [Bool.false_eq_true, if_false, Finset.mem_insert, Finset.mem_singleton, not_or]
  have hr : ∀ a b : ℕ, a < r → b < r → a ≠ b → (a : Fr) ≠ (b : Fr) := by
    intro a b ha hb hne e
    have e2 := (ZMod.natCast_eq_natCast_iff' a b r).1 e
    rw [Nat.mod_eq_of_lt ha, Nat.mod_eq_of_lt hb] at e2
    exact hne e2
  have h3 : 2 ^ 128 < r := by norm_num [r]
  have h4 : c * 2 ^ 64 < r := lt_trans (by omega) h3
  constructor
  · have := hr (c * 2 ^ 64) 0 h4 (by omega) (by omega)
    simpa using this
  · have := hr (c * 2 ^ 64) 512 h4 (by omega) (by omega)
    exact_mod_cast this

/-- 100 bytes take two rows. -/
theorem example_valid : (CapCall.msg (100 * 2 ^ 64) [1, 2, 3, 4]).Valid (controls false 124) (words false 62) {0, 512} := by
  refine ⟨Finset.mem_image.2 ⟨100, by simp, by simp⟩, ?_⟩
  have := words_control false 62 100
  simp only [Bool.false_eq_true, if_false] at this
  rw [this]
  rfl

/-- A message and a node, after a question. -/
def exampleCap : CapDistinguisher (controls false 124) (words false 62) {0, 512} := fun τ => match τ.length with
  | 0 => .ask (true, vec (0, 1, 2))
  | 1 => .call ⟨.node 512 1 2, by simp [CapCall.Valid]⟩
  | _ => .call ⟨.msg (100 * 2 ^ 64) [1, 2, 3, 4], example_valid⟩

theorem example_capBlocks (f : ValidCapCall (controls false 124) (words false 62) {0, 512} → Fr) (coins : ℕ → State Fr 3) :
    capBlocks (simulated (capCalls false example_controls) exampleCap f coins 3) ≤ 3 := by
  have : calls (simulated (capCalls false example_controls) exampleCap f coins 3) =
      [(⟨.msg (100 * 2 ^ 64) [1, 2, 3, 4], example_valid⟩, 2, .ok (f ⟨.msg (100 * 2 ^ 64) [1, 2, 3, 4], example_valid⟩)),
        (⟨.node 512 1 2, by simp [CapCall.Valid]⟩, 1, .ok (f ⟨.node 512 1 2, by simp [CapCall.Valid]⟩))] := rfl
  rw [capBlocks, this]
  simp [CapCall.blocks, pairs]

example (E : CapSeen (controls false 124) (words false 62) {0, 512} → Prop) :
    |frequency (fun π => E (withCapCode false exampleCap 3 π)) -
      frequency (fun ω => E (withCapSimulator false example_controls exampleCap 3 ω))| ≤
      (((3 + 3) * (3 + 3 + ((controls false 124).card + ({0, 512} : Finset Fr).card)) : ℕ) : ℚ) / (r : ℕ) :=
  C107_capacity false example_controls exampleCap 3 3 example_capBlocks E

example : frequency (fun π => ∃ p ∈ calls (withCapCode false exampleCap 3 π), ∃ p' ∈ calls (withCapCode false exampleCap 3 π),
    p.1 ≠ p'.1 ∧ p.2.2 = p'.2.2) ≤ 1 / 2 ^ 12 := by
  refine C107_table false 124 62 (by norm_num) (by norm_num)
    (fun c h1 h2 => example_controls.domain _ (Finset.mem_image.2 ⟨c, Finset.mem_Icc.2 ⟨h1, h2⟩, rfl⟩))
    (lt_of_le_of_lt Finset.card_le_two (by norm_num)) exampleCap 3 3 example_capBlocks (by norm_num)

example : [(7 : Fr)] ≠ [7, 0] ∧ ∀ π : Equiv.Perm (State Fr 3),
    hashMsg false π [(7 : Fr)] (some 5) = hashMsg false π [7, 0] (some 5) ∧ ∃ d, hashMsg false π [(7 : Fr)] (some 5) = .ok d :=
  C107_needed false 5 [7] (by norm_num) (by norm_num)

end Props
