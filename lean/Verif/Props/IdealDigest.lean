import Verif.Props.IdealGame

/-!
# Digests of calls that were not evaluated: C104

With an ideal permutation the digests of `hash_msg` and `hash_with_domain` cannot be told from random field elements, by an
adversary who may ask the permutation and its inverse, in any order with the calls, but does not evaluate the calls.
-/

set_option linter.unusedVariables false
set_option linter.unusedSectionVars false

namespace Props
open Base Base.Bn256 Collide Ideal Game

/-! ### The calls -/

/-- The blocks of a message are half its words. -/
theorem pairs_length {F : Type} [Field F] (m : List F) : (pairs m).length = (m.length + 1) / 2 := by
  induction m using pairs.induct with
  | case1 => simp [pairs]
  | case2 a => simp [pairs]
  | case3 a b m ih =>
    rw [pairs, List.length_cons, ih, List.length_cons, List.length_cons]
    omega

/-- Two valid calls with the same capacity are messages of the same length or nodes of the same domain. -/
theorem Call.of_cap (legacy : Bool) {len : ℕ} (hl : len < 2 ^ 64) {domains : Finset Fr}
    (hd : ∀ l, 1 ≤ l → l ≤ len → ((l * if legacy then 1 else 2 ^ 64 : ℕ) : Fr) ∉ domains) {x y : Call}
    (hx : x.Valid len domains) (hy : y.Valid len domains) (h : x.cap legacy = y.cap legacy) :
    (∃ m m', x = .msg m ∧ y = .msg m' ∧ m.length = m'.length) ∨ ∃ d a b a' b', x = .node d a b ∧ y = .node d a' b' := by
  cases x with
  | msg m =>
    cases y with
    | msg m' =>
      refine .inl ⟨m, m', rfl, rfl, ?_⟩
      by_contra hlen
      exact (C07_default_capacity legacy _ _ (lt_of_le_of_lt hx.2 hl) (lt_of_le_of_lt hy.2 hl)).2 hlen h
    | node d a b =>
      have h : ((m.length * if legacy then 1 else 2 ^ 64 : ℕ) : Fr) = d := h
      have hy : d ∈ domains := hy
      rw [← h] at hy
      exact absurd hy (hd m.length (List.length_pos_iff.2 hx.1) hx.2)
  | node d a b =>
    cases y with
    | msg m' =>
      have h : d = ((m'.length * if legacy then 1 else 2 ^ 64 : ℕ) : Fr) := h
      have hx : d ∈ domains := hx
      rw [h] at hx
      exact absurd hx (hd m'.length (List.length_pos_iff.2 hy.1) hy.2)
    | node d' a' b' =>
      have h : d = d' := h
      subst h
      exact .inr ⟨d, a, b, a', b', rfl, rfl⟩

/-- The calls of C83 as calls of the game. -/
def callsOf (legacy : Bool) (len : ℕ) (hl : len < 2 ^ 64) (domains : Finset Fr)
    (hd : ∀ l, 1 ≤ l → l ≤ len → ((l * if legacy then 1 else 2 ^ 64 : ℕ) : Fr) ∉ domains) : Calls Call Fr where
  run x perm := x.run legacy perm
  enc x := (x.cap legacy, x.blocks)
  valid x := x.Valid len domains
  roots := (Finset.range len).image (fun l => (((l + 1) * if legacy then 1 else 2 ^ 64 : ℕ) : Fr)) ∪ domains
  run_eq x hx perm := x.run_eq legacy perm hl hx
  inj x y hx hy h := by
    obtain ⟨h1, h2⟩ := Prod.mk.inj h
    rcases Call.of_cap legacy hl hd hx hy h1 with ⟨m, m', rfl, rfl, e⟩ | ⟨d, a, b, a', b', rfl, rfl⟩
    · rw [pairs_inj m m' e h2]
    · have h2 : [(a, b)] = [(a', b')] := h2
      simp only [List.cons.injEq, Prod.mk.injEq, and_true] at h2
      rw [h2.1, h2.2]
  root x hx := Call.cap_mem legacy hx
  ne_nil x hx := Call.blocks_ne_nil hx
  length x y hx hy h := by
    rcases Call.of_cap legacy hl hd hx hy h with ⟨m, m', rfl, rfl, e⟩ | ⟨d, a, b, a', b', rfl, rfl⟩
    · show (pairs m).length = (pairs m').length
      rw [pairs_length, pairs_length, e]
    · rfl

/-! ### Specification -/

/-- What the adversary has seen. -/
abbrev View := List (Event (State Fr 3) Call (Except Panic Fr))

/-- An adversary. -/
abbrev Adversary := View → Move (State Fr 3) Call

/-- What the adversary sees after `N` steps if the calls are answered by the code, run with `π`. -/
def real (legacy : Bool) (A : Adversary) (N : ℕ) (π : Equiv.Perm (State Fr 3)) : View :=
  play A π (fun x _ => x.run legacy π) N

/-- What the adversary sees after `N` steps if the call in step `k` is answered by `f k`. -/
def random (A : Adversary) (N : ℕ) (π : Equiv.Perm (State Fr 3)) (f : Fin N → Fr) : View :=
  play A π (fun _ k => .ok (sample f k)) N

/-- The rules: at most `n` questions; the calls are valid and different, with at most `σ` blocks in all; and for each call some
evaluation of the permutation is not among the questions. -/
def Rules (legacy : Bool) (len : ℕ) (domains : Finset Fr) (n σ : ℕ) (π : Equiv.Perm (State Fr 3)) (τ : View) : Prop :=
  (asks τ).length ≤ n ∧ ((calls τ).map fun p => p.1).Nodup ∧ ((calls τ).map fun p => p.1.blocks.length).sum ≤ σ ∧
    ∀ p ∈ calls τ, p.1.Valid len domains ∧ ¬ Asked π (asks τ) (p.1.cap legacy) p.1.blocks

/-- How often the rules are broken, with random answers. -/
noncomputable def broken (legacy : Bool) (len : ℕ) (domains : Finset Fr) (A : Adversary) (N n σ : ℕ) : ℕ :=
  {p : Equiv.Perm (State Fr 3) × (Fin N → Fr) | ¬ Rules legacy len domains n σ p.1 (random A N p.1 p.2)}.ncard

/-! ### Theorems -/

variable (legacy : Bool) {len : ℕ} (hl : len < 2 ^ 64) {domains : Finset Fr}
  (hd : ∀ l, 1 ≤ l → l ≤ len → ((l * if legacy then 1 else 2 ^ 64 : ℕ) : Fr) ∉ domains)

private theorem guess_arith {ρ N X Y D K V : ℕ} (hρ : 0 < ρ) (hV : V = 0)
    (key : Y * ρ ^ (N + 1 + 1) ≤ X * ρ + D * (ρ ^ (N + 1) * K) + V * ρ)
    (e : X ≤ K * ρ ^ N) : Y * ρ ≤ (1 + D) * K := by
  subst hV
  rw [Nat.zero_mul, Nat.add_zero] at key
  refine Nat.le_of_mul_le_mul_right ?_ (pow_pos hρ (N + 1))
  rw [Nat.mul_assoc, ← pow_succ']
  refine (key.trans (Nat.add_le_add_right (Nat.mul_le_mul_right ρ e) _)).trans (le_of_eq ?_)
  ring

section
include hl hd

/-- **C104.** Every event has almost the same frequency with the digests of the code and with random field elements. -/
theorem C104_random (A : Adversary) (N n σ : ℕ) (hn : 2 * n ≤ r ^ 3) (E : View → Prop) :
    {π : Equiv.Perm (State Fr 3) | E (real legacy A N π)}.ncard * r ^ (N + 1) ≤
      {p : Equiv.Perm (State Fr 3) × (Fin N → Fr) | E (random A N p.1 p.2)}.ncard * r +
      (2 * n * (n + (len + domains.card)) + σ * (σ + 2 * n + (len + domains.card))) * (r ^ N * (r ^ 3).factorial) +
      broken legacy len domains A N n σ * r ∧
    {p : Equiv.Perm (State Fr 3) × (Fin N → Fr) | E (random A N p.1 p.2)}.ncard * r ≤
      {π : Equiv.Perm (State Fr 3) | E (real legacy A N π)}.ncard * r ^ (N + 1) +
      (2 * n * (n + (len + domains.card)) + σ * (σ + 2 * n + (len + domains.card))) * (r ^ N * (r ^ 3).factorial) +
      broken legacy len domains A N n σ * r := by
  have hR : (callsOf legacy len hl domains hd).roots.card ≤ len + domains.card := Call.card_caps legacy len domains
  have mono : (2 * n * (n + (callsOf legacy len hl domains hd).roots.card) + σ * (σ + 2 * n +
      (callsOf legacy len hl domains hd).roots.card)) * (r ^ N * (r ^ 3).factorial) ≤
      (2 * n * (n + (len + domains.card)) + σ * (σ + 2 * n + (len + domains.card))) * (r ^ N * (r ^ 3).factorial) :=
    Nat.mul_le_mul_right _ (Nat.add_le_add (Nat.mul_le_mul_left _ (Nat.add_le_add_left hR _))
      (Nat.mul_le_mul_left _ (Nat.add_le_add_left hR _)))
  exact ⟨(real_le (A := A) (N := N) (σ := σ) (ZMod.card r) (callsOf legacy len hl domains hd) hn E).trans
      (Nat.add_le_add_right (Nat.add_le_add_left mono _) _),
    (real_ge (A := A) (N := N) (σ := σ) (ZMod.card r) (callsOf legacy len hl domains hd) hn E).trans
      (Nat.add_le_add_right (Nat.add_le_add_left mono _) _)⟩

/-- **C104**, guessing: the last step is a call whose digest is what the adversary computes from the view before it. -/
theorem C104_guess (A : Adversary) (N n σ : ℕ) (hn : 2 * n ≤ r ^ 3)
    (hA : ∀ π f, Rules legacy len domains n σ π (random A (N + 1) π f)) (g : View → Fr) :
    {π : Equiv.Perm (State Fr 3) | ∃ x, real legacy A (N + 1) π =
      .called x (.ok (g (real legacy A N π))) :: real legacy A N π}.ncard * r ≤
      (1 + (2 * n * (n + (len + domains.card)) + σ * (σ + 2 * n + (len + domains.card)))) * (r ^ 3).factorial := by
  classical
  let E : View → Prop := fun τ => ∃ x, τ = .called x (.ok (g τ.tail)) :: τ.tail
  have key := (C104_random legacy hl hd A (N + 1) n σ hn E).1
  have hb : broken legacy len domains A (N + 1) n σ = 0 := by
    rw [broken, Set.ncard_eq_zero (Set.toFinite _), Set.eq_empty_iff_forall_notMem]
    exact fun p hp => hp (hA p.1 p.2)
  have e1 : {π : Equiv.Perm (State Fr 3) | ∃ x, real legacy A (N + 1) π =
      .called x (.ok (g (real legacy A N π))) :: real legacy A N π} =
      {π : Equiv.Perm (State Fr 3) | E (real legacy A (N + 1) π)} := by
    ext π
    exact Iff.rfl
  rw [e1]
  -- the guess is right for one answer
  have e2 : {p : Equiv.Perm (State Fr 3) × (Fin (N + 1) → Fr) | E (random A (N + 1) p.1 p.2)}.ncard ≤
      (r ^ 3).factorial * r ^ N := by
    have hc : Nat.card (Equiv.Perm (State Fr 3) × (Fin N → Fr)) = (r ^ 3).factorial * r ^ N := by
      rw [Nat.card_eq_fintype_card, Fintype.card_prod, Fintype.card_perm, card_state, Fintype.card_fun, Fintype.card_fin,
        ZMod.card r, ← pow_succ]
    rw [← hc, ← Set.ncard_univ]
    refine Set.ncard_le_ncard_of_injOn (fun p => (p.1, fun k => p.2 k.castSucc)) (fun _ _ => Set.mem_univ _) ?_ (Set.toFinite _)
    rintro ⟨π, f⟩ ⟨x, hx⟩ ⟨π', f'⟩ ⟨x', hx'⟩ h
    obtain ⟨h1, h2⟩ := Prod.mk.inj h
    simp only at h1 h2 hx hx'
    subst h1
    have hv : ∀ k, k < N → sample f k = sample f' k := by
      intro k hk
      rw [sample, sample, dif_pos (by omega), dif_pos (by omega)]
      exact congrFun h2 ⟨k, hk⟩
    have ht : play A π (fun _ k => .ok (sample f k)) N = play A π (fun _ k => (.ok (sample f' k) : Except Panic Fr)) N := by
      refine (play_iff A π π _ _ N).2 ⟨play_extends A π _ N, fun p hp => ?_⟩
      rw [hv _ (calls_lt A π _ N p hp)]
      exact ((play_iff A π π _ _ N).1 rfl).2 p hp
    have hlast : ∀ (f : Fin (N + 1) → Fr) x, random A (N + 1) π f =
        .called x (.ok (g (random A (N + 1) π f).tail)) :: (random A (N + 1) π f).tail →
        f (Fin.last N) = g (play A π (fun _ k => .ok (sample f k)) N) := by
      intro f x hx
      rw [random, play] at hx
      cases hm : A (play A π (fun _ k => .ok (sample f k)) N) with
      | ask q =>
        rw [hm] at hx
        exact absurd (List.cons.inj hx).1 (by simp)
      | call y =>
        rw [hm] at hx
        have hx := (List.cons.inj hx).1
        simp only [Event.called.injEq, Except.ok.injEq] at hx
        have hs : sample f N = f (Fin.last N) := by rw [sample, dif_pos (Nat.lt_succ_self N)]; rfl
        rw [← hs]
        exact hx.2
    have hl := (hlast f x hx).trans ((congrArg g ht).trans (hlast f' x' hx').symm)
    refine Prod.ext rfl ?_
    funext k
    refine Fin.lastCases hl (fun k => ?_) k
    exact congrFun h2 k
  exact guess_arith (N := N) (by norm_num [r]) hb key e2

/-- **C104**, in numbers: with `2^120` questions and blocks and up to `2^64` capacities, no event differs by more than `2^-12`. -/
theorem C104_numbers (A : Adversary) (N n σ : ℕ) (hn : n + σ ≤ 2 ^ 120) (hR : len + domains.card < 2 ^ 64)
    (E : View → Prop) :
    {π : Equiv.Perm (State Fr 3) | E (real legacy A N π)}.ncard * r ^ N * 2 ^ 12 ≤
      {p : Equiv.Perm (State Fr 3) × (Fin N → Fr) | E (random A N p.1 p.2)}.ncard * 2 ^ 12 + r ^ N * (r ^ 3).factorial +
      broken legacy len domains A N n σ * 2 ^ 12 ∧
    {p : Equiv.Perm (State Fr 3) × (Fin N → Fr) | E (random A N p.1 p.2)}.ncard * 2 ^ 12 ≤
      {π : Equiv.Perm (State Fr 3) | E (real legacy A N π)}.ncard * r ^ N * 2 ^ 12 + r ^ N * (r ^ 3).factorial +
      broken legacy len domains A N n σ * 2 ^ 12 := by
  have hr : 2 ^ 253 + 2 ^ 252 ≤ r := by norm_num [r]
  have hr0 : 0 < r := by norm_num [r]
  have hn3 : 2 * n ≤ r ^ 3 := by
    calc 2 * n ≤ 2 * 2 ^ 120 := by omega
      _ ≤ 2 ^ 253 + 2 ^ 252 := by norm_num
      _ ≤ r := hr
      _ ≤ r ^ 3 := Nat.le_self_pow (by norm_num) r
  obtain ⟨h1, h2⟩ := C104_random legacy hl hd A N n σ hn3 E
  set D := 2 * n * (n + (len + domains.card)) + σ * (σ + 2 * n + (len + domains.card)) with hD
  have hDr : D * 2 ^ 12 ≤ r := by
    have : D ≤ 2 * ((n + σ) * (n + σ + (len + domains.card))) := by rw [hD]; nlinarith
    have h3 : (n + σ) * (n + σ + (len + domains.card)) ≤ 2 ^ 120 * (2 ^ 120 + 2 ^ 64) :=
      Nat.mul_le_mul hn (by omega)
    have : D * 2 ^ 12 ≤ 2 * (2 ^ 120 * (2 ^ 120 + 2 ^ 64)) * 2 ^ 12 :=
      Nat.mul_le_mul_right _ (this.trans (Nat.mul_le_mul_left _ h3))
    refine this.trans (le_trans (by norm_num) hr)
  set a := {π : Equiv.Perm (State Fr 3) | E (real legacy A N π)}.ncard
  set b := {p : Equiv.Perm (State Fr 3) × (Fin N → Fr) | E (random A N p.1 p.2)}.ncard
  set v := broken legacy len domains A N n σ
  have hM : D * (r ^ N * (r ^ 3).factorial) * 2 ^ 12 ≤ r ^ N * (r ^ 3).factorial * r := by
    calc _ = D * 2 ^ 12 * (r ^ N * (r ^ 3).factorial) := by ring
      _ ≤ r * (r ^ N * (r ^ 3).factorial) := Nat.mul_le_mul_right _ hDr
      _ = _ := Nat.mul_comm _ _
  constructor
  · refine Nat.le_of_mul_le_mul_right ?_ hr0
    calc a * r ^ N * 2 ^ 12 * r = a * r ^ (N + 1) * 2 ^ 12 := by ring
      _ ≤ (b * r + D * (r ^ N * (r ^ 3).factorial) + v * r) * 2 ^ 12 := Nat.mul_le_mul_right _ h1
      _ = b * r * 2 ^ 12 + D * (r ^ N * (r ^ 3).factorial) * 2 ^ 12 + v * r * 2 ^ 12 := by rw [Nat.add_mul, Nat.add_mul]
      _ ≤ b * r * 2 ^ 12 + r ^ N * (r ^ 3).factorial * r + v * r * 2 ^ 12 := Nat.add_le_add_right (Nat.add_le_add_left hM _) _
      _ = _ := by ring
  · refine Nat.le_of_mul_le_mul_right ?_ hr0
    calc b * 2 ^ 12 * r = b * r * 2 ^ 12 := by ring
      _ ≤ (a * r ^ (N + 1) + D * (r ^ N * (r ^ 3).factorial) + v * r) * 2 ^ 12 := Nat.mul_le_mul_right _ h2
      _ = a * r ^ (N + 1) * 2 ^ 12 + D * (r ^ N * (r ^ 3).factorial) * 2 ^ 12 + v * r * 2 ^ 12 := by rw [Nat.add_mul, Nat.add_mul]
      _ ≤ a * r ^ (N + 1) * 2 ^ 12 + r ^ N * (r ^ 3).factorial * r + v * r * 2 ^ 12 := Nat.add_le_add_right (Nat.add_le_add_left hM _) _
      _ = _ := by ring

end

/-- **C104**, the rule about evaluations is needed: whoever asks for the evaluation of a node knows its digest. -/
theorem C104_needed (d a b : Fr) :
    {π : Equiv.Perm (State Fr 3) | ∃ e : Entry (State Fr 3),
      real legacy (fun τ => if τ.length = 0 then .ask (true, vec (d, a, b)) else .call (.node d a b)) 2 π =
        [.called (.node d a b) (.ok (e.2.2 0)), .asked e]} = Set.univ := by
  refine Set.eq_univ_of_forall fun π => ⟨(true, vec (d, a, b), π (vec (d, a, b))), ?_⟩
  have h := Call.run_eq legacy π (len := 0) (by norm_num) (domains := {d}) (x := .node d a b) (Finset.mem_singleton_self d)
  have h1 : real legacy (fun τ => if τ.length = 0 then .ask (true, vec (d, a, b)) else .call (.node d a b)) 2 π =
      [.called (.node d a b) ((Call.node d a b).run legacy π), .asked (true, vec (d, a, b), π (vec (d, a, b)))] := rfl
  rw [h1, h]
  congr 3
  simp only [Call.cap, Call.blocks, absorb, zero_add]
  exact congrFun (vec_onTriples π (d, a, b)) 0

/-- Two questions, then the digests of a node and of a message. -/
def exampleAdversary : Adversary := fun τ => match τ with
  | [] => .ask (true, vec (0, 1, 2))
  | [_] => .ask (true, vec (0, 5, 6))
  | [_, _] => .call (.msg [5, 6, 7])
  | _ => .call (.node 0 1 3)

/-- They keep to the rules. -/
theorem exampleAdversary_rules (π : Equiv.Perm (State Fr 3)) (f : Fin 4 → Fr) : Rules false 3 {0} 2 3 π (random exampleAdversary 4 π f) := by
  have h : random exampleAdversary 4 π f = [.called (.node 0 1 3) (.ok (sample f 3)), .called (.msg [5, 6, 7]) (.ok (sample f 2)),
      .asked (true, vec (0, 5, 6), π (vec (0, 5, 6))), .asked (true, vec (0, 1, 2), π (vec (0, 1, 2)))] := rfl
  rw [h]
  refine ⟨le_rfl, ?_, ?_, ?_⟩
  · simp [calls]
  · simp [calls, Call.blocks, pairs]
  · simp only [calls, asks, List.forall_mem_cons]
    refine ⟨⟨by simp [Call.Valid], ?_⟩, ⟨by simp [Call.Valid], ?_⟩, by simp⟩
    · intro h
      obtain ⟨e, he, h⟩ := h (0, 0 + 1, 0 + 3) List.mem_cons_self
      simp only [List.mem_cons, List.not_mem_nil, or_false] at he
      rcases he with rfl | rfl
      · have h : (5 : Fr) = 0 + 1 := congrFun h 1
        exact absurd h (by decide)
      · have h : (2 : Fr) = 0 + 3 := congrFun h 2
        exact absurd h (by decide)
    · intro h
      obtain ⟨e, he, h⟩ := h (((3 * 2 ^ 64 : ℕ) : Fr), 0 + 5, 0 + 6) List.mem_cons_self
      simp only [List.mem_cons, List.not_mem_nil, or_false] at he
      rcases he with rfl | rfl
      · have h : (0 : Fr) = ((3 * 2 ^ 64 : ℕ) : Fr) := congrFun h 0
        exact absurd h (by decide)
      · have h : (0 : Fr) = ((3 * 2 ^ 64 : ℕ) : Fr) := congrFun h 0
        exact absurd h (by decide)

/-- A digest that was not evaluated cannot be guessed. -/
example (g : View → Fr) : {π : Equiv.Perm (State Fr 3) | ∃ x, real false exampleAdversary (3 + 1) π =
    .called x (.ok (g (real false exampleAdversary 3 π))) :: real false exampleAdversary 3 π}.ncard * r ≤
    (1 + (2 * 2 * (2 + (3 + 1)) + 3 * (3 + 2 * 2 + (3 + 1)))) * (r ^ 3).factorial := by
  have h := C104_guess false (len := 3) (by norm_num) (domains := {0}) (fun l h1 h2 => by
    rw [Finset.mem_singleton]
    interval_cases l <;> decide) exampleAdversary 3 2 3 (by norm_num [r]) exampleAdversary_rules g
  rw [Finset.card_singleton] at h
  exact h

end Props
