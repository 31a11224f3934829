import Verif.Props.ArgumentKzgOracle
import Verif.Props.ArgumentKzgTable

/-!
# Non-interactive proofs with commitments: the hash table

C103 for the circuits of the crate: the tests' own circuit, and the circuits with requests and messages of C93 and C95.
-/

set_option linter.unusedSectionVars false

namespace Props
open Halo2 Circuit Circuit.Table Base.Bn256 Polynomial

variable {G G2 GT : Type} [AddCommGroup G] [Module Fr G] [AddCommGroup G2] [Module Fr G2] [AddCommGroup GT] [Module Fr GT]

/-- **C103** (any circuit with a hash table). Non-interactive proofs for a circuit with a hash table and lookups into it show
that the table is an accepted one and that what is looked up is in it. -/
theorem C103_table {x : Run Fr} {k : ChipKind} {short : Bool} (hbn : x.IsBn k short) (hx : x.Legal)
    {L' : Layouter Fr} (hL : x.Loads L') {post : List (Op Fr)} {ws : List (Wide Fr)} (hm : ModestHost x.cs ws)
    (quietFixed : ∀ o ∈ x.before.ops ++ post, ∀ c r v, o.FixedWrite c r v → ¬ x.FixedCol c)
    (quietSel : ∀ c r, Op.selector c r ∈ x.before.ops ++ post → ¬ x.Sel c) {n : ℕ} (h10 : 10 < n) {ω δ : Fr} {K : Key Fr}
    (hK : keygenWith x.configured.2 ws (L'.ops ++ post) n ω δ = .ok K) (hω : IsPrimitiveRoot ω n)
    (hδ : DistinctNames x.configured.2 n ω δ) (hsmall : K.slack + K.loss < Base.Bn256.r) (E : Pairing Fr G G2 GT) :
    K.ProvesFs E fun g => x.Accepted k short L' post g ∧ ∀ q es, tableLookup x.qEnable x.hashTable q es ∈ ws →
      ∀ row < K.usable, q.eval g row = 1 → Answers x g fun i => (es i).eval g row :=
  C103_extract hK hω hδ (C102_apart hbn hx hm h10 hK).1 (by rw [card_fr]; exact hsmall)
    ((C100_lookup hbn hx hL (fun p h => List.mem_of_mem_drop h) (fun p h => List.mem_of_mem_drop h)
      quietFixed quietSel hK hω hδ).mono fun g hg => ⟨hg.1, hg.2.2⟩) E

theorem cols_of_no_equality {x : Run Fr} {k : ChipKind} {short : Bool} (hbn : x.IsBn k short) (e0 : x.cs.equality = []) :
    (permCols x.configured.2.equality).length ≤ 10 ^ 28 := by
  obtain ⟨⟨lw, -⟩, hn⟩ := hbn.lawful
  refine (permCols_length _).trans ?_
  rw [Run.configured_eq lw]
  simp only [e0, List.nil_append, List.length_append, (chip_size hbn.1 lw _ _ _).2]
  exact (show 8 + 6 ≤ 10 ^ 28 by norm_num)

/-- Sums of small multiples of the number of rows are less than `r`. -/
theorem small_rows {kk : ℕ} (hkk : kk ≤ 28) : 58 * 2 ^ kk + 19 * 2 ^ kk < Base.Bn256.r := by
  have h28 : 2 ^ kk ≤ 2 ^ 28 := Nat.pow_le_pow_right (by norm_num) hkk
  have : 77 * 2 ^ 28 < Base.Bn256.r := by norm_num [Base.Bn256.r]
  omega

/-- **C103** (requests). For the circuit of C93, whatever the secret and the pairing: a player that makes `Q` moves and does
not find the secret as a root has a proof accepted in which a request with words not both zero has a wrong digest for at
most `Q * (59 * 2^kk + 1702)` in `r` of all oracles; and any right digests have a prover that is accepted for all oracles but
`19 * 2^kk + 567` in `r`. -/
theorem C103_host {k : ChipKind} {ch : Chip Fr 3} (hch : bnChip k = .ok ch) (short short' legacy : Bool) (mode : LoadMode)
    {STEP calcs m kk : ℕ} (hpos : 0 < STEP) (hm : m < calcs) (hkk : kk ≤ 28) (h1 : STEP + 8 ≤ 2 ^ kk)
    (h2 : calcs + 7 ≤ 2 ^ kk) (h3 : k.rows * calcs + 6 ≤ 2 ^ kk) {x : Run Fr}
    (hx : x = hostRun ch short legacy mode STEP .empty calcs) (E : Pairing Fr G G2 GT) :
    ∃ L, x.load = .ok L ∧ ∃ K,
      keygenWith x.configured.2 [hostLookup] (L.ops ++ hostOps (q := 4) m 0) (2 ^ kk) (omega kk) delta = .ok K ∧
      (∀ (τ : Fr) (A : Oracle.Log (KzgScript Fr × Stage) (Draw Fr) → KzgScript Fr × Stage) (Q : ℕ),
        Nat.card {t : Fin Q → Draws Fr // (∃ e ∈ Oracle.run (KzgScript.question τ E.g (2 ^ kk)) A (Oracle.tape t) Q,
          e.1.1.Short (2 ^ kk) ∧ e.1.2 = .u ∧ e.1.1.Accepts K E τ (Draws.tuple e.2) ∧
          ∃ i < m, ¬ ((e.1.1.messages.advice 7).eval (omega kk ^ i) = 0 ∧ (e.1.1.messages.advice 8).eval (omega kk ^ i) = 0) ∧
            hashWithDomainFr short' ![(e.1.1.messages.advice 7).eval (omega kk ^ i),
              (e.1.1.messages.advice 8).eval (omega kk ^ i)] ((e.1.1.messages.advice 9).eval (omega kk ^ i)) ≠
                .ok ((e.1.1.messages.advice 6).eval (omega kk ^ i))) ∧
          ¬ K.Breaks τ (Oracle.run (KzgScript.question τ E.g (2 ^ kk)) A (Oracle.tape t) Q)} * Base.Bn256.r ≤
        Q * (59 * 2 ^ kk + 1702) * Base.Bn256.r ^ (8 * Q)) ∧
      ∀ v : ℕ → Fin 4 → Fr, (∀ i < m, ¬ (v i 1 = 0 ∧ v i 2 = 0)) →
        (∀ i < m, hashWithDomainFr short' ![v i 1, v i 2] (v i 3) = .ok (v i 0)) →
        ∃ P : KzgProver Fr, P.Short (2 ^ kk) ∧ (∀ i < m, ∀ j : Fin 4, (P.advice (6 + j)).eval (omega kk ^ i) = v i j) ∧
          ∀ τ, Base.Bn256.r ^ 56 ≤ Nat.card {t : Fin 7 → Draws Fr //
            ∃ e ∈ (Oracle.run (KzgScript.question τ E.g (2 ^ kk)) P.ask (Oracle.tape t) 7).head?, e.1.1.Short (2 ^ kk) ∧
              e.1.2 = .u ∧ e.1.1.messages.advice = P.advice ∧ e.1.1.Accepts K E τ (Draws.tuple e.2)} +
            (19 * 2 ^ kk + 567) * Base.Bn256.r ^ 55 := by
  obtain ⟨L, hL, K, hK, ⟨hsl, hlo⟩, hp, hs⟩ := C100_host hch short short' legacy mode hpos hm hkk h1 h2 h3 hx
  have h28 : 2 ^ kk ≤ 2 ^ 28 := Nat.pow_le_pow_right (by norm_num) hkk
  have hlegal : x.Legal := by rw [hx]; exact hostRun_legal (by omega) (by omega) (by simp [HashTable.empty])
  have hbn : x.IsBn k short := by rw [hx]; exact ⟨hch, rfl⟩
  have e0 : x.cs = ⟨10, 2, 0, [], [], []⟩ := by rw [hx]; rfl
  have h10 : 10 < 2 ^ kk := by
    have : 8 ≤ k.rows := by cases k <;> simp [ChipKind.rows]
    have : 8 * 1 ≤ k.rows * calcs := Nat.mul_le_mul this (by omega)
    omega
  obtain ⟨ha, hq⟩ := C102_apart hbn hlegal (by rw [e0]; exact host_modest) h10 hK
  simp only [e0, List.length_nil, List.length_singleton] at hq
  obtain ⟨hn, hKω⟩ := keygen_n hK
  have hω := omega_primitive hkk
  have hsm := small_rows hkk
  refine ⟨L, hL, K, hK, fun τ A Q => ?_, fun v hv hv' => ?_⟩
  · have h := C103_extract hK hω (delta_names hkk (cols_of_no_equality hbn (by rw [e0]))) ha
      (by rw [card_fr]; omega) hp E τ A Q
    rw [card_fr, hn] at h
    refine le_trans (Nat.mul_le_mul_right _ ?_) (h.trans (Nat.mul_le_mul_right _ (Nat.mul_le_mul_left _ (by omega))))
    rw [nat_card_eq_count, nat_card_eq_count]
    refine count_mono fun t ⟨⟨e, he, a1, a2, a3, i, hi, a4, a5⟩, hb⟩ => ⟨⟨e, he, a1, a2, a3, fun hg => a5 ?_⟩, hb⟩
    have := hg i hi
    change ¬ ((e.1.1.messages.advice 7).eval (K.ω ^ i) = 0 ∧ (e.1.1.messages.advice 8).eval (K.ω ^ i) = 0) →
      hashWithDomainFr short' ![(e.1.1.messages.advice 7).eval (K.ω ^ i), (e.1.1.messages.advice 8).eval (K.ω ^ i)]
        ((e.1.1.messages.advice 9).eval (K.ω ^ i)) = .ok ((e.1.1.messages.advice 6).eval (K.ω ^ i)) at this
    rw [hKω] at this
    exact this a4
  · obtain ⟨P, p1, p2, p3⟩ := C103_shows (hs v hv hv') (by omega) (by rw [hn, hKω]; exact hω) E
    rw [hn] at p1 p3
    refine ⟨P, p1, fun i hi j => ?_, fun τ => ?_⟩
    · have := p2 i hi j
      change (P.advice (6 + j)).eval (K.ω ^ i) = _ at this
      rwa [hKω] at this
    · have := p3 τ
      rw [card_fr] at this
      exact this.trans (Nat.add_le_add_left (Nat.mul_le_mul_right _ (by omega)) _)

/-- **C103** (messages). For the circuit of C95: the same for proofs in which a message has a wrong digest although the
table does not contain a collision of `hash_msg`. -/
theorem C103_code {k : ChipKind} {ch : Chip Fr 3} (hch : bnChip k = .ok ch) (short short' legacy : Bool) (mode : LoadMode)
    {STEP calcs m kk : ℕ} (hpos : 0 < STEP) (hm : m < calcs) (hkk : kk ≤ 28) (h1 : STEP + 8 ≤ 2 ^ kk)
    (h2 : calcs + 7 ≤ 2 ^ kk) (h3 : k.rows * calcs + 6 ≤ 2 ^ kk) {x : Run Fr}
    (hx : x = codeRun ch short legacy mode STEP .empty calcs) (E : Pairing Fr G G2 GT) :
    ∃ L, x.load = .ok L ∧ ∃ K,
      keygenWith x.configured.2 [codeLookup] (L.ops ++ hostOps (q := 5) m 0) (2 ^ kk) (omega kk) delta = .ok K ∧
      (∀ (τ : Fr) (A : Oracle.Log (KzgScript Fr × Stage) (Draw Fr) → KzgScript Fr × Stage) (Q : ℕ),
        Nat.card {t : Fin Q → Draws Fr // (∃ e ∈ Oracle.run (KzgScript.question τ E.g (2 ^ kk)) A (Oracle.tape t) Q,
          e.1.1.Short (2 ^ kk) ∧ e.1.2 = .u ∧ e.1.1.Accepts K E τ (Draws.tuple e.2) ∧
          ∃ msgs : List (ℕ × List (Fr × Fr) × Fr), (∀ msg ∈ msgs, 0 < msg.1 ∧ msg.1 < 2 ^ 64 ∧
            msg.2.1.length = (msg.1 + STEP - 1) / STEP) ∧ (codeRows legacy STEP msgs).length = m ∧
          (∀ i (hi : i < (codeRows legacy STEP msgs).length), ∀ j : Fin 5,
            (e.1.1.messages.advice (6 + j)).eval (omega kk ^ i) = codeReq (codeRows legacy STEP msgs)[i] j) ∧
          ∃ msg ∈ msgs, hashMsgFr short' legacy (msg.2.1.flatMap fun w => [w.1, w.2])
            (some (msg.1 * Base.domainSpec legacy)) ≠ .ok msg.2.2 ∧
          ¬ ∃ a₁ m₁ c₁ ws₁ a₂ m₂ c₂ ws₂, IsMessage x (K.grid e.1.1.messages.advice) a₁ m₁ c₁ ws₁ ∧
            IsMessage x (K.grid e.1.1.messages.advice) a₂ m₂ c₂ ws₂ ∧ (c₁, ws₁) ≠ (c₂, ws₂) ∧
            hashMsgFr short' legacy (ws₁.flatMap fun w => [w.1, w.2]) (some (c₁ * Base.domainSpec legacy)) = .ok msg.2.2 ∧
            hashMsgFr short' legacy (ws₂.flatMap fun w => [w.1, w.2]) (some (c₂ * Base.domainSpec legacy)) =
              .ok msg.2.2) ∧
          ¬ K.Breaks τ (Oracle.run (KzgScript.question τ E.g (2 ^ kk)) A (Oracle.tape t) Q)} * Base.Bn256.r ≤
        Q * (59 * 2 ^ kk + 1735) * Base.Bn256.r ^ (8 * Q)) ∧
      ∀ msgs : List (ℕ × List (Fr × Fr) × Fr), (∀ msg ∈ msgs, 0 < msg.1 ∧ msg.1 < 2 ^ 64 ∧
          msg.2.1.length = (msg.1 + STEP - 1) / STEP) → (codeRows legacy STEP msgs).length = m →
        (∀ msg ∈ msgs, hashMsgFr short' legacy (msg.2.1.flatMap fun w => [w.1, w.2])
          (some (msg.1 * Base.domainSpec legacy)) = .ok msg.2.2) →
        ∃ P : KzgProver Fr, P.Short (2 ^ kk) ∧ (∀ i (hi : i < (codeRows legacy STEP msgs).length), ∀ j : Fin 5,
            (P.advice (6 + j)).eval (omega kk ^ i) = codeReq (codeRows legacy STEP msgs)[i] j) ∧
          ∀ τ, Base.Bn256.r ^ 56 ≤ Nat.card {t : Fin 7 → Draws Fr //
            ∃ e ∈ (Oracle.run (KzgScript.question τ E.g (2 ^ kk)) P.ask (Oracle.tape t) 7).head?, e.1.1.Short (2 ^ kk) ∧
              e.1.2 = .u ∧ e.1.1.messages.advice = P.advice ∧ e.1.1.Accepts K E τ (Draws.tuple e.2)} +
            (19 * 2 ^ kk + 578) * Base.Bn256.r ^ 55 := by
  obtain ⟨L, hL, K, hK, ⟨hsl, hlo⟩, hp, hs⟩ := C100_code hch short short' legacy mode hpos hm hkk h1 h2 h3 hx
  have h28 : 2 ^ kk ≤ 2 ^ 28 := Nat.pow_le_pow_right (by norm_num) hkk
  have hlegal : x.Legal := by
    rw [hx]
    exact ⟨fun i => lt_of_lt_of_le i.isLt (by simp [codeRun]), fun i j h => Fin.ext h, by simp [codeRun, testRun],
      by simp only [codeRun, testRun]; omega, by simp only [codeRun, testRun]; omega,
      by simp only [codeRun, testRun]; omega, by simp [codeRun, testRun, HashTable.empty]⟩
  have hbn : x.IsBn k short := by rw [hx]; exact ⟨hch, rfl⟩
  have e0 : x.cs = ⟨11, 2, 0, [bareGate 0 fun i => i], [], []⟩ := by rw [hx]; rfl
  have h10 : 10 < 2 ^ kk := by
    have : 8 ≤ k.rows := by cases k <;> simp [ChipKind.rows]
    have : 8 * 1 ≤ k.rows * calcs := Nat.mul_le_mul this (by omega)
    omega
  obtain ⟨ha, hq⟩ := C102_apart hbn hlegal (by rw [e0]; exact code_modest) h10 hK
  simp only [e0, List.length_nil, List.length_singleton] at hq
  obtain ⟨hn, hKω⟩ := keygen_n hK
  have hω := omega_primitive hkk
  have hsm := small_rows hkk
  refine ⟨L, hL, K, hK, fun τ A Q => ?_, fun msgs hmsgs hlen hv => ?_⟩
  · have h := C103_extract hK hω (delta_names hkk (cols_of_no_equality hbn (by rw [e0]))) ha
      (by rw [card_fr]; omega) hp E τ A Q
    rw [card_fr, hn] at h
    refine le_trans (Nat.mul_le_mul_right _ ?_) (h.trans (Nat.mul_le_mul_right _ (Nat.mul_le_mul_left _ (by omega))))
    rw [nat_card_eq_count, nat_card_eq_count]
    refine count_mono fun t ⟨⟨e, he, a1, a2, a3, msgs, m1, m2, m3, msg, hmsg, m4, m5⟩, hb⟩ =>
      ⟨⟨e, he, a1, a2, a3, fun hg => ?_⟩, hb⟩
    refine (hg msgs m1 m2 (fun i hi j => ?_) msg hmsg).elim m4 m5
    rw [← m3 i hi j, ← hKω]
    rfl
  · obtain ⟨P, p1, p2, p3⟩ := C103_shows (hs msgs hmsgs hlen hv) (by omega) (by rw [hn, hKω]; exact hω) E
    rw [hn] at p1 p3
    refine ⟨P, p1, fun i hi j => ?_, fun τ => ?_⟩
    · have := p2 i hi j
      change (P.advice (6 + j)).eval (K.ω ^ i) = _ at this
      rwa [hKω] at this
    · have := p3 τ
      rw [card_fr] at this
      exact this.trans (Nat.add_le_add_left (Nat.mul_le_mul_right _ (by omega)) _)

theorem tests_modest : ModestHost ⟨6, 1, 0, [], [], []⟩ [] := ⟨by simp, by simp, by simp, by simp⟩

/-- **C103** (the tests). The circuit of the crate's tests on `2^kk` rows, whatever the secret and the pairing: a player that
makes `Q` moves and does not find the secret as a root has a proof accepted whose table is not an accepted one, or has a block
with another digest than that of its words, for at most `Q * (53 * 2^kk + 1522)` in `r` of all oracles; and the witness of
`load`, if its blocks are complete, is accepted for all oracles but `17 * 2^kk + 507` in `r`. -/
theorem C103_tests {k : ChipKind} {ch : Chip Fr 3} (hch : bnChip k = .ok ch) (short legacy : Bool) (mode : LoadMode)
    {STEP : ℕ} {t : HashTable Fr} {calcs : ℕ} (hS : STEP < 2 ^ 64) (hc : calcs < 2 ^ 64)
    (ht : ∀ c ∈ t.controls, c < 2 ^ 64) {kk : ℕ} (hk4 : 4 ≤ kk) (hkk : kk ≤ 28) {x : Run Fr}
    (hx : x = testRun ch short legacy mode STEP t calcs) {L' : Layouter Fr} (hL : x.load = .ok L') {K : Key Fr}
    (hK : keygen x.configured.2 L'.ops (2 ^ kk) (omega kk) delta = .ok K) (E : Pairing Fr G G2 GT) :
    (∀ (τ : Fr) (A : Oracle.Log (KzgScript Fr × Stage) (Draw Fr) → KzgScript Fr × Stage) (Q : ℕ),
      Nat.card {u : Fin Q → Draws Fr // (∃ e ∈ Oracle.run (KzgScript.question τ E.g (2 ^ kk)) A (Oracle.tape u) Q,
        e.1.1.Short (2 ^ kk) ∧ e.1.2 = .u ∧ e.1.1.Accepts K E τ (Draws.tuple e.2) ∧
        ¬ (x.Accepted k short L' [] (K.grid e.1.1.messages.advice) ∧
          ∃ s, x.EnabledAfter (K.grid e.1.1.messages.advice) s ∧ ∀ a m, Block x (K.grid e.1.1.messages.advice) s a m →
            ∀ c : ℕ, x.col (K.grid e.1.1.messages.advice) 3 a = (c : Fr) →
              (∀ i ≤ m, x.col (K.grid e.1.1.messages.advice) 4 (a + i) = 0) → 2 * (m + 1) < 2 ^ 64 → ∀ i ≤ m,
                hashMsgFr short legacy (wordsOf x (K.grid e.1.1.messages.advice) a m) (some c) =
                  .ok (x.col (K.grid e.1.1.messages.advice) 0 (a + i)))) ∧
        ¬ K.Breaks τ (Oracle.run (KzgScript.question τ E.g (2 ^ kk)) A (Oracle.tape u) Q)} * Base.Bn256.r ≤
      Q * (53 * 2 ^ kk + 1522) * Base.Bn256.r ^ (8 * Q)) ∧
    ∀ adv : ℕ → Fr[X], (∀ c, (adv c).degree < (2 ^ kk : ℕ)) →
      (∀ c, ∀ r < 2 ^ kk - 6, (adv c).eval (omega kk ^ r) = finalAdvice L'.ops c r) → Complete STEP STEP t calcs →
        ∃ P : KzgProver Fr, P.Short (2 ^ kk) ∧ P.advice = adv ∧ ∀ τ, Base.Bn256.r ^ 56 ≤ Nat.card {u : Fin 7 → Draws Fr //
          ∃ e ∈ (Oracle.run (KzgScript.question τ E.g (2 ^ kk)) P.ask (Oracle.tape u) 7).head?, e.1.1.Short (2 ^ kk) ∧
            e.1.2 = .u ∧ e.1.1.messages.advice = adv ∧ e.1.1.Accepts K E τ (Draws.tuple e.2)} +
          (17 * 2 ^ kk + 507) * Base.Bn256.r ^ 55 := by
  have hlegal : x.Legal := by
    rw [hx]
    exact ⟨fun i => i.isLt, fun i j h => Fin.ext h, by simp [testRun], hS, hS, hc, ht⟩
  have hbn : x.IsBn k short := by rw [hx]; exact ⟨hch, rfl⟩
  have el : x.legacy = legacy := by rw [hx]; rfl
  have eb : x.before.ops = [] := by rw [hx]; rfl
  have e0 : x.cs = ⟨6, 1, 0, [], [], []⟩ := by rw [hx]; rfl
  have h10 : 10 < 2 ^ kk := lt_of_lt_of_le (by norm_num : 10 < 2 ^ 4) (Nat.pow_le_pow_right (by norm_num) hk4)
  have hK' : keygenWith x.configured.2 [] (L'.ops ++ []) (2 ^ kk) (omega kk) delta = .ok K := by
    rw [List.append_nil]
    exact hK
  obtain ⟨hn, hKω⟩ := keygen_n hK
  have hω := omega_primitive hkk
  obtain ⟨ha, hq⟩ := C102_apart hbn hlegal (by rw [e0]; exact tests_modest) h10 hK'
  simp only [e0, List.length_nil] at hq
  obtain ⟨hsl, hlo⟩ := slack_le hbn hlegal (by rw [e0]) (by rw [e0]) (by rw [e0]) hK
  have hsm := small_rows hkk
  constructor
  · intro τ A Q
    have h := C103_table hbn hlegal (Or.inl hL) (by rw [e0]; exact tests_modest) (by rw [eb]; simp) (by rw [eb]; simp) h10 hK'
      hω (delta_names hkk (tests_cols hbn (by rw [e0]))) (by omega) E τ A Q
    rw [card_fr, hn] at h
    refine le_trans (Nat.mul_le_mul_right _ ?_) (h.trans (Nat.mul_le_mul_right _ (Nat.mul_le_mul_left _ (by omega))))
    rw [nat_card_eq_count, nat_card_eq_count]
    refine count_mono fun u ⟨⟨e, he, a1, a2, a3, a4⟩, hb⟩ => ⟨⟨e, he, a1, a2, a3, fun hg => a4 ⟨hg.1, ?_⟩⟩, hb⟩
    obtain ⟨s, hen, h⟩ := C26_block_digest hg.1
    refine ⟨s, hen, fun a m hb => ?_⟩
    rw [← el]
    exact (h a m hb).2
  · intro adv hdeg hadv hcom
    obtain ⟨P, hP, ea, hcard⟩ := (C90_tests hch short legacy mode hS hc ht hkk hx hL hK hdeg hadv).1 hcom
    obtain ⟨P', p1, p2, p3⟩ := honest_asks (K := K) (hn ▸ hP) (by
        rw [card_fr]
        exact hcard) (by omega) (by rw [hn, hKω]; exact hω) E
    rw [hn] at p1 p3
    rw [ea] at p2 p3
    refine ⟨P', p1, p2, fun τ => ?_⟩
    have := p3 τ
    rw [card_fr] at this
    exact this.trans (Nat.add_le_add_left (Nat.mul_le_mul_right _ (by omega)) _)

/-- **C103** (in numbers). On at most `2^28` rows and with `2^100` moves, a player that does not find the secret as a root has a
proof accepted whose table is not an accepted one with chance at most `2^-119`. -/
theorem C103_numbers {k : ChipKind} {ch : Chip Fr 3} (hch : bnChip k = .ok ch) (short legacy : Bool) (mode : LoadMode)
    {STEP : ℕ} {t : HashTable Fr} {calcs : ℕ} (hS : STEP < 2 ^ 64) (hc : calcs < 2 ^ 64)
    (ht : ∀ c ∈ t.controls, c < 2 ^ 64) {kk : ℕ} (hk4 : 4 ≤ kk) (hkk : kk ≤ 28) {x : Run Fr}
    (hx : x = testRun ch short legacy mode STEP t calcs) {L' : Layouter Fr} (hL : x.load = .ok L') {K : Key Fr}
    (hK : keygen x.configured.2 L'.ops (2 ^ kk) (omega kk) delta = .ok K) (E : Pairing Fr G G2 GT) (τ : Fr)
    (A : Oracle.Log (KzgScript Fr × Stage) (Draw Fr) → KzgScript Fr × Stage) {Q : ℕ} (hQ : Q ≤ 2 ^ 100) :
    Nat.card {u : Fin Q → Draws Fr // (∃ e ∈ Oracle.run (KzgScript.question τ E.g (2 ^ kk)) A (Oracle.tape u) Q,
      e.1.1.Short (2 ^ kk) ∧ e.1.2 = .u ∧ e.1.1.Accepts K E τ (Draws.tuple e.2) ∧
      ¬ x.Accepted k short L' [] (K.grid e.1.1.messages.advice)) ∧
      ¬ K.Breaks τ (Oracle.run (KzgScript.question τ E.g (2 ^ kk)) A (Oracle.tape u) Q)} * 2 ^ 119 ≤
    Nat.card (Fin Q → Draws Fr) := by
  have h := (C103_tests hch short legacy mode hS hc ht hk4 hkk hx hL hK E).1 τ A Q
  have hcard : Nat.card (Fin Q → Draws Fr) = Base.Bn256.r ^ (8 * Q) := by
    rw [Nat.card_eq_fintype_card, card_draw_tapes, card_fr]
  rw [hcard]
  have hle := le_trans (Nat.mul_le_mul_right Base.Bn256.r (?_ : Nat.card {u : Fin Q → Draws Fr //
    (∃ e ∈ Oracle.run (KzgScript.question τ E.g (2 ^ kk)) A (Oracle.tape u) Q,
      e.1.1.Short (2 ^ kk) ∧ e.1.2 = .u ∧ e.1.1.Accepts K E τ (Draws.tuple e.2) ∧
      ¬ x.Accepted k short L' [] (K.grid e.1.1.messages.advice)) ∧
      ¬ K.Breaks τ (Oracle.run (KzgScript.question τ E.g (2 ^ kk)) A (Oracle.tape u) Q)} ≤ _)) h
  · have h28 : 2 ^ kk ≤ 2 ^ 28 := Nat.pow_le_pow_right (by norm_num) hkk
    have hr : Q * (53 * 2 ^ kk + 1522) * 2 ^ 119 ≤ Base.Bn256.r :=
      (Nat.mul_le_mul_right _ (Nat.mul_le_mul hQ (Nat.add_le_add_right (Nat.mul_le_mul_left 53 h28) _))).trans
        (by norm_num [Base.Bn256.r])
    exact chance hle hr (by norm_num [Base.Bn256.r])
  · rw [nat_card_eq_count, nat_card_eq_count]
    exact count_mono fun u ⟨⟨e, he, a1, a2, a3, a4⟩, hb⟩ => ⟨⟨e, he, a1, a2, a3, fun hh => a4 hh.1⟩, hb⟩

/-! ### Non-vacuity -/

/-- The first test of hash.rs on `2^7` rows, with multiplication as the pairing and 5 as the secret: a key exists, its witness
is accepted for some oracle, and players with 1000 moves are bound by the theorem. -/
example (b short legacy : Bool) (mode : LoadMode) {ch : Chip Fr 3} (hch : bnChip (.pow5 b) = .ok ch) {x : Run Fr}
    (hx : x = testRun ch short legacy mode 62 ⟨[(1, 2), (0, 1)], [], [], []⟩ 3) :
    ∃ L', x.load = .ok L' ∧ ∃ K, keygen x.configured.2 L'.ops (2 ^ 7) (omega 7) delta = .ok K ∧
      (∃ (P : KzgProver Fr) (u : Fin 7 → Draws Fr),
        ∃ e ∈ (Oracle.run (KzgScript.question 5 (mulPairing Fr).g (2 ^ 7)) P.ask (Oracle.tape u) 7).head?,
          e.1.1.Short (2 ^ 7) ∧ e.1.1.Accepts K (mulPairing Fr) 5 (Draws.tuple e.2)) ∧
      ∀ A, Nat.card {u : Fin 1000 → Draws Fr //
        (∃ e ∈ Oracle.run (KzgScript.question 5 (mulPairing Fr).g (2 ^ 7)) A (Oracle.tape u) 1000, e.1.1.Short (2 ^ 7) ∧
          e.1.2 = .u ∧ e.1.1.Accepts K (mulPairing Fr) 5 (Draws.tuple e.2) ∧
          ¬ x.Accepted (.pow5 b) short L' [] (K.grid e.1.1.messages.advice)) ∧
        ¬ K.Breaks 5 (Oracle.run (KzgScript.question 5 (mulPairing Fr).g (2 ^ 7)) A (Oracle.tape u) 1000)} * 2 ^ 119 ≤
          Nat.card (Fin 1000 → Draws Fr) := by
  have hc : Complete 62 62 ⟨[(1, 2), (0, 1)], [], [], []⟩ 3 := by
    refine ⟨fun j _ h => ?_, fun j hj => ?_⟩
    · simp [rowCtl] at h
    · obtain rfl : j = 2 := by omega
      simp [rowCtl, rowWords]
  have hck : ChecksMatch legacy 62 ⟨[(1, 2), (0, 1)], [], [], []⟩ 3 := by
    intro a m _ _ ck h; simp [rowCk] at h
  have hpass : Passes x 7 := by
    rw [hx, C76_tests hch short legacy mode (by norm_num) (by norm_num) (by simp)]
    exact ⟨fun _ => by simp, hck, hc, by norm_num, by norm_num, by simp [ChipKind.rows]⟩
  obtain ⟨L', hL, K, hK, P, hP, hadv, hgt⟩ :=
    (C90_mock hch short legacy mode (by norm_num) (by norm_num) (by simp) (by norm_num) hx).mp hpass
  refine ⟨L', hL, K, hK, ?_, fun A => C103_numbers hch short legacy mode (by norm_num) (by norm_num) (by simp) (by norm_num)
    (by norm_num) hx hL hK _ 5 A (by norm_num)⟩
  obtain ⟨P', -, -, h⟩ := (C103_tests hch short legacy mode (by norm_num) (by norm_num) (by simp) (by norm_num)
    (by norm_num) hx hL hK (mulPairing Fr)).2 P.advice hP.advice hadv hc
  have h := h 5
  refine ⟨P', ?_⟩
  by_contra hno
  push Not at hno
  rw [nat_card_eq_count, count_false fun u ⟨e, he, hs, _, _, ha⟩ => hno u e he hs ha] at h
  norm_num [Base.Bn256.r] at h

/-- One request, hash(1, 2) in domain 0, on `2^8` rows: the right digest has a prover, and with `2^100` moves a wrong digest is
accepted with chance at most `2^-138`, if the secret is not found. -/
example {k : ChipKind} {ch : Chip Fr 3} (hch : bnChip k = .ok ch) (short short' legacy : Bool) (mode : LoadMode)
    {x : Run Fr} (hx : x = hostRun ch short legacy mode 62 .empty 2) :
    ∃ D, hashWithDomainFr short' ![1, 2] 0 = .ok D ∧ ∃ K : Key Fr,
      (∃ P : KzgProver Fr, P.Short (2 ^ 8) ∧ (∀ j : Fin 4, (P.advice (6 + j)).eval 1 = ![D, 1, 2, 0] j) ∧
        Base.Bn256.r ^ 56 ≤ Nat.card {t : Fin 7 → Draws Fr //
          ∃ e ∈ (Oracle.run (KzgScript.question 5 (mulPairing Fr).g (2 ^ 8)) P.ask (Oracle.tape t) 7).head?,
            e.1.1.Short (2 ^ 8) ∧ e.1.2 = .u ∧ e.1.1.messages.advice = P.advice ∧
              e.1.1.Accepts K (mulPairing Fr) 5 (Draws.tuple e.2)} + 5431 * Base.Bn256.r ^ 55) ∧
      (∀ A, Nat.card {t : Fin (2 ^ 100) → Draws Fr //
        (∃ e ∈ Oracle.run (KzgScript.question 5 (mulPairing Fr).g (2 ^ 8)) A (Oracle.tape t) (2 ^ 100),
          e.1.1.Short (2 ^ 8) ∧ e.1.2 = .u ∧ e.1.1.Accepts K (mulPairing Fr) 5 (Draws.tuple e.2) ∧
            ∀ j : Fin 4, (e.1.1.messages.advice (6 + j)).eval 1 = ![D + 1, 1, 2, 0] j) ∧
        ¬ K.Breaks 5 (Oracle.run (KzgScript.question 5 (mulPairing Fr).g (2 ^ 8)) A (Oracle.tape t) (2 ^ 100))} *
          2 ^ 138 ≤ Base.Bn256.r ^ (8 * 2 ^ 100)) := by
  obtain ⟨D, hD⟩ : ∃ D, hashWithDomainFr short' ![1, 2] 0 = .ok D := ⟨_, (C04_C05_bn254 short' false).1 1 2 0⟩
  obtain ⟨L, hL, K, hK, h, h'⟩ := C103_host hch short short' legacy mode (STEP := 62) (calcs := 2) (m := 1) (kk := 8)
    (by norm_num) (by norm_num) (by norm_num) (by norm_num) (by norm_num) (by cases k <;> simp [ChipKind.rows]) hx
    (mulPairing Fr)
  refine ⟨D, hD, K, ?_, fun A => ?_⟩
  · obtain ⟨P, p1, p2, p3⟩ := h' (fun _ => ![D, 1, 2, 0]) (by simp) (by simpa using hD)
    exact ⟨P, p1, fun j => by simpa using p2 0 (by norm_num) j, p3 5⟩
  · generalize hQ : 2 ^ 100 = Q at A ⊢
    have hle := le_trans (Nat.mul_le_mul_right Base.Bn256.r (?_ : Nat.card {t : Fin Q → Draws Fr //
        (∃ e ∈ Oracle.run (KzgScript.question 5 (mulPairing Fr).g (2 ^ 8)) A (Oracle.tape t) Q,
          e.1.1.Short (2 ^ 8) ∧ e.1.2 = .u ∧ e.1.1.Accepts K (mulPairing Fr) 5 (Draws.tuple e.2) ∧
            ∀ j : Fin 4, (e.1.1.messages.advice (6 + j)).eval 1 = ![D + 1, 1, 2, 0] j) ∧
        ¬ K.Breaks 5 (Oracle.run (KzgScript.question 5 (mulPairing Fr).g (2 ^ 8)) A (Oracle.tape t) Q)} ≤ _)) (h 5 A Q)
    · exact chance hle (by rw [← hQ]; norm_num [Base.Bn256.r]) (by norm_num [Base.Bn256.r])
    · rw [nat_card_eq_count, nat_card_eq_count]
      refine count_mono fun t ⟨⟨e, he, a1, a2, a3, hv⟩, hb⟩ => ⟨⟨e, he, a1, a2, a3, 0, by norm_num, ?_⟩, hb⟩
      have h6 := hv 0
      have h7 := hv 1
      have h8 := hv 2
      have h9 := hv 3
      simp at h6 h7 h8 h9
      simp only [pow_zero, h6, h7, h8, h9]
      refine ⟨by simp, fun hh => ?_⟩
      have := hh.symm.trans hD
      injection this with this
      simp at this

end Props
