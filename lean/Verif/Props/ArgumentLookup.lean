import Verif.Props.ArgumentProves

/-!
# Proofs of circuits that look into the hash table

C92 to C95 with the challenges of an oracle as well.
-/

set_option linter.unusedVariables false

namespace Props
open Halo2 Circuit Circuit.Table Base.Bn256 Polynomial

theorem card_fr : Fintype.card Fr = Base.Bn256.r := ZMod.card Base.Bn256.r

/-- **C100.** In any circuit with a hash table, a lookup into it and a key, proofs show that the table is an accepted one and
that what is looked up is in it, on all rows where the lookup is on. -/
theorem C100_lookup {x : Run Fr} {k : ChipKind} {short : Bool} (hbn : x.IsBn k short) (hx : x.Legal)
    {L' : Layouter Fr} (hL : x.Loads L') {post : List (Op Fr)} {cs : CS Fr}
    {ws : List (Wide Fr)} (hgates : ∀ p ∈ x.newGates, p ∈ cs.gates) (hlookups : ∀ l ∈ x.newLookups, l ∈ cs.lookups)
    (quietFixed : ∀ o ∈ x.before.ops ++ post, ∀ c r v, o.FixedWrite c r v → ¬ x.FixedCol c)
    (quietSel : ∀ c r, Op.selector c r ∈ x.before.ops ++ post → ¬ x.Sel c) {n : ℕ} {ω δ : Fr} {K : Key Fr}
    (hK : keygenWith cs ws (L'.ops ++ post) n ω δ = .ok K) (hω : IsPrimitiveRoot ω n) (hδ : DistinctNames cs n ω δ) :
    K.Proves fun g => x.Accepted k short L' post g ∧ (∀ p ∈ cs.gates, p.Holds g) ∧
      ∀ q es, tableLookup x.qEnable x.hashTable q es ∈ ws →
        ∀ row < K.usable, q.eval g row = 1 → Answers x g fun i => (es i).eval g row := by
  refine proves_with hK hω hδ fun adv _ h1 h2 h3 => ?_
  have hacc := accepted_of_holds hbn hx hL hgates hlookups quietFixed quietSel hK h1 h3
  refine ⟨hacc, h1.1, fun q es hw row hrow hq => ?_⟩
  obtain ⟨r, hr, e1, e2⟩ := (tableLookup_holds hacc.laid.usable_le).mp (h2 _ hw) row hrow
  exact ⟨r, hr, by rw [← e1, hq], fun i => (e2 i).symm⟩

/-- **C100** (two words). Where a digest, two words and a domain are looked up with control 0 and head 1, proofs show that
the digest is the hash of the words, or both words are zero. -/
theorem C100_mpt {x : Run Fr} {k : ChipKind} {short : Bool} (short' : Bool) (hbn : x.IsBn k short) (hx : x.Legal)
    (hstep : x.step = x.STEP) (hpos : 0 < x.STEP) (hS : x.STEP < 2 ^ 63) {L' : Layouter Fr} (hL : x.Loads L')
    {post : List (Op Fr)} {cs : CS Fr} {ws : List (Wide Fr)} (hgates : ∀ p ∈ x.newGates, p ∈ cs.gates)
    (hlookups : ∀ l ∈ x.newLookups, l ∈ cs.lookups)
    (quietFixed : ∀ o ∈ x.before.ops ++ post, ∀ c r v, o.FixedWrite c r v → ¬ x.FixedCol c)
    (quietSel : ∀ c r, Op.selector c r ∈ x.before.ops ++ post → ¬ x.Sel c) {n : ℕ} {ω δ : Fr} {K : Key Fr}
    (hK : keygenWith cs ws (L'.ops ++ post) n ω δ = .ok K) (hω : IsPrimitiveRoot ω n) (hδ : DistinctNames cs n ω δ)
    {q : Expr Fr} {es : Fin 6 → Expr Fr} (hw : tableLookup x.qEnable x.hashTable q es ∈ ws) :
    K.Proves fun g => ∀ row < K.usable, q.eval g row = 1 → (es 3).eval g row = 0 → (es 5).eval g row = 1 →
      hashWithDomainFr short' ![(es 1).eval g row, (es 2).eval g row] ((es 4).eval g row) = .ok ((es 0).eval g row) ∨
        ((es 1).eval g row = 0 ∧ (es 2).eval g row = 0) := by
  refine (C100_lookup hbn hx hL hgates hlookups quietFixed quietSel hK hω hδ).mono fun g hg row hrow hq h3 h5 => ?_
  obtain ⟨hacc, -, h⟩ := hg
  have hans := h q es hw row hrow hq
  refine (C66_mpt k short short' x.legacy x.mode hpos hS _ _ _ _).mp
    ⟨x, L', post, g, hacc, rfl, rfl, rfl, hstep, fun t ht => ?_⟩
  rw [List.mem_singleton.mp ht]
  convert hans using 2 with i
  fin_cases i <;> simp [h3, h5]

/-- **C100** (messages). With the gate of C94, proofs show of every message whose rows are all looked up that its digest is
right, or that the table contains a collision of `hash_msg`. -/
theorem C100_message {x : Run Fr} {k : ChipKind} {short : Bool} (short' : Bool) (hbn : x.IsBn k short) (hx : x.Legal)
    (hstep : x.step = x.STEP) (hpos : 0 < x.STEP) (hcalcs : x.calcs < 2 ^ 63) {L' : Layouter Fr} (hL : x.Loads L')
    {post : List (Op Fr)} {cs : CS Fr} {ws : List (Wide Fr)} (hgates : ∀ p ∈ x.newGates, p ∈ cs.gates)
    (hlookups : ∀ l ∈ x.newLookups, l ∈ cs.lookups) (hbare : bareGate x.qEnable x.hashTable ∈ cs.gates)
    (quietFixed : ∀ o ∈ x.before.ops ++ post, ∀ c r v, o.FixedWrite c r v → ¬ x.FixedCol c)
    (quietSel : ∀ c r, Op.selector c r ∈ x.before.ops ++ post → ¬ x.Sel c) {n : ℕ} {ω δ : Fr} {K : Key Fr}
    (hK : keygenWith cs ws (L'.ops ++ post) n ω δ = .ok K) (hω : IsPrimitiveRoot ω n) (hδ : DistinctNames cs n ω δ)
    {q : Expr Fr} {es : Fin 6 → Expr Fr} (hw : tableLookup x.qEnable x.hashTable q es ∈ ws) :
    K.Proves fun g => ∀ (c : ℕ) (msg : List (Fr × Fr)) (D : Fr), 0 < c → c < 2 ^ 64 →
      msg.length = (c + x.STEP - 1) / x.STEP →
      (∀ t ∈ messageRows (Base.domainSpec x.legacy) x.STEP D true c msg,
        ∃ row < K.usable, q.eval g row = 1 ∧ ∀ i, (es i).eval g row = t i) →
      hashMsgFr short' x.legacy (msg.flatMap fun w => [w.1, w.2]) (some (c * Base.domainSpec x.legacy)) = .ok D ∨
      ∃ a₁ m₁ c₁ ws₁ a₂ m₂ c₂ ws₂, IsMessage x g a₁ m₁ c₁ ws₁ ∧ IsMessage x g a₂ m₂ c₂ ws₂ ∧
        (c₁, ws₁) ≠ (c₂, ws₂) ∧
        hashMsgFr short' x.legacy (ws₁.flatMap fun w => [w.1, w.2]) (some (c₁ * Base.domainSpec x.legacy)) = .ok D ∧
        hashMsgFr short' x.legacy (ws₂.flatMap fun w => [w.1, w.2]) (some (c₂ * Base.domainSpec x.legacy)) = .ok D := by
  refine (C100_lookup hbn hx hL hgates hlookups quietFixed quietSel hK hω hδ).mono
    fun g hg c msg D hc0 hc hcount hrows => ?_
  obtain ⟨hacc, hgate, hans⟩ := hg
  obtain ⟨s, hen, -⟩ := C28_controls hacc
  refine C94_message short' hacc hstep hpos hcalcs
    ((bareGate_holds hacc.laid.usable_le hen).mp (hgate _ hbare)) hc0 hc msg hcount D fun t ht => ?_
  obtain ⟨row, h1, h2, h3⟩ := hrows t ht
  have := hans q es hw row h1 h2
  rwa [show (fun i => (es i).eval g row) = t from funext h3] at this

/-- **C100** (requests). For the circuit of C93: the key, made before the requests are known, exists; proofs for it show that
every request whose words are not both zero has the right digest; and honest provers show any requests with right digests. -/
theorem C100_host {k : ChipKind} {ch : Chip Fr 3} (hch : bnChip k = .ok ch) (short short' legacy : Bool) (mode : LoadMode)
    {STEP calcs m kk : ℕ} (hpos : 0 < STEP) (hm : m < calcs) (hkk : kk ≤ 28) (h1 : STEP + 8 ≤ 2 ^ kk)
    (h2 : calcs + 7 ≤ 2 ^ kk) (h3 : k.rows * calcs + 6 ≤ 2 ^ kk) {x : Run Fr}
    (hx : x = hostRun ch short legacy mode STEP .empty calcs) :
    ∃ L, x.load = .ok L ∧ ∃ K,
      keygenWith x.configured.2 [hostLookup] (L.ops ++ hostOps (q := 4) m 0) (2 ^ kk) (omega kk) delta = .ok K ∧
      (K.slack ≤ 58 * 2 ^ kk ∧ K.loss ≤ 19 * 2 ^ kk) ∧
      (K.Proves fun g => ∀ i < m, ¬ (g.advice 7 i = 0 ∧ g.advice 8 i = 0) →
        hashWithDomainFr short' ![g.advice 7 i, g.advice 8 i] (g.advice 9 i) = .ok (g.advice 6 i)) ∧
      ∀ v : ℕ → Fin 4 → Fr, (∀ i < m, ¬ (v i 1 = 0 ∧ v i 2 = 0)) →
        (∀ i < m, hashWithDomainFr short' ![v i 1, v i 2] (v i 3) = .ok (v i 0)) →
        K.Shows fun g => ∀ i < m, ∀ j : Fin 4, g.advice (6 + j) i = v i j := by
  obtain ⟨L, hL, K, hK, hsl, hlo, hmain⟩ := C93_host hch short short' legacy mode hpos hm hkk h1 h2 h3 hx
  have h28 : 2 ^ kk ≤ 2 ^ 28 := Nat.pow_le_pow_right (by norm_num) hkk
  have hc : calcs < 2 ^ 64 := by omega
  have hlegal : x.Legal := by rw [hx]; exact hostRun_legal (by omega) hc (by simp [HashTable.empty])
  have hbn : x.IsBn k short := by rw [hx]; exact ⟨hch, rfl⟩
  have eS : x.STEP = STEP := by rw [hx]; rfl
  have es : x.step = STEP := by rw [hx]; rfl
  have eb : x.before.ops = [] := by rw [hx]; rfl
  have e0 : x.cs = ⟨10, 2, 0, [], [], []⟩ := by rw [hx]; rfl
  have eq : x.qEnable = 0 := by rw [hx]; rfl
  have eh : ∀ i, x.hashTable i = i := by rw [hx]; exact fun i => rfl
  have ea : x.cs.numAdvice = 6 + 4 := by rw [e0]
  have ef : x.cs.numFixed = 2 := by rw [e0]
  have hbl := host_blinding hbn hlegal e0
  have hω := omega_primitive hkk
  have hcols : (permCols x.configured.2.equality).length ≤ 10 ^ 28 := by
    obtain ⟨⟨lw, -⟩, hn⟩ := hbn.lawful
    refine (permCols_length _).trans ?_
    rw [Run.configured_eq lw]
    simp only [e0, List.nil_append, List.length_append, (chip_size hbn.1 lw _ _ _).2]
    exact (show 8 + 6 ≤ 10 ^ 28 by norm_num)
  have hKu : K.usable = 2 ^ kk - 6 ∧ K.ω = omega kk ∧ K.n = 2 ^ kk := by
    obtain ⟨-, -, A, -, rfl⟩ := keygen_ok hK
    exact ⟨by simp only [hbl], rfl, rfl⟩
  have hflag := host_flag hbn hlegal ea ef eq eh eb (Or.inl hL) hK
  obtain ⟨-, -, hq1, hq2⟩ := host_quiet hbn hlegal ea ef eq eh eb (Or.inl hL)
  refine ⟨L, hL, K, hK, ⟨hsl, hlo⟩, ?_, fun v hv hv' => ?_⟩
  · have key := C100_mpt short' hbn hlegal (by rw [es, eS]) (by rw [eS]; exact hpos) (by rw [eS]; omega) (Or.inl hL)
      (cs := x.configured.2) (fun p h => List.mem_of_mem_drop h) (fun p h => List.mem_of_mem_drop h)
      (by
        intro o ho c r v hw
        rw [eb, List.nil_append] at ho
        obtain ⟨i, -, rfl | ⟨j, rfl⟩⟩ := mem_hostOps.mp ho
        · rcases hw with hw | ⟨r', -, hw⟩ <;> cases hw
          exact hq1
        · rcases hw with hw | ⟨r', -, hw⟩ <;> cases hw)
      (by
        intro c r ho
        rw [eb, List.nil_append] at ho
        obtain ⟨i, -, h | ⟨j, h⟩⟩ := mem_hostOps.mp ho <;> cases h)
      hK hω (delta_names hkk hcols)
      (q := .fixed 1 0) (es := ![.mul (.fixed 1 0) (.advice 6 0), .mul (.fixed 1 0) (.advice 7 0),
        .mul (.fixed 1 0) (.advice 8 0), .const 0, .mul (.fixed 1 0) (.advice 9 0), .fixed 1 0])
      (by
        rw [List.mem_singleton, hostLookup, eq]
        congr 1
        funext i
        exact eh i)
    refine key.on fun adv hg i hi hne => ?_
    have hi' : i < K.usable := by omega
    have hrot : (K.grid adv).rot i 0 = i := (K.grid adv).rot_zero (show i < K.n by omega)
    have hfl : K.fixed 1 ((K.grid adv).rot i 0) = 1 := by rw [hrot, hflag, if_pos hi]
    have hcell : ∀ c, (Expr.mul (.fixed 1 0) (.advice c 0) : Expr Fr).eval (K.grid adv) i = (K.grid adv).advice c i := by
      intro c
      change K.fixed 1 ((K.grid adv).rot i 0) * (K.grid adv).advice c ((K.grid adv).rot i 0) = _
      rw [hfl, one_mul, hrot]
    have := hg i hi' hfl rfl hfl
    simp only [Matrix.cons_val_zero, Matrix.cons_val_one, Matrix.cons_val, hcell] at this
    exact this.resolve_right hne
  · obtain ⟨P, p1, p2, p3⟩ := (hmain v hv).2 hv'
    refine ⟨P, hKu.2.2 ▸ p1, fun i hi j => ?_, by rw [card_fr]; exact p3⟩
    change (P.advice (6 + j)).eval (K.ω ^ i) = _
    rw [hKu.2.1]
    exact p2 i hi j

/-- **C100** (rows of messages). For the circuit of C95: the key, made before the messages are known, exists; proofs for it
show that the digests of all messages are right or that the table contains a collision of `hash_msg`; and honest provers show
any messages with right digests. -/
theorem C100_code {k : ChipKind} {ch : Chip Fr 3} (hch : bnChip k = .ok ch) (short short' legacy : Bool) (mode : LoadMode)
    {STEP calcs m kk : ℕ} (hpos : 0 < STEP) (hm : m < calcs) (hkk : kk ≤ 28) (h1 : STEP + 8 ≤ 2 ^ kk)
    (h2 : calcs + 7 ≤ 2 ^ kk) (h3 : k.rows * calcs + 6 ≤ 2 ^ kk) {x : Run Fr}
    (hx : x = codeRun ch short legacy mode STEP .empty calcs) :
    ∃ L, x.load = .ok L ∧ ∃ K,
      keygenWith x.configured.2 [codeLookup] (L.ops ++ hostOps (q := 5) m 0) (2 ^ kk) (omega kk) delta = .ok K ∧
      (K.slack ≤ 58 * 2 ^ kk ∧ K.loss ≤ 19 * 2 ^ kk) ∧
      (K.Proves fun g => ∀ msgs : List (ℕ × List (Fr × Fr) × Fr), (∀ msg ∈ msgs, 0 < msg.1 ∧ msg.1 < 2 ^ 64 ∧
          msg.2.1.length = (msg.1 + STEP - 1) / STEP) → (codeRows legacy STEP msgs).length = m →
        (∀ i (hi : i < (codeRows legacy STEP msgs).length), ∀ j : Fin 5,
          g.advice (6 + j) i = codeReq (codeRows legacy STEP msgs)[i] j) → ∀ msg ∈ msgs,
        hashMsgFr short' legacy (msg.2.1.flatMap fun w => [w.1, w.2]) (some (msg.1 * Base.domainSpec legacy)) =
          .ok msg.2.2 ∨
        ∃ a₁ m₁ c₁ ws₁ a₂ m₂ c₂ ws₂, IsMessage x g a₁ m₁ c₁ ws₁ ∧ IsMessage x g a₂ m₂ c₂ ws₂ ∧
          (c₁, ws₁) ≠ (c₂, ws₂) ∧
          hashMsgFr short' legacy (ws₁.flatMap fun w => [w.1, w.2]) (some (c₁ * Base.domainSpec legacy)) = .ok msg.2.2 ∧
          hashMsgFr short' legacy (ws₂.flatMap fun w => [w.1, w.2]) (some (c₂ * Base.domainSpec legacy)) =
            .ok msg.2.2) ∧
      ∀ msgs : List (ℕ × List (Fr × Fr) × Fr), (∀ msg ∈ msgs, 0 < msg.1 ∧ msg.1 < 2 ^ 64 ∧
          msg.2.1.length = (msg.1 + STEP - 1) / STEP) → (codeRows legacy STEP msgs).length = m →
        (∀ msg ∈ msgs, hashMsgFr short' legacy (msg.2.1.flatMap fun w => [w.1, w.2])
          (some (msg.1 * Base.domainSpec legacy)) = .ok msg.2.2) →
        K.Shows fun g => ∀ i (hi : i < (codeRows legacy STEP msgs).length), ∀ j : Fin 5,
          g.advice (6 + j) i = codeReq (codeRows legacy STEP msgs)[i] j := by
  obtain ⟨L, hL, K, hK, hsl, hlo, hmain⟩ := C95_code hch short short' legacy mode hpos hm hkk h1 h2 h3 hx
  have hbn : x.IsBn k short := by rw [hx]; exact ⟨hch, rfl⟩
  have e0 : x.cs.equality = [] := by rw [hx]; rfl
  have hω := omega_primitive hkk
  have hcols : (permCols x.configured.2.equality).length ≤ 10 ^ 28 := by
    obtain ⟨⟨lw, -⟩, hn⟩ := hbn.lawful
    refine (permCols_length _).trans ?_
    rw [Run.configured_eq lw]
    simp only [e0, List.nil_append, List.length_append, (chip_size hbn.1 lw _ _ _).2]
    exact (show 8 + 6 ≤ 10 ^ 28 by norm_num)
  obtain ⟨hn, hKω⟩ := keygen_n hK
  refine ⟨L, hL, K, hK, ⟨hsl, hlo⟩, ?_, fun msgs hmsgs hlen hv => ?_⟩
  · refine proves_with hK hω (delta_names hkk hcols) fun adv hdeg a1 a2 a3 msgs hmsgs hlen hreq => ?_
    obtain ⟨P, p1, rfl, p3⟩ := C89_complete hK hω (advice := adv) hdeg a1 a2 a3
    rw [card_fr] at p3
    refine (hmain msgs hmsgs hlen).1 P p1 (fun i hi j => ?_) (enough hkk hlo p3)
    rw [← hreq i hi j, ← hKω]
    rfl
  · obtain ⟨P, p1, p2, p3, -⟩ := (hmain msgs hmsgs hlen).2 hv
    refine ⟨P, hn ▸ p1, fun i hi j => ?_, by rw [card_fr]; exact p3⟩
    change (P.advice (6 + j)).eval (K.ω ^ i) = _
    rw [hKω]
    exact p2 i hi j

/-! ### Non-vacuity -/

/-- One request, hash(1, 2) in domain 0, on `2^8` rows. -/
example {k : ChipKind} {ch : Chip Fr 3} (hch : bnChip k = .ok ch) (short short' legacy : Bool) (mode : LoadMode)
    {x : Run Fr} (hx : x = hostRun ch short legacy mode 62 .empty 2) :
    ∃ D, hashWithDomainFr short' ![1, 2] 0 = .ok D ∧ ∃ L, x.load = .ok L ∧ ∃ K,
      keygenWith x.configured.2 [hostLookup] (L.ops ++ hostOps (q := 4) 1 0) (2 ^ 8) (omega 8) delta = .ok K ∧
      K.Shows fun g => ∀ j : Fin 4, g.advice (6 + j) 0 = ![D, 1, 2, 0] j := by
  obtain ⟨D, hD⟩ : ∃ D, hashWithDomainFr short' ![1, 2] 0 = .ok D :=
    ⟨_, (C04_C05_bn254 short' false).1 1 2 0⟩
  obtain ⟨L, hL, K, hK, -, -, h⟩ := C100_host hch short short' legacy mode (STEP := 62) (calcs := 2) (m := 1) (kk := 8)
    (by norm_num) (by norm_num) (by norm_num) (by norm_num) (by norm_num) (by cases k <;> simp [ChipKind.rows]) hx
  obtain ⟨P, p1, p2, p3⟩ := h (fun _ => ![D, 1, 2, 0]) (by simp) (by simpa using hD)
  exact ⟨D, hD, L, hL, K, hK, P, p1, fun j => p2 0 (by norm_num) j, p3⟩

/-- The circuit of C95 meets the hypotheses of `C100_message`: a message of 100 bytes in two rows, on `2^8` rows, is shown by
an honest prover, and what all provers show is as `C100_message` says. -/
example {k : ChipKind} {ch : Chip Fr 3} (hch : bnChip k = .ok ch) (short short' legacy : Bool) (mode : LoadMode)
    {x : Run Fr} (hx : x = codeRun ch short legacy mode 62 .empty 4) :
    ∃ D, hashMsgFr short' legacy [1, 2, 3, 4] (some (100 * Base.domainSpec legacy)) = .ok D ∧
    ∃ L, x.load = .ok L ∧ ∃ K,
      keygenWith x.configured.2 [codeLookup] (L.ops ++ hostOps (q := 5) 2 0) (2 ^ 8) (omega 8) delta = .ok K ∧
      (K.Shows fun g => ∀ j : Fin 5, g.advice (6 + j) 0 = ![D, 1, 2, (100 * Base.domainSpec legacy : ℕ), 1] j) ∧
      K.Proves fun g => ∀ D', (∀ t ∈ messageRows (Base.domainSpec x.legacy) x.STEP D' true 100 [(1, 2), (3, 4)],
        ∃ row < K.usable, K.fixed 1 row = 1 ∧ ∀ j : Fin 5, g.advice (6 + j) row = codeReq t j) → D' = D ∨
        ∃ a₁ m₁ c₁ ws₁ a₂ m₂ c₂ ws₂, IsMessage x g a₁ m₁ c₁ ws₁ ∧ IsMessage x g a₂ m₂ c₂ ws₂ ∧
          (c₁, ws₁) ≠ (c₂, ws₂) := by
  obtain ⟨D, hD⟩ : ∃ D, hashMsgFr short' legacy [1, 2, 3, 4] (some (100 * Base.domainSpec legacy)) = .ok D :=
    ⟨_, (C04_C05_bn254 short' legacy).2 _ _ (by simp) (by simp)⟩
  obtain ⟨L, hL, K, hK, -, -, h⟩ := C100_code hch short short' legacy mode (STEP := 62) (calcs := 4) (m := 2) (kk := 8)
    (by norm_num) (by norm_num) (by norm_num) (by norm_num) (by norm_num) (by cases k <;> simp [ChipKind.rows]) hx
  refine ⟨D, hD, L, hL, K, hK, ?_, ?_⟩
  · have hl : (codeRows legacy 62 [(100, [(1, 2), (3, 4)], D)]).length = 2 := by rw [codeRows, (messages_bare _).2]; rfl
    obtain ⟨P, p1, p2, p3⟩ := h [(100, [(1, 2), (3, 4)], D)] (by
      intro m hm
      obtain rfl := List.mem_singleton.mp hm
      exact ⟨by norm_num, by norm_num, by norm_num⟩) hl (by
      intro m hm
      obtain rfl := List.mem_singleton.mp hm
      exact hD)
    refine ⟨P, p1, fun j => ?_, p3⟩
    rw [p2 0 (by rw [hl]; norm_num) j]
    fin_cases j <;> rfl
  have hlegal : x.Legal := by
    rw [hx]
    exact ⟨fun i => lt_of_lt_of_le i.isLt (by simp [codeRun]), fun i j h => Fin.ext h, by simp [codeRun, testRun],
      by norm_num [codeRun, testRun], by norm_num [codeRun, testRun], by norm_num [codeRun, testRun],
      by simp [codeRun, testRun, HashTable.empty]⟩
  have hbn : x.IsBn k short := by rw [hx]; exact ⟨hch, rfl⟩
  have eS : x.STEP = 62 := by rw [hx]; rfl
  have es : x.step = 62 := by rw [hx]; rfl
  have ec : x.calcs = 4 := by rw [hx]; rfl
  have el : x.legacy = legacy := by rw [hx]; rfl
  have eb : x.before.ops = [] := by rw [hx]; rfl
  have e0 : x.cs = ⟨11, 2, 0, [bareGate 0 fun i => i], [], []⟩ := by rw [hx]; rfl
  have eq : x.qEnable = 0 := by rw [hx]; rfl
  have eh : ∀ i, x.hashTable i = i := by rw [hx]; exact fun i => rfl
  have ea : x.cs.numAdvice = 6 + 5 := by rw [e0]
  have ef : x.cs.numFixed = 2 := by rw [e0]
  obtain ⟨-, -, hq1, hq2⟩ := host_quiet hbn hlegal ea ef eq eh eb (Or.inl hL)
  obtain ⟨⟨lw, -⟩, hn⟩ := hbn.lawful
  have hcols : (permCols x.configured.2.equality).length ≤ 10 ^ 28 := by
    refine (permCols_length _).trans ?_
    rw [Run.configured_eq lw]
    simp only [e0, List.nil_append, List.length_append, (chip_size hbn.1 lw _ _ _).2]
    exact (show 8 + 6 ≤ 10 ^ 28 by norm_num)
  have hgates : bareGate x.qEnable x.hashTable ∈ x.configured.2.gates := by
    rw [Run.configured_eq lw, eq, show x.hashTable = (fun i : Fin 6 => (i : ℕ)) from funext eh]
    simp [e0]
  have key := C100_message short' hbn hlegal (by rw [es, eS]) (by rw [eS]; norm_num) (by rw [ec]; norm_num) (Or.inl hL)
    (cs := x.configured.2) (fun p h => List.mem_of_mem_drop h) (fun p h => List.mem_of_mem_drop h) hgates
    (by
      intro o ho c r v hw
      rw [eb, List.nil_append] at ho
      obtain ⟨i, -, rfl | ⟨j, rfl⟩⟩ := mem_hostOps.mp ho
      · rcases hw with hw | ⟨r', -, hw⟩ <;> cases hw
        exact hq1
      · rcases hw with hw | ⟨r', -, hw⟩ <;> cases hw)
    (by
      intro c r ho
      rw [eb, List.nil_append] at ho
      obtain ⟨i, -, h | ⟨j, h⟩⟩ := mem_hostOps.mp ho <;> cases h)
    hK (omega_primitive (by norm_num)) (delta_names (by norm_num) hcols)
    (q := .fixed 1 0) (es := ![.mul (.fixed 1 0) (.advice 6 0), .mul (.fixed 1 0) (.advice 7 0),
      .mul (.fixed 1 0) (.advice 8 0), .mul (.fixed 1 0) (.advice 9 0), .const 0, .mul (.fixed 1 0) (.advice 10 0)])
    (by
      rw [List.mem_singleton, codeLookup, eq]
      congr 1
      funext i
      exact eh i)
  refine key.on fun adv hg D' hrows => ?_
  have hu : K.usable ≤ K.n := (key_fixed hK adv).1
  have hall : ∀ t ∈ messageRows (Base.domainSpec x.legacy) x.STEP D' true 100 [((1 : Fr), (2 : Fr)), (3, 4)], ∃ row < K.usable,
      (Expr.fixed 1 0 : Expr Fr).eval (K.grid adv) row = 1 ∧ ∀ i, ((![.mul (.fixed 1 0) (.advice 6 0), .mul (.fixed 1 0) (.advice 7 0),
        .mul (.fixed 1 0) (.advice 8 0), .mul (.fixed 1 0) (.advice 9 0), .const 0, .mul (.fixed 1 0) (.advice 10 0)] :
        Fin 6 → Expr Fr) i).eval (K.grid adv) row = t i := by
    intro t ht
    obtain ⟨row, hr, hf, hc⟩ := hrows t ht
    have hrot : (K.grid adv).rot row 0 = row := (K.grid adv).rot_zero (lt_of_lt_of_le hr hu)
    have hfl : K.fixed 1 ((K.grid adv).rot row 0) = 1 := by rw [hrot, hf]
    have hcell : ∀ j : Fin 5, (Expr.mul (.fixed 1 0) (.advice (6 + j) 0) : Expr Fr).eval (K.grid adv) row = codeReq t j := by
      intro j
      change K.fixed 1 ((K.grid adv).rot row 0) * (K.grid adv).advice (6 + j) ((K.grid adv).rot row 0) = _
      rw [hfl, one_mul, hrot, hc j]
    refine ⟨row, hr, hfl, fun j => ?_⟩
    have h4 := (messages_bare (SPEC := Base.domainSpec x.legacy) (K := x.STEP) [(100, [(1, 2), (3, 4)], D')]).1 t (by simpa [codeRows] using ht)
    fin_cases j
    · exact hcell 0
    · exact hcell 1
    · exact hcell 2
    · exact hcell 3
    · exact h4.symm
    · exact hcell 4
  rcases hg 100 [(1, 2), (3, 4)] D' (by norm_num) (by norm_num) (by rw [eS]; rfl) hall with h' | h'
  · left
    rw [el] at h'
    have := h'.symm.trans hD
    injection this
  · obtain ⟨a₁, m₁, c₁, ws₁, a₂, m₂, c₂, ws₂, b1, b2, b3, -⟩ := h'
    exact Or.inr ⟨a₁, m₁, c₁, ws₁, a₂, m₂, c₂, ws₂, b1, b2, b3⟩

end Props
