import Verif.Props.TableLookup

/-!
# Messages looked up row by row, with one more gate

C66 shows that looking up the rows of a message one by one says nothing about its digest. Here: it does in tables where
rows with a control have no domain.
-/

set_option linter.unusedVariables false

namespace Props
open Halo2 Circuit Circuit.Table Base.Bn256

/-- Rows with a control have no domain. -/
def Bare (x : Run Fr) (g : Grid Fr) : Prop :=
  ∀ r < g.usable, g.fixed x.qEnable r = 1 → x.col g 3 r ≠ 0 → x.col g 4 r = 0

/-- A block of the table is a computation of `hash_msg` on `c` bytes in rows of `K`: the words of its rows are `ws`. -/
structure IsMessage (x : Run Fr) (g : Grid Fr) (a m c : ℕ) (ws : List (Fr × Fr)) : Prop where
  block : ∃ s, x.EnabledAfter g s ∧ Block x g s a m
  control : x.col g 3 a = ((c * Base.domainSpec x.legacy : ℕ) : Fr)
  rows : ws = (List.range (m + 1)).map fun i => (x.col g 1 (a + i), x.col g 2 (a + i))
  count : ws.length = (c + x.STEP - 1) / x.STEP

private theorem mem_messageRows_get {SPEC K : ℕ} {D : Fr} (ws : List (Fr × Fr)) : ∀ (f : Bool) (c i : ℕ)
    (hi : i < ws.length), (![D, ws[i].1, ws[i].2, (((c - i * K) * SPEC : ℕ) : Fr), 0,
      if i = 0 ∧ f = true then 1 else 0] : Fin 6 → Fr) ∈ messageRows SPEC K D f c ws := by
  induction ws with
  | nil => intro f c i hi; simp at hi
  | cons w ws ih =>
    obtain ⟨a, b⟩ := w
    intro f c i hi
    rcases i with _ | i
    · simp [messageRows]
    · have := ih false (c - K) i (by simpa using hi)
      refine List.mem_cons_of_mem _ ?_
      rw [Nat.sub_sub, show K + i * K = (i + 1) * K by ring] at this
      simpa using this

private theorem count_eq {K i m : ℕ} (hi : i ≤ K) (h0 : 0 < i) : m + 1 = (i + m * K + K - 1) / K := by
  refine (Nat.div_eq_of_lt_le ?_ ?_).symm
  · rw [Nat.add_mul]; omega
  · rw [Nat.add_mul, Nat.add_mul]; omega

/-- The message of a row with a control. -/
private theorem message_of_row {x : Run Fr} {k : ChipKind} {short : Bool} {L' : Layouter Fr} {post : List (Op Fr)}
    {g : Grid Fr} (short' : Bool) (h : x.Accepted k short L' post g) (hstep : x.step = x.STEP) (hpos : 0 < x.STEP)
    (hcalcs : x.calcs < 2 ^ 63) (hbare : Bare x g) {r : ℕ} (hr : r < g.usable) (he : g.fixed x.qEnable r = 1)
    (h3 : x.col g 3 r ≠ 0) : ∃ a m c ws, IsMessage x g a m c ws ∧ a ≤ r ∧ r ≤ a + m ∧ c < 2 ^ 129 ∧
      x.col g 3 r = (((c - (r - a) * x.STEP) * Base.domainSpec x.legacy : ℕ) : Fr) ∧ m * x.STEP < c ∧
      (a < r → x.col g 5 r = 0) ∧
      hashMsgFr short' x.legacy (ws.flatMap fun w => [w.1, w.2]) (some (c * Base.domainSpec x.legacy)) =
        .ok (x.col g 0 r) := by
  obtain ⟨s, hen, -, -, hcov, hctrl, -⟩ := C28_controls h
  obtain ⟨s₁, hen₁, hdig⟩ := C26_block_digest h
  obtain ⟨s₂, hen₂, -, hcust, -⟩ := C30_custom_rows h
  have hu := h.laid.usable_le
  have hen0 := hen.1
  have hrow : s < r ∧ r ≤ s + x.calcs := by
    have := hen.2 r (by omega)
    rw [he] at this
    by_contra hn
    rw [if_neg hn] at this
    exact one_ne_zero this
  obtain rfl := hen₁.unique hu hen (by omega)
  obtain rfl := hen₂.unique hu hen (by omega)
  have hne : r ≠ s₂ + x.calcs := fun e => h3 (hcust r (Or.inr e)).2.2
  obtain ⟨a, m, hb, h1, h2⟩ := hcov r hrow.1 (by omega)
  obtain ⟨i, hi, hi0, hc⟩ := hctrl a m hb
  rw [hstep] at hc
  have hiz : 0 < i := by
    rcases Nat.eq_zero_or_pos m with rfl | hm
    · rcases Nat.eq_zero_or_pos i with rfl | hi'
      · exact absurd (by rw [show r = a + 0 by omega, (hc 0 (le_refl _)).1]; simp) h3
      · exact hi'
    · exact hi0 hm
  have hS := h.legal.STEP_lt
  have hsp : 0 < Base.domainSpec x.legacy := by unfold Base.domainSpec; split <;> omega
  have hblast := hb.last
  have hbfirst := hb.first
  have hdom : ∀ j ≤ m, x.col g 4 (a + j) = 0 := by
    intro j hj
    refine hbare (a + j) (by omega) ?_ ?_
    · rw [hen.2 (a + j) (by omega), if_pos (by omega)]
    · obtain ⟨e, hlt⟩ := hc j hj
      rw [e]
      intro hz
      have := (ZMod.natCast_eq_zero_iff _ _).mp hz
      exact absurd (Nat.le_of_dvd (Nat.mul_pos (by omega) hsp) this) (by omega)
  have hmul : m * x.STEP < 2 ^ 63 * 2 ^ 64 := Nat.mul_lt_mul_of_lt_of_le (by omega) (by omega) (by norm_num)
  obtain ⟨hd1, hd2⟩ := hdig a m hb
  refine ⟨a, m, i + m * x.STEP, _, ⟨⟨s₂, hen, hb⟩, ?_, rfl, ?_⟩, h1, h2, by omega, ?_, by omega, ?_, ?_⟩
  · have := (hc 0 (Nat.zero_le _)).1
    simpa using this
  · rw [List.length_map, List.length_range]
    exact count_eq hi hiz
  · have := (hc (r - a) (by omega)).1
    rw [show a + (r - a) = r by omega] at this
    rw [this, show i + m * x.STEP - (r - a) * x.STEP = i + (m - (r - a)) * x.STEP from ?_]
    have e := Nat.sub_mul m (r - a) x.STEP
    have : (r - a) * x.STEP ≤ m * x.STEP := Nat.mul_le_mul_right _ (by omega)
    omega
  · intro har
    have := hb.cont (r - a) (by omega) (by omega)
    rwa [show a + (r - a) = r by omega] at this
  · have := hd2 ((i + m * x.STEP) * Base.domainSpec x.legacy) (by
      have := (hc 0 (Nat.zero_le _)).1
      simpa using this) hdom (by omega) (r - a) (by omega)
    rw [show a + (r - a) = r by omega] at this
    have hne' : ((List.range (m + 1)).map fun j => (x.col g 1 (a + j), x.col g 2 (a + j))).flatMap
        (fun w => [w.1, w.2]) = wordsOf x g a m := by
      rw [wordsOf, List.flatMap_map]
    have hnil : wordsOf x g a m ≠ [] := by
      rw [wordsOf, List.range_succ_eq_map, List.flatMap_cons]; simp
    have hlen : (wordsOf x g a m).length < 2 ^ 64 := by
      rw [wordsOf, List.length_flatMap]
      simp
      omega
    rw [hne', ← this, (C04_C05_bn254 short' x.legacy).2 _ _ hnil hlen,
      (C04_C05_bn254 short x.legacy).2 _ _ hnil hlen]

/-- **C94.** In an accepted table where rows with a control have no domain, a message whose rows are all found (one by
one, with one digest) has that digest, or the table holds two different messages with that digest: a collision of
`hash_msg`, written out. -/
theorem C94_message {x : Run Fr} {k : ChipKind} {short : Bool} {L' : Layouter Fr} {post : List (Op Fr)}
    {g : Grid Fr} (short' : Bool) (h : x.Accepted k short L' post g) (hstep : x.step = x.STEP) (hpos : 0 < x.STEP)
    (hcalcs : x.calcs < 2 ^ 63) (hbare : Bare x g) {c : ℕ} (hc0 : 0 < c) (hc : c < 2 ^ 64) (ws : List (Fr × Fr))
    (hcount : ws.length = (c + x.STEP - 1) / x.STEP) (D : Fr)
    (hans : ∀ t ∈ messageRows (Base.domainSpec x.legacy) x.STEP D true c ws, Answers x g t) :
    hashMsgFr short' x.legacy (ws.flatMap fun w => [w.1, w.2]) (some (c * Base.domainSpec x.legacy)) = .ok D ∨
    ∃ a₁ m₁ c₁ ws₁ a₂ m₂ c₂ ws₂, IsMessage x g a₁ m₁ c₁ ws₁ ∧ IsMessage x g a₂ m₂ c₂ ws₂ ∧
      (c₁, ws₁) ≠ (c₂, ws₂) ∧
      hashMsgFr short' x.legacy (ws₁.flatMap fun w => [w.1, w.2]) (some (c₁ * Base.domainSpec x.legacy)) = .ok D ∧
      hashMsgFr short' x.legacy (ws₂.flatMap fun w => [w.1, w.2]) (some (c₂ * Base.domainSpec x.legacy)) = .ok D := by
  have hsp : 0 < Base.domainSpec x.legacy ∧ Base.domainSpec x.legacy ≤ 2 ^ 64 := by
    unfold Base.domainSpec; split <;> omega
  have hS := h.legal.STEP_lt
  have hinj : ∀ n n' : ℕ, n < 2 ^ 129 → n' < 2 ^ 129 → ((n * Base.domainSpec x.legacy : ℕ) : Fr) =
      ((n' * Base.domainSpec x.legacy : ℕ) : Fr) → n = n' := by
    intro n n' hn hn' e
    have hb : ∀ n : ℕ, n < 2 ^ 129 → n * Base.domainSpec x.legacy < 2 ^ 200 := by
      intro n hn
      have : n * Base.domainSpec x.legacy ≤ 2 ^ 129 * 2 ^ 64 := Nat.mul_le_mul (by omega) hsp.2
      omega
    exact Nat.eq_of_mul_eq_mul_right hsp.1 (cast_inj fr_big (hb n hn) (hb n' hn') e)
  have hceil : ws.length * x.STEP ≤ c + x.STEP - 1 := by
    rw [hcount]; exact Nat.div_mul_le_self _ _
  have hlen : 0 < ws.length := by
    rw [hcount]; exact Nat.div_pos (by omega) hpos
  -- every row of the message lies in a message of the table with the digest
  have key : ∀ i (hi : i < ws.length), ∃ a m c' ws', IsMessage x g a m c' ws' ∧ m * x.STEP < c' ∧ c' < 2 ^ 129 ∧
      hashMsgFr short' x.legacy (ws'.flatMap fun w => [w.1, w.2]) (some (c' * Base.domainSpec x.legacy)) = .ok D ∧
      ∃ j ≤ m, c' - j * x.STEP = c - i * x.STEP ∧ x.col g 1 (a + j) = ws[i].1 ∧ x.col g 2 (a + j) = ws[i].2 ∧
        (i = 0 → j = 0) := by
    intro i hi
    obtain ⟨r, hr, he, hcol⟩ := hans _ (mem_messageRows_get ws true c i hi)
    have hic : i * x.STEP < c := by
      have : (i + 1) * x.STEP ≤ ws.length * x.STEP := Nat.mul_le_mul_right _ hi
      rw [Nat.add_mul] at this
      omega
    have e3 : x.col g 3 r = (((c - i * x.STEP) * Base.domainSpec x.legacy : ℕ) : Fr) := hcol 3
    have h3 : x.col g 3 r ≠ 0 := by
      rw [e3]
      intro hz
      have := hinj (c - i * x.STEP) 0 (by omega) (by norm_num) (by rw [hz]; simp)
      omega
    obtain ⟨a, m, c', ws', hm, h1, h2, h4, h5, h6, h7, h8⟩ :=
      message_of_row short' h hstep hpos hcalcs hbare hr he h3
    have e0 : x.col g 0 r = D := hcol 0
    rw [e0] at h8
    refine ⟨a, m, c', ws', hm, h6, h4, h8, r - a, by omega, ?_, ?_, ?_, fun i0 => ?_⟩
    · exact hinj _ _ (by omega) (by omega) (by rw [← h5, e3])
    · rw [show a + (r - a) = r by omega]; exact hcol 1
    · rw [show a + (r - a) = r by omega]; exact hcol 2
    · by_contra hj
      have e5 : x.col g 5 r = if i = 0 ∧ true = true then 1 else 0 := hcol 5
      rw [h7 (by omega), if_pos ⟨i0, rfl⟩] at e5
      exact zero_ne_one e5
  obtain ⟨a, m, c₀, ws₀, hm, hmc, hc₀, hh, j, hj, ej, -, -, hj0⟩ := key 0 hlen
  obtain rfl := hj0 rfl
  simp only [Nat.zero_mul, Nat.sub_zero] at ej
  subst ej
  by_cases hex : ∀ a' m' c' ws', IsMessage x g a' m' c' ws' →
      hashMsgFr short' x.legacy (ws'.flatMap fun w => [w.1, w.2]) (some (c' * Base.domainSpec x.legacy)) = .ok D →
      (c₀, ws₀) = (c', ws')
  swap
  · push Not at hex
    obtain ⟨a', m', c', ws', h1, h2, h3⟩ := hex
    exact Or.inr ⟨a, m, c₀, ws₀, a', m', c', ws', hm, h1, h3, hh, h2⟩
  left
  have hl : ws₀.length = ws.length := by rw [hm.count, hcount]
  have : ws₀ = ws := by
    refine List.ext_getElem hl fun i h1 h2 => ?_
    obtain ⟨a', m', c', ws', hm', hmc', hc', hh', j, hj, ej, e1, e2, -⟩ := key i h2
    obtain ⟨rfl, rfl⟩ := Prod.mk.inj (hex a' m' c' ws' hm' hh')
    have hjS : j * x.STEP ≤ m' * x.STEP := Nat.mul_le_mul_right _ hj
    have hiS : i * x.STEP < c₀ := by
      have : (i + 1) * x.STEP ≤ ws.length * x.STEP := Nat.mul_le_mul_right _ h2
      rw [Nat.add_mul] at this
      omega
    have hij : j = i := Nat.eq_of_mul_eq_mul_right hpos (by omega)
    subst hij
    simp only [hm'.rows, List.getElem_map, List.getElem_range, e1, e2]
  rw [← this]
  exact hh

/-! ### Tables for given messages -/

private theorem bare_of_rows {x : Run Fr} {g : Grid Fr} {s : ℕ} (hu : g.usable ≤ g.n) (hen : x.EnabledAfter g s)
    {T : List (Fin 6 → Fr)} (hl : x.calcs = T.length) (hcol : ∀ j (hj : j < T.length) i, x.col g i (s + j + 1) = T[j] i)
    (hT : ∀ t ∈ T, t 3 ≠ 0 → t 4 = 0) : Bare x g := by
  intro r hr he h3
  have hrow : s < r ∧ r ≤ s + x.calcs := by
    have := hen.2 r (by omega)
    rw [he] at this
    by_contra hn
    rw [if_neg hn] at this
    exact one_ne_zero this
  obtain ⟨j, rfl⟩ : ∃ j, r = s + j + 1 := ⟨r - s - 1, by omega⟩
  have hj : j < T.length := by omega
  rw [hcol j hj] at h3 ⊢
  exact hT _ (List.getElem_mem hj) h3

/-- The digest of a message, as rows. -/
private theorem rows_digest (short' legacy : Bool) {c : ℕ} {ws : List (Fr × Fr)} (hne : ws ≠ [])
    (hlen : 2 * ws.length < 2 ^ 64) {D : Fr}
    (h : hashMsgFr short' legacy (ws.flatMap fun w => [w.1, w.2]) (some (c * Base.domainSpec legacy)) = .ok D) :
    D = Spec.rowsDigest (Spec.onTriples permBn) ((c * Base.domainSpec legacy : ℕ) : Fr)
      (ws.map fun w => (0, w.1, w.2)) := by
  have key : ∀ (ws : List (Fr × Fr)) (st : Fr × Fr × Fr),
      Spec.absorbPairs (Spec.onTriples permBn) st (ws.flatMap fun w => [w.1, w.2]) =
        Spec.absorbRows (Spec.onTriples permBn) st (ws.map fun w => (0, w.1, w.2)) := by
    intro ws
    induction ws with
    | nil => rintro ⟨p, q, r⟩; simp [Spec.absorbPairs, Spec.absorbRows]
    | cons w ws ih =>
      rintro ⟨p, q, r⟩
      simp only [List.flatMap_cons, List.map_cons, List.cons_append, List.nil_append, Spec.absorbPairs,
        Spec.absorbRows, add_zero]
      exact ih _
  have hl : (ws.flatMap fun w => [w.1, w.2]).length < 2 ^ 64 := by
    rw [List.length_flatMap]; simp; omega
  have hn : (ws.flatMap fun w => [w.1, w.2]) ≠ [] := by
    rcases ws with _ | ⟨w, ws⟩
    · exact absurd rfl hne
    · simp
  rw [(C04_C05_bn254 short' legacy).2 _ _ hn hl] at h
  have := Except.ok.inj h
  rw [← this, Spec.rowsDigest, Spec.spongeHash, ← key]
  rfl

private theorem messageRows_cont {SPEC K i : ℕ} {D : Fr} (ws : List (Fr × Fr)) :
    messageRows SPEC K D false (i + (ws.length - 1) * K) ws =
      contTable SPEC K i D (ws.map fun w => (0, w.1, w.2)) := by
  induction ws with
  | nil => rfl
  | cons w ws ih =>
    obtain ⟨a, b⟩ := w
    rw [messageRows, List.map_cons, contTable, ← ih, List.length_map]
    congr 1
    rcases ws with _ | ⟨w, ws⟩
    · rfl
    · congr 1
      simp only [List.length_cons, Nat.add_sub_cancel, Nat.add_mul]
      omega

private theorem messageRows_block {SPEC K i : ℕ} {D a b : Fr} (ws : List (Fr × Fr)) :
    messageRows SPEC K D true (i + ws.length * K) ((a, b) :: ws) =
      blockTable SPEC K i D 0 a b (ws.map fun w => (0, w.1, w.2)) := by
  rw [messageRows, blockTable, ← messageRows_cont, List.length_map]
  congr 1
  rcases ws with _ | ⟨w, ws⟩
  · rfl
  · congr 1
    simp only [List.length_cons, Nat.add_sub_cancel, Nat.add_mul]
    omega

private theorem messageRows_dom {SPEC K : ℕ} {D : Fr} (ws : List (Fr × Fr)) : ∀ (f : Bool) (c : ℕ),
    (messageRows SPEC K D f c ws).length = ws.length ∧ ∀ t ∈ messageRows SPEC K D f c ws, t 4 = 0 := by
  induction ws with
  | nil => intro f c; simp [messageRows]
  | cons w ws ih =>
    obtain ⟨a, b⟩ := w
    intro f c
    refine ⟨by rw [messageRows, List.length_cons, (ih _ _).1, List.length_cons], fun t ht => ?_⟩
    rcases List.mem_cons.mp ht with rfl | ht
    · rfl
    · exact (ih _ _).2 t ht

/-- The rows of messages with their digests, before a valid table, are a valid table. -/
theorem valid_messages {short' legacy : Bool} {K : ℕ} (hK : 0 < K) {T : List (Fin 6 → Fr)}
    (hT : ValidTable K K (Base.domainSpec legacy) T) (msgs : List (ℕ × List (Fr × Fr) × Fr))
    (hmsgs : ∀ m ∈ msgs, 0 < m.1 ∧ m.2.1.length = (m.1 + K - 1) / K ∧ 2 * m.2.1.length < 2 ^ 64 ∧
      hashMsgFr short' legacy (m.2.1.flatMap fun w => [w.1, w.2]) (some (m.1 * Base.domainSpec legacy)) = .ok m.2.2) :
    ValidTable K K (Base.domainSpec legacy)
      ((msgs.flatMap fun m => messageRows (Base.domainSpec legacy) K m.2.2 true m.1 m.2.1) ++ T) := by
  induction msgs with
  | nil => exact hT
  | cons m msgs ih =>
    obtain ⟨c, ws, D⟩ := m
    have h1 := ih (fun m hm => hmsgs m (List.mem_cons_of_mem _ hm))
    obtain ⟨hc0, hcount, hlen, hD⟩ := hmsgs _ List.mem_cons_self
    simp only at hc0 hcount hD hlen
    rw [List.flatMap_cons, List.append_assoc]
    generalize (msgs.flatMap fun m => messageRows (Base.domainSpec legacy) K m.2.2 true m.1 m.2.1) ++ T = T at *
    have hw : 0 < ws.length := by rw [hcount]; exact Nat.div_pos (by omega) hK
    have hDr := rows_digest short' legacy (List.length_pos_iff.mp hw) hlen hD
    rcases ws with _ | ⟨⟨a, b⟩, ws⟩
    · simp at hw
    rw [List.length_cons] at hcount hw
    obtain ⟨i, hi, hi0, hci⟩ := rows_last (m := ws.length) (c := c) hK (by omega)
    simp only
    rw [hci, messageRows_block]
    have := ValidTable.block (SPEC := Base.domainSpec legacy) (step := K) i 0 a b
      (ws.map fun w => (0, w.1, w.2)) T hi (fun h => hi0 (by
        rcases ws with _ | ⟨w, ws⟩
        · exact absurd rfl h
        · simp)) h1
    rw [List.length_map, ← hci] at this
    rw [hDr, List.map_cons]
    exact this

theorem messages_bare {SPEC K : ℕ} (msgs : List (ℕ × List (Fr × Fr) × Fr)) :
    (∀ t ∈ msgs.flatMap fun m => messageRows SPEC K m.2.2 true m.1 m.2.1, t 4 = 0) ∧
    (msgs.flatMap fun m => messageRows SPEC K m.2.2 true m.1 m.2.1).length =
      (msgs.map fun m => m.2.1.length).sum := by
  refine ⟨fun t ht => ?_, ?_⟩
  · obtain ⟨m, -, ht⟩ := List.mem_flatMap.mp ht
    exact (messageRows_dom _ _ _).2 t ht
  · rw [List.length_flatMap]
    congr 1
    exact List.map_congr_left fun m _ => (messageRows_dom _ _ _).1

/-- **C94**, the other direction: for every list of messages (number of bytes, words, digest) with their digests there is
an accepted table without a domain on rows with a control that answers every row of every message. -/
theorem C94_complete (k : ChipKind) (short short' legacy : Bool) (mode : LoadMode) {K : ℕ} (hK : 0 < K)
    (hK' : K < 2 ^ 64) (msgs : List (ℕ × List (Fr × Fr) × Fr))
    (hmsgs : ∀ m ∈ msgs, 0 < m.1 ∧ m.2.1.length = (m.1 + K - 1) / K ∧
      hashMsgFr short' legacy (m.2.1.flatMap fun w => [w.1, w.2]) (some (m.1 * Base.domainSpec legacy)) = .ok m.2.2)
    (hlen : (msgs.map fun m => m.2.1.length).sum < 2 ^ 63 - 1) :
    ∃ (x : Run Fr) (L : Layouter Fr) (post : List (Op Fr)) (g : Grid Fr), x.Accepted k short L post g ∧
      x.legacy = legacy ∧ x.mode = mode ∧ x.STEP = K ∧ x.step = K ∧ x.calcs < 2 ^ 63 ∧ Bare x g ∧
      ∀ m ∈ msgs, ∀ t ∈ messageRows (Base.domainSpec legacy) K m.2.2 true m.1 m.2.1, Answers x g t := by
  obtain ⟨hdom, hl⟩ := messages_bare (SPEC := Base.domainSpec legacy) (K := K) msgs
  have hsum : ∀ m ∈ msgs, m.2.1.length ≤ (msgs.map fun m => m.2.1.length).sum := fun m hm =>
    List.single_le_sum (by simp) _ (List.mem_map.mpr ⟨m, hm, rfl⟩)
  obtain ⟨T, hT⟩ : ∃ T, T = (msgs.flatMap fun m => messageRows (Base.domainSpec legacy) K m.2.2 true m.1 m.2.1) ++
    [![0, 0, 0, 0, 0, 1]] := ⟨_, rfl⟩
  have h1 : ValidTable K K (Base.domainSpec legacy) T := hT ▸ valid_messages hK (ValidTable.last 0 0) msgs
    fun m hm => ⟨(hmsgs m hm).1, (hmsgs m hm).2.1, by have := hsum m hm; omega, (hmsgs m hm).2.2⟩
  have h2 : T.length = (msgs.map fun m => m.2.1.length).sum + 1 := by rw [hT, List.length_append, hl]; rfl
  have h3 : ∀ t ∈ T, t 3 ≠ 0 → t 4 = 0 := by
    intro t ht _
    rw [hT] at ht
    rcases List.mem_append.mp ht with ht | ht
    · exact hdom t ht
    · rw [List.mem_singleton.mp ht]; rfl
  have h4 : ∀ m ∈ msgs, ∀ t ∈ messageRows (Base.domainSpec legacy) K m.2.2 true m.1 m.2.1, t ∈ T := by
    intro m hm t ht
    rw [hT]
    exact List.mem_append_left _ (List.mem_flatMap.mpr ⟨m, hm, ht⟩)
  obtain ⟨x, L, post, g, s, h, e1, e2, e3, e4, hen, hc, hcol⟩ :=
    (C60_exists k short legacy mode hK' hK' T (by omega) h1.ne_nil).mpr h1
  refine ⟨x, L, post, g, h, e1, e2, e3, e4, by omega, bare_of_rows h.laid.usable_le hen hc hcol h3,
    fun m hm t ht => ?_⟩
  obtain ⟨j, hj, rfl⟩ := List.mem_iff_getElem.mp (h4 m hm t ht)
  have := hen.1
  have := h.laid.usable_le
  refine ⟨s + j + 1, by omega, ?_, hcol j hj⟩
  rw [hen.2 _ (by omega), if_pos (by omega)]

-- a message of 100 bytes in two rows, and its table
example (k : ChipKind) (short short' legacy : Bool) (mode : LoadMode) :
    ∃ (x : Run Fr) (L : Layouter Fr) (post : List (Op Fr)) (g : Grid Fr) (D : Fr), x.Accepted k short L post g ∧
      x.legacy = legacy ∧ x.STEP = 62 ∧ x.step = 62 ∧ x.calcs < 2 ^ 63 ∧ Bare x g ∧
      hashMsgFr short' legacy [1, 2, 3, 4] (some (100 * Base.domainSpec legacy)) = .ok D ∧
      ∀ t ∈ messageRows (Base.domainSpec legacy) 62 D true 100 [(1, 2), (3, 4)], Answers x g t := by
  obtain ⟨D, hD⟩ : ∃ D, hashMsgFr short' legacy [1, 2, 3, 4] (some (100 * Base.domainSpec legacy)) = .ok D :=
    ⟨_, (C04_C05_bn254 short' legacy).2 _ _ (by simp) (by simp)⟩
  obtain ⟨x, L, post, g, h, e1, -, e3, e4, h5, h6, h7⟩ := C94_complete k short short' legacy mode (K := 62)
    (by norm_num) (by norm_num) [(100, [(1, 2), (3, 4)], D)] (by
      intro m hm
      obtain rfl := List.mem_singleton.mp hm
      exact ⟨by norm_num, by norm_num, hD⟩) (by simp)
  exact ⟨x, L, post, g, D, h, e1, e3, e4, h5, h6, hD, h7 _ List.mem_cons_self⟩

end Props
