import Verif.Props.ArgumentHost
import Verif.Props.TableMessage
import Verif.Circuit.TableReserve

/-!
# Circuits that look up messages row by row

`/repo/spec/hash-table.md` names the codehash circuit as a user of the table. No such circuit is in the repository; this
is a model of one that looks up the rows of messages and has the gate that C66 shows to be needed.
-/

set_option linter.unusedVariables false

namespace Halo2
variable {F : Type} [Field F]

theorem eval_rows {g g' : Grid F} (hn : g.n = g'.n) (h0 : 0 < g.n) (hA : ∀ c, ∀ r < g.n, g.advice c r = g'.advice c r)
    (hB : g.fixed = g'.fixed) (hS : g.selector = g'.selector) (e : Expr F) (r : ℕ) : e.eval g r = e.eval g' r := by
  have hrot : ∀ k, g.rot r k = g'.rot r k := fun k => by rw [Grid.rot, Grid.rot, hn]
  induction e with
  | const c => rfl
  | selector i => simp only [Expr.eval, hS]
  | fixed i k => simp only [Expr.eval, hB, hrot]
  | advice i k => rw [Expr.eval_advice, Expr.eval_advice, hA i _ (g.rot_lt r k h0), hrot]
  | neg e ih => simp only [Expr.eval, ih]
  | add a b ih1 ih2 => simp only [Expr.eval, ih1, ih2]
  | mul a b ih1 ih2 => simp only [Expr.eval, ih1, ih2]
  | scaled a c ih => simp only [Expr.eval, ih]

end Halo2

namespace Props
open Halo2 Circuit Circuit.Table Base.Bn256 Polynomial

/-- C89 for an assignment given row by row. -/
theorem C89_grid {F : Type} [Field F] [Fintype F] {cs : CS F} {ws : List (Wide F)} {ops : List (Op F)} {n : ℕ} {ω δ : F}
    {K : Key F} (hK : keygenWith cs ws ops n ω δ = .ok K) (hω : IsPrimitiveRoot ω n) {g : Grid F} (hn : g.n = n)
    (hu : g.usable = K.usable) (hf : g.fixed = K.fixed) (hsel : g.selector = K.selector) (hcs : cs.Holds g)
    (hws : ∀ w ∈ ws, w.Holds g) (hcop : CopiesHold g ops) :
    ∃ P : Prover F, P.Short n ∧ (∀ c, ∀ r < n, (P.advice c).eval (ω ^ r) = g.advice c r) ∧
      Fintype.card F ^ 5 ≤ Nat.card {c // P.Convinces K c} + K.loss * Fintype.card F ^ 4 := by
  obtain ⟨adv, hadv⟩ : ∃ adv : ℕ → F[X], adv = fun c => interp n ω (g.advice c) := ⟨_, rfl⟩
  obtain ⟨hmin, -, A, hA, eK⟩ := keygen_ok hK
  have hKn : K.n = n ∧ K.ω = ω := by rw [eK]; exact ⟨rfl, rfl⟩
  have hcell : ∀ c, ∀ r < n, (K.grid adv).advice c r = g.advice c r := by
    intro c r hr
    change (adv c).eval (K.ω ^ r) = _
    rw [hKn.2, hadv]
    exact interp_eval hω _ hr
  have hev : ∀ (e : Expr F) r, e.eval (K.grid adv) r = e.eval g r := fun e r =>
    eval_rows (hKn.1.trans hn.symm) (show 0 < K.n by omega) (fun c r hr => hcell c r (by rw [← hKn.1]; exact hr)) hf.symm
      hsel.symm e r
  have h1 : ∀ p ∈ cs.gates, p.Holds (K.grid adv) := by
    intro p hp e he r hr
    rw [hev]
    exact hcs.1 p hp e he r (by rw [hn, ← hKn.1]; exact hr)
  have h2 : ∀ l ∈ cs.lookups, l.Holds (K.grid adv) := by
    intro l hl r hr
    obtain ⟨r', h1, h2⟩ := hcs.2 l hl r (by rw [hu]; exact hr)
    refine ⟨r', by rw [hu] at h1; exact h1, ?_⟩
    rw [hev, h2, hf]
    rfl
  have h3 : ∀ w ∈ ws, w.Holds (K.grid adv) := by
    intro w hw r hr
    obtain ⟨r', h1, h2⟩ := hws w hw r (by rw [hu]; exact hr)
    refine ⟨r', by rw [hu] at h1; exact h1, fun p hp => ?_⟩
    rw [hev, hev]
    exact h2 p hp
  have h4 : CopiesHold (K.grid adv) ops := by
    intro a b hab
    obtain ⟨⟨x, hx⟩, y, hy⟩ := (assemble_inv (Assembly.inv_new) hA).2 a b hab
    have hrow : ∀ (c : Cell) x, cellIndex (permCols cs.equality) n (n - (cs.blindingWith ws + 1)) c = .ok x →
        (K.grid adv).cell c = g.cell c := by
      intro c x hx
      have hr : c.row < n := by
        unfold cellIndex at hx
        split_ifs at hx with h
        exact h.2
      unfold Grid.cell
      cases c.col with
      | advice i => exact hcell i _ hr
      | fixed i => simp only [hf]; rfl
    rw [hrow a x hx, hrow b y hy]
    exact hcop a b hab
  obtain ⟨P, p1, p2, p3⟩ := C89_complete hK hω (advice := adv) (fun c => by rw [hadv]; exact interp_degree hω _) ⟨h1, h2⟩
    h3 h4
  refine ⟨P, p1, fun c r hr => ?_, p3⟩
  rw [p2, hadv]
  exact interp_eval hω _ hr

/-! ### The gate -/

/-- The additional gate: no domain on rows with a control. -/
def bareGate (qEnable : ℕ) (ht : Fin 6 → ℕ) : Gate Fr :=
  ⟨"no domain on rows with a control", [.mul (.fixed qEnable 0) (.mul (.advice (ht 3) 0) (.advice (ht 4) 0))]⟩

theorem bareGate_holds {x : Run Fr} {g : Grid Fr} (hu : g.usable ≤ g.n) {s : ℕ} (hen : x.EnabledAfter g s) :
    (bareGate x.qEnable x.hashTable).Holds g ↔ Bare x g := by
  have hev : ∀ r < g.n, (Expr.mul (.fixed x.qEnable 0) (.mul (.advice (x.hashTable 3) 0) (.advice (x.hashTable 4) 0)) :
      Expr Fr).eval g r = g.fixed x.qEnable r * (x.col g 3 r * x.col g 4 r) := by
    intro r hr
    simp only [Expr.eval, g.rot_zero hr, Run.col]
  constructor
  · intro h r hr he h3
    have := h _ (List.mem_singleton.mpr rfl) r (by omega)
    rw [hev r (by omega), he, one_mul] at this
    exact (mul_eq_zero.mp this).resolve_left h3
  · intro h e he r hr
    obtain rfl := List.mem_singleton.mp he
    rw [hev r hr]
    by_cases h1 : s < r ∧ r ≤ s + x.calcs
    · by_cases h3 : x.col g 3 r = 0
      · rw [h3, zero_mul, mul_zero]
      · rw [h r (by have := hen.1; omega) (by rw [hen.2 r hr, if_pos h1]) h3, mul_zero, mul_zero]
    · rw [hen.2 r hr, if_neg h1, zero_mul]

/-- **C94**, against a prover with polynomials: a circuit with the gate that looks up all rows of a message has its
digest, or the prover has committed to a table with a collision of `hash_msg`. -/
theorem C94_circuit {x : Run Fr} {k : ChipKind} {short : Bool} (short' : Bool) (hbn : x.IsBn k short) (hx : x.Legal)
    (hstep : x.step = x.STEP) (hpos : 0 < x.STEP) (hcalcs : x.calcs < 2 ^ 63) {L' : Layouter Fr} (hL : x.Loads L')
    {post : List (Op Fr)} {cs : CS Fr} {ws : List (Wide Fr)} (hgates : ∀ p ∈ x.newGates, p ∈ cs.gates)
    (hlookups : ∀ l ∈ x.newLookups, l ∈ cs.lookups) (hbare : bareGate x.qEnable x.hashTable ∈ cs.gates)
    (quietFixed : ∀ o ∈ x.before.ops ++ post, ∀ c r v, o.FixedWrite c r v → ¬ x.FixedCol c)
    (quietSel : ∀ c r, Op.selector c r ∈ x.before.ops ++ post → ¬ x.Sel c) {n : ℕ} {ω δ : Fr} {K : Key Fr}
    (hK : keygenWith cs ws (L'.ops ++ post) n ω δ = .ok K) (hω : IsPrimitiveRoot ω n) (hδ : DistinctNames cs n ω δ)
    {P : Prover Fr} (hP : P.Short n) (hlt : K.slack * Base.Bn256.r ^ 4 < Nat.card {c // P.Convinces K c})
    {q : Expr Fr} {es : Fin 6 → Expr Fr} (hw : tableLookup x.qEnable x.hashTable q es ∈ ws) {g : Grid Fr}
    (hg : g = K.grid P.advice) {c : ℕ} (hc0 : 0 < c) (hc : c < 2 ^ 64) (msg : List (Fr × Fr))
    (hcount : msg.length = (c + x.STEP - 1) / x.STEP) (D : Fr)
    (hrows : ∀ t ∈ messageRows (Base.domainSpec x.legacy) x.STEP D true c msg,
      ∃ row < K.usable, q.eval g row = 1 ∧ ∀ i, (es i).eval g row = t i) :
    hashMsgFr short' x.legacy (msg.flatMap fun w => [w.1, w.2]) (some (c * Base.domainSpec x.legacy)) = .ok D ∨
    ∃ a₁ m₁ c₁ ws₁ a₂ m₂ c₂ ws₂, IsMessage x g a₁ m₁ c₁ ws₁ ∧ IsMessage x g a₂ m₂ c₂ ws₂ ∧
      (c₁, ws₁) ≠ (c₂, ws₂) ∧
      hashMsgFr short' x.legacy (ws₁.flatMap fun w => [w.1, w.2]) (some (c₁ * Base.domainSpec x.legacy)) = .ok D ∧
      hashMsgFr short' x.legacy (ws₂.flatMap fun w => [w.1, w.2]) (some (c₂ * Base.domainSpec x.legacy)) = .ok D := by
  subst hg
  obtain ⟨hacc, hans⟩ := C92_answers hbn hx hL hgates hlookups quietFixed quietSel hK hω hδ hP hlt hw
  have hgate : (bareGate x.qEnable x.hashTable).Holds (K.grid P.advice) := by
    rcases C86_sound hK hω hδ hP with ⟨h, -⟩ | h
    · exact h.1 _ hbare
    · exact absurd (h.trans_eq (congrArg (fun q => K.slack * q ^ 4) (ZMod.card Base.Bn256.r))) (not_le.mpr hlt)
  obtain ⟨s, hen, -⟩ := C28_controls hacc
  refine C94_message short' hacc hstep hpos hcalcs ((bareGate_holds hacc.laid.usable_le hen).mp hgate) hc0 hc msg hcount D
    fun t ht => ?_
  obtain ⟨row, h1, h2, h3⟩ := hrows t ht
  have := hans row h1 h2
  rwa [show (fun i => (es i).eval (K.grid P.advice) row) = t from funext h3] at this

/-! ### A circuit with a table and messages -/

/-- A circuit with the hash table, the gate, and five more advice columns for the rows of messages: digest, two words,
control, head flag; fixed column 1 tells where there is one. -/
def codeRun (ch : Chip Fr 3) (short legacy : Bool) (mode : LoadMode) (STEP : ℕ) (t : HashTable Fr) (calcs : ℕ) :
    Run Fr :=
  { testRun ch short legacy mode STEP t calcs with cs := ⟨11, 2, 0, [bareGate 0 fun i => i], [], []⟩ }

/-- The lookup of the rows. -/
def codeLookup : Wide Fr :=
  tableLookup 0 (fun i => i) (.fixed 1 0) ![.mul (.fixed 1 0) (.advice 6 0), .mul (.fixed 1 0) (.advice 7 0),
    .mul (.fixed 1 0) (.advice 8 0), .mul (.fixed 1 0) (.advice 9 0), .const 0, .mul (.fixed 1 0) (.advice 10 0)]

/-- The rows of messages: number of bytes, words, digest. -/
def codeRows (legacy : Bool) (STEP : ℕ) (msgs : List (ℕ × List (Fr × Fr) × Fr)) : List (Fin 6 → Fr) :=
  msgs.flatMap fun m => messageRows (Base.domainSpec legacy) STEP m.2.2 true m.1 m.2.1

/-- A row without its domain. -/
def codeReq (t : Fin 6 → Fr) : Fin 5 → Fr := ![t 0, t 1, t 2, t 3, t 5]

theorem codeLookup_rots (c : ℕ) : wideRots [codeLookup] c ⊆ {0} ∧ (11 ≤ c → wideRots [codeLookup] c = ∅) := by
  have key : ∀ k, k ∈ wideRots [codeLookup] c → k = 0 ∧ c < 11 := by
    intro k hk
    simp only [wideRots, codeLookup, tableLookup, List.flatMap_cons, List.flatMap_nil, List.append_nil,
      List.mem_toFinset, List.mem_filterMap, List.mem_append, List.mem_flatMap, List.mem_ofFn, Prod.exists] at hk
    obtain ⟨col, k', h, hk⟩ := hk
    split_ifs at hk with hc
    simp only [Option.some.injEq] at hk
    subst hk
    subst hc
    rcases h with h | ⟨a, b, ⟨i, hi⟩, h⟩
    · simp [Expr.queries] at h
    · obtain ⟨rfl, rfl⟩ := Prod.mk.inj hi
      fin_cases i <;> simp [Expr.queries] at h <;> omega
  refine ⟨fun k hk => by simp [(key k hk).1], fun hc => ?_⟩
  refine Finset.eq_empty_of_forall_notMem fun k hk => ?_
  have := (key k hk).2
  omega

theorem codeLookup_degree : codeLookup.degree ≤ 6 := by
  simp [codeLookup, tableLookup, Wide.degree, List.ofFn_succ, Expr.degree]

theorem bareGate_rots (c : ℕ) : (⟨11, 2, 0, [bareGate 0 fun i => i], [], []⟩ : CS Fr).rots c ⊆ {0} ∧
    (11 ≤ c → (⟨11, 2, 0, [bareGate 0 fun i => i], [], []⟩ : CS Fr).rots c = ∅) := by
  have key : ∀ k, k ∈ (⟨11, 2, 0, [bareGate 0 fun i => i], [], []⟩ : CS Fr).rots c → k = 0 ∧ c < 11 := by
    intro k hk
    simp only [CS.rots, CS.exprs, bareGate, List.flatMap_cons, List.flatMap_nil, List.append_nil, List.map_nil,
      List.not_mem_nil, if_false, Finset.union_empty, List.mem_toFinset, List.mem_filterMap, Prod.exists,
      Expr.queries, List.nil_append, List.cons_append, List.mem_cons, or_false] at hk
    obtain ⟨col, k', h, hk⟩ := hk
    split_ifs at hk with hc
    simp only [Option.some.injEq] at hk
    subst hk
    subst hc
    simp at h
    omega
  refine ⟨fun k hk => by simp [(key k hk).1], fun hc => ?_⟩
  refine Finset.eq_empty_of_forall_notMem fun k hk => ?_
  have := (key k hk).2
  omega

theorem code_blinding {x : Run Fr} {k : ChipKind} {short : Bool} (hbn : x.IsBn k short) (hx : x.Legal)
    (e0 : x.cs = ⟨11, 2, 0, [bareGate 0 fun i => i], [], []⟩) : x.configured.2.blindingWith [codeLookup] = 5 := by
  obtain ⟨h1, h2⟩ := C76_rotations hbn hx (fun c hc => by rw [e0] at hc ⊢; exact (bareGate_rots c).2 hc)
  unfold CS.blindingWith
  have : ((Finset.range x.configured.2.numAdvice).sup fun c =>
      (x.configured.2.rots c ∪ wideRots [codeLookup] c).card) ≤ 3 := by
    refine Finset.sup_le fun c hc => ?_
    rw [Finset.mem_range] at hc
    have e11 : x.cs.numAdvice = 11 := by rw [e0]
    by_cases hc' : c < 11
    · rw [h1 c (by omega), hostQueries]
      have hsub : x.cs.rots c ∪ ((Finset.univ.filter fun i => x.hashTable i = c).biUnion tableRots) ∪
          wideRots [codeLookup] c ⊆ ({-1, 0} : Finset ℤ) := by
        refine Finset.union_subset (Finset.union_subset ?_ (Finset.biUnion_subset.mpr fun i _ => ?_))
          ((codeLookup_rots c).1.trans (by simp))
        · rw [e0]; exact (bareGate_rots c).1.trans (by simp)
        · fin_cases i <;> simp [tableRots]
      exact (Finset.card_le_card hsub).trans (by decide)
    · rw [(codeLookup_rots c).2 (by omega), Finset.union_empty]
      exact h2 c (by omega) hc
  omega

/-- What the rows look up. -/
theorem codeLookup_holds {g : Grid Fr} (hu : g.usable ≤ g.n) {m : ℕ}
    (hflag : ∀ row, g.fixed 1 row = if row < m then 1 else 0) : codeLookup.Holds g ↔ ∀ row < g.usable, ∃ r < g.usable,
      if row < m then g.fixed 0 r = 1 ∧ g.advice 0 r = g.advice 6 row ∧ g.advice 1 r = g.advice 7 row ∧
        g.advice 2 r = g.advice 8 row ∧ g.advice 3 r = g.advice 9 row ∧ g.advice 4 r = 0 ∧
        g.advice 5 r = g.advice 10 row
      else g.fixed 0 r = 0 ∧ ∀ i < 6, g.advice i r = 0 := by
  unfold codeLookup
  rw [tableLookup_holds hu]
  refine forall₂_congr fun row hrow => exists_congr fun r => and_congr_right fun hr => ?_
  have hrot : g.rot row 0 = row := g.rot_zero (lt_of_lt_of_le hrow hu)
  simp only [Expr.eval, hrot, hflag, Fin.forall_fin_succ, Matrix.cons_val_zero, Matrix.cons_val_succ]
  split_ifs with h
  · simp [eq_comm]
  · rw [eq_comm]
    refine and_congr_right fun _ => ?_
    constructor
    · intro h' i hi
      simp at h'
      obtain ⟨a0, a1, a2, a3, a4, a5⟩ := h'
      interval_cases i
      exacts [a0.symm, a1.symm, a2.symm, a3.symm, a4.symm, a5.symm]
    · intro h'
      simp [h']

/-- A valid table of any length without a domain. -/
theorem valid_pad {K SPEC : ℕ} : ∀ p, ∃ T, ValidTable K K SPEC T ∧ T.length = p + 1 ∧ ∀ t ∈ T, t 4 = 0
  | 0 => ⟨_, ValidTable.last 0 0, rfl, fun t ht => by rw [List.mem_singleton.mp ht]; rfl⟩
  | p + 1 => by
    obtain ⟨T, h1, h2, h3⟩ := valid_pad (K := K) (SPEC := SPEC) p
    have := ValidTable.block (SPEC := SPEC) (step := K) 0 0 0 0 [] T (Nat.zero_le _) (by simp) h1
    refine ⟨_, this, ?_, fun t ht => ?_⟩
    · rw [List.length_append, h2]; simp [blockTable, contTable]; omega
    · rcases List.mem_append.mp ht with ht | ht
      · simp only [blockTable, contTable, List.mem_singleton] at ht
        rw [ht]; rfl
      · exact h3 t ht

/-- **C95.** A circuit with a hash table, the gate and `m` rows of messages looked up in the table, on `2^kk` rows with
the domain of bn256. The key, made before the messages are known, exists. With it: a prover with given messages that
convinces the verifier for more than `58 * 2^kk` in `r` of all challenges has the digest of every message right or has
committed to a table with a collision of `hash_msg`; and if all digests are right, there is a prover that fails for at most
`19 * 2^kk` in `r` of all challenges. -/
theorem C95_code {k : ChipKind} {ch : Chip Fr 3} (hch : bnChip k = .ok ch) (short short' legacy : Bool) (mode : LoadMode)
    {STEP calcs m kk : ℕ} (hpos : 0 < STEP) (hm : m < calcs) (hkk : kk ≤ 28) (h1 : STEP + 8 ≤ 2 ^ kk)
    (h2 : calcs + 7 ≤ 2 ^ kk) (h3 : k.rows * calcs + 6 ≤ 2 ^ kk) {x : Run Fr}
    (hx : x = codeRun ch short legacy mode STEP .empty calcs) :
    ∃ L, x.load = .ok L ∧ ∃ K,
      keygenWith x.configured.2 [codeLookup] (L.ops ++ hostOps (q := 5) m 0) (2 ^ kk) (omega kk) delta = .ok K ∧
      K.slack ≤ 58 * 2 ^ kk ∧ K.loss ≤ 19 * 2 ^ kk ∧ ∀ (msgs : List (ℕ × List (Fr × Fr) × Fr)) (hmsgs : ∀ msg ∈ msgs, 0 < msg.1 ∧ msg.1 < 2 ^ 64 ∧
          msg.2.1.length = (msg.1 + STEP - 1) / STEP) (hlen : (codeRows legacy STEP msgs).length = m),
        (∀ P : Prover Fr, P.Short (2 ^ kk) → (∀ i (hi : i < (codeRows legacy STEP msgs).length), ∀ j : Fin 5,
            (P.advice (6 + j)).eval (omega kk ^ i) = codeReq (codeRows legacy STEP msgs)[i] j) →
          58 * 2 ^ kk * Base.Bn256.r ^ 4 < Nat.card {c // P.Convinces K c} → ∀ msg ∈ msgs,
            hashMsgFr short' legacy (msg.2.1.flatMap fun w => [w.1, w.2]) (some (msg.1 * Base.domainSpec legacy)) =
              .ok msg.2.2 ∨
            ∃ a₁ m₁ c₁ ws₁ a₂ m₂ c₂ ws₂, IsMessage x (K.grid P.advice) a₁ m₁ c₁ ws₁ ∧
              IsMessage x (K.grid P.advice) a₂ m₂ c₂ ws₂ ∧ (c₁, ws₁) ≠ (c₂, ws₂) ∧
              hashMsgFr short' legacy (ws₁.flatMap fun w => [w.1, w.2]) (some (c₁ * Base.domainSpec legacy)) =
                .ok msg.2.2 ∧
              hashMsgFr short' legacy (ws₂.flatMap fun w => [w.1, w.2]) (some (c₂ * Base.domainSpec legacy)) =
                .ok msg.2.2) ∧
        ((∀ msg ∈ msgs, hashMsgFr short' legacy (msg.2.1.flatMap fun w => [w.1, w.2])
            (some (msg.1 * Base.domainSpec legacy)) = .ok msg.2.2) →
          ∃ P : Prover Fr, P.Short (2 ^ kk) ∧ (∀ i (hi : i < (codeRows legacy STEP msgs).length), ∀ j : Fin 5,
              (P.advice (6 + j)).eval (omega kk ^ i) = codeReq (codeRows legacy STEP msgs)[i] j) ∧
            Base.Bn256.r ^ 5 ≤ Nat.card {c // P.Convinces K c} + K.loss * Base.Bn256.r ^ 4 ∧
            58 * 2 ^ kk * Base.Bn256.r ^ 4 < Nat.card {c // P.Convinces K c}) := by
  have h28 : 2 ^ kk ≤ 2 ^ 28 := Nat.pow_le_pow_right (by norm_num) hkk
  have hc : calcs < 2 ^ 64 := by omega
  have hlegal : x.Legal := by
    rw [hx]
    exact ⟨fun i => lt_of_lt_of_le i.isLt (by simp [codeRun]), fun i j h => Fin.ext h, by simp [codeRun, testRun],
      show STEP < 2 ^ 64 by omega, show STEP < 2 ^ 64 by omega, hc, by simp [codeRun, testRun, HashTable.empty]⟩
  have hbn : x.IsBn k short := by rw [hx]; exact ⟨hch, rfl⟩
  have eS : x.STEP = STEP := by rw [hx]; rfl
  have es : x.step = STEP := by rw [hx]; rfl
  have et : x.table = .empty := by rw [hx]; rfl
  have ec : x.calcs = calcs := by rw [hx]; rfl
  have el : x.legacy = legacy := by rw [hx]; rfl
  have eb : x.before.ops = [] := by rw [hx]; rfl
  have e0 : x.cs = ⟨11, 2, 0, [bareGate 0 fun i => i], [], []⟩ := by rw [hx]; rfl
  have eq : x.qEnable = 0 := by rw [hx]; rfl
  have eh : ∀ i, x.hashTable i = i := by rw [hx]; exact fun i => rfl
  have hf : x.Fresh := by rw [hx]; exact ⟨fun _ _ => rfl, fun _ _ => rfl, fun _ _ => rfl⟩
  have ea : x.cs.numAdvice = 6 + 5 := by rw [e0]
  have ef : x.cs.numFixed = 2 := by rw [e0]
  have hbl := code_blinding hbn hlegal e0
  have hck : ∀ t : HashTable Fr, t.checks = [] → ChecksMatch legacy STEP t calcs := by
    intro t ht a m _ _ ck h
    simp [rowCk, ht] at h
  obtain ⟨L, hL⟩ := (C41_checks hbn hlegal).1.mpr
    ⟨fun _ => by rw [et]; simp [HashTable.empty], by rw [el, eS, et, ec]; exact hck _ rfl⟩
  have hfits : Fits (L.ops ++ hostOps (q := 5) m 0) (2 ^ kk - 6) :=
    host_fits hbn hlegal hf eb hL (by omega) (by omega) (by omega) (by rw [ec]; omega)
  have hnocopy : ∀ a b, Op.copy a b ∉ hostOps (q := 5) m 0 := by
    intro a b h
    obtain ⟨i, -, h | ⟨j, h⟩⟩ := mem_hostOps.mp h <;> cases h
  obtain ⟨K, hK⟩ := (C87_keygen hbn hlegal (Or.inl hL) (post := hostOps (q := 5) m 0) (cs := x.configured.2)
    (ws := [codeLookup]) (fun c h => h) (n := 2 ^ kk) (omega kk) delta (by
      intro a b h
      rw [eb, List.nil_append] at h
      exact absurd h (hnocopy a b))).mpr ⟨by omega, by rw [hbl]; exact hfits⟩
  have hω := omega_primitive hkk
  have hcols : (permCols x.configured.2.equality).length ≤ 10 ^ 28 := by
    obtain ⟨⟨lw, -⟩, hn⟩ := hbn.lawful
    refine (permCols_length _).trans ?_
    rw [Run.configured_eq lw]
    simp only [e0, List.nil_append, List.length_append, (chip_size hbn.1 lw _ _ _).2]
    exact (show 8 + 6 ≤ 10 ^ 28 by norm_num)
  have hwide : codeLookup.degree ≤ 6 ∧ codeLookup.pairs.length ≤ 6 + 1 :=
    ⟨codeLookup_degree, by simp [codeLookup, tableLookup]⟩
  obtain ⟨hsl, hlo⟩ := slack_with (d := 6) hbn hlegal
    (by rw [e0]; simp [csDegree, gateDegree, bareGate, Expr.degree]) (by rw [e0]; simp [bareGate]) (by rw [e0]) (by rw [e0])
    (ws := [codeLookup]) (by simpa using hwide) (by simp) hK
  have hKu : K.usable = 2 ^ kk - 6 ∧ K.ω = omega kk ∧ K.n = 2 ^ kk := by
    obtain ⟨-, -, A, -, rfl⟩ := keygen_ok hK
    exact ⟨by simp only [hbl], rfl, rfl⟩
  have hflag := host_flag hbn hlegal ea ef eq eh eb (Or.inl hL) hK
  obtain ⟨-, -, hq1, hq2⟩ := host_quiet hbn hlegal ea ef eq eh eb (Or.inl hL)
  have hgates : bareGate x.qEnable x.hashTable ∈ x.configured.2.gates := by
    obtain ⟨⟨lw, -⟩, hn⟩ := hbn.lawful
    rw [Run.configured_eq lw, eq, show x.hashTable = (fun i : Fin 6 => (i : ℕ)) from funext eh]
    simp [e0]
  have quietFixed : ∀ o ∈ x.before.ops ++ hostOps (q := 5) m 0, ∀ c r v, o.FixedWrite c r v → ¬ x.FixedCol c := by
    intro o ho c r v hw
    rw [eb, List.nil_append] at ho
    obtain ⟨i, -, rfl | ⟨j, rfl⟩⟩ := mem_hostOps.mp ho
    · rcases hw with hw | ⟨r', -, hw⟩ <;> cases hw
      exact hq1
    · rcases hw with hw | ⟨r', -, hw⟩ <;> cases hw
  have quietSel : ∀ c r, Op.selector c r ∈ x.before.ops ++ hostOps (q := 5) m 0 → ¬ x.Sel c := by
    intro c r ho
    rw [eb, List.nil_append] at ho
    obtain ⟨i, -, h | ⟨j, h⟩⟩ := mem_hostOps.mp ho <;> cases h
  refine ⟨L, hL, K, hK, hsl, hlo, fun msgs hmsgs hlen => ⟨?_, fun hv => ?_⟩⟩
  · -- soundness
    intro P hP hPv hlt msg hmsg
    obtain ⟨c0, c1, c2⟩ := hmsgs msg hmsg
    have key := C94_circuit short' hbn hlegal (by rw [es, eS]) (by rw [eS]; exact hpos) (by rw [ec]; omega) (Or.inl hL)
      (cs := x.configured.2) (fun p h => List.mem_of_mem_drop h) (fun p h => List.mem_of_mem_drop h) hgates
      quietFixed quietSel hK hω (delta_names hkk hcols) hP (lt_of_le_of_lt (Nat.mul_le_mul_right _ hsl) hlt)
      (q := .fixed 1 0) (es := ![.mul (.fixed 1 0) (.advice 6 0), .mul (.fixed 1 0) (.advice 7 0),
        .mul (.fixed 1 0) (.advice 8 0), .mul (.fixed 1 0) (.advice 9 0), .const 0, .mul (.fixed 1 0) (.advice 10 0)])
      (by
        rw [List.mem_singleton, codeLookup, eq]
        congr 1
        funext i
        exact eh i) rfl c0 c1 msg.2.1 (by rw [eS]; exact c2) msg.2.2 (by
        intro t ht
        rw [eS, el] at ht
        have htR : t ∈ codeRows legacy STEP msgs := List.mem_flatMap.mpr ⟨msg, hmsg, ht⟩
        obtain ⟨i, hi, rfl⟩ := List.mem_iff_getElem.mp htR
        have hrot : (K.grid P.advice).rot i 0 = i := (K.grid P.advice).rot_zero (show i < K.n by omega)
        have hfl : K.fixed 1 ((K.grid P.advice).rot i 0) = 1 := by rw [hrot, hflag, if_pos (by omega)]
        refine ⟨i, by omega, hfl, ?_⟩
        have hcell : ∀ j : Fin 5, (Expr.mul (.fixed 1 0) (.advice (6 + j) 0) : Expr Fr).eval (K.grid P.advice) i =
            codeReq (codeRows legacy STEP msgs)[i] j := by
          intro j
          change K.fixed 1 ((K.grid P.advice).rot i 0) * (P.advice (6 + j)).eval (K.ω ^ (K.grid P.advice).rot i 0) = _
          rw [hfl, one_mul, hrot, hKu.2.1, hPv i hi]
        intro j
        fin_cases j
        · exact hcell 0
        · exact hcell 1
        · exact hcell 2
        · exact hcell 3
        · exact ((messages_bare msgs).1 _ htR).symm
        · exact hcell 4)
    rwa [el] at key
  · -- completeness
    obtain ⟨R, hR⟩ : ∃ R, R = codeRows legacy STEP msgs := ⟨_, rfl⟩
    rw [← hR] at hlen
    obtain ⟨T₀, t1, t2, t3⟩ := valid_pad (K := STEP) (SPEC := Base.domainSpec legacy) (calcs - m - 1)
    have hsum : ∀ msg ∈ msgs, msg.2.1.length ≤ m := by
      intro msg hmsg
      rw [← hlen, hR, codeRows, (messages_bare msgs).2]
      exact List.single_le_sum (by simp) _ (List.mem_map.mpr ⟨msg, hmsg, rfl⟩)
    have hvalid : ValidTable x.STEP x.step (Base.domainSpec x.legacy) (R ++ T₀) := by
      rw [eS, es, el, hR]
      exact valid_messages hpos t1 msgs fun msg hmsg => ⟨(hmsgs msg hmsg).1, (hmsgs msg hmsg).2.2,
        by have := hsum msg hmsg; omega, hv msg hmsg⟩
    have hTlen : (R ++ T₀).length = x.calcs := by rw [List.length_append, hlen, t2, ec]; omega
    obtain ⟨g₀, hg₀⟩ : ∃ g₀ : Grid Fr, g₀ = ⟨K.n, K.usable, fun c r => if h : 6 ≤ c ∧ c < 11 then
      codeReq (R.getD r 0) ⟨c - 6, by omega⟩ else 0, K.fixed, K.selector⟩ := ⟨_, rfl⟩
    have hlaid : x.Laid L (hostOps (q := 5) m 0) g₀ := by
      have := laid_grid hbn hlegal (Or.inl hL) quietFixed quietSel hK 0
      rw [hg₀]
      exact ⟨this.usable_le, this.fits, this.quietFixed, this.quietSel, this.fixed, this.selector⟩
    have hadv : ∀ c r v, Op.advice c r v ∈ x.before.ops ++ hostOps (q := 5) m 0 → ¬ x.AdviceCol c := by
      intro c r v ho
      rw [eb, List.nil_append] at ho
      obtain ⟨i, -, h | ⟨j, h⟩⟩ := mem_hostOps.mp ho <;> cases h
      exact hq2 _ (by omega) (by omega)
    obtain ⟨⟨lw, -⟩, hna⟩ := hbn.lawful
    obtain ⟨s, s', hops, -⟩ := Run.load_ends lw hlegal hna hL
    have hen := hlaid.enabled lw hlegal hops
    obtain ⟨g, hacc, gn, gu, gf, gs, gadv, gcol, gzero⟩ :=
      C60_fill hbn hlegal (Or.inl hL) hlaid hadv hen (by omega) (R ++ T₀) hTlen hvalid
    have hgu : g.usable = 2 ^ kk - 6 := by rw [gu, hg₀]; exact hKu.1
    have hgn : g.n = 2 ^ kk := by rw [gn, hg₀]; exact hKu.2.2
    have hgf : g.fixed = K.fixed := by rw [gf, hg₀]
    have hgs : g.selector = K.selector := by rw [gs, hg₀]
    have heng : x.EnabledAfter g s := ⟨by rw [gu]; exact hen.1, by rw [gn, gf]; exact hen.2⟩
    have hreq : ∀ i < m, ∀ j : Fin 5, g.advice (6 + j) i = codeReq (R.getD i 0) j := by
      intro i hi j
      rw [gadv _ (hq2 _ (by omega) (by omega)), hg₀]
      simp only
      rw [dif_pos ⟨by omega, by omega⟩]
      congr 1
      exact Fin.ext (by simp)
    have hdom : ∀ t ∈ R ++ T₀, t 4 = 0 := by
      intro t ht
      rcases List.mem_append.mp ht with ht | ht
      · rw [hR] at ht; exact (messages_bare msgs).1 t ht
      · exact t3 t ht
    have hbare : Bare x g := by
      intro r hr he _
      have hrow : s < r ∧ r ≤ s + x.calcs := by
        have := heng.2 r (by omega)
        rw [he] at this
        by_contra hn
        rw [if_neg hn] at this
        exact one_ne_zero this
      obtain ⟨j, rfl⟩ : ∃ j, r = s + j + 1 := ⟨r - s - 1, by omega⟩
      have hj : j < (R ++ T₀).length := by omega
      rw [gcol j hj]
      exact hdom _ (List.getElem_mem hj)
    have hen1 := heng.1
    have hlook : codeLookup.Holds g := by
      refine (codeLookup_holds hacc.laid.usable_le (m := m) (fun row => by rw [hgf]; exact hflag row)).mpr fun row hr => ?_
      by_cases hi : row < m
      · simp only [if_pos hi]
        refine ⟨s + row + 1, by omega, ?_, ?_⟩
        · have := heng.2 (s + row + 1) (by omega)
          rw [if_pos (by omega), eq] at this
          exact this
        · have hj : row < (R ++ T₀).length := by omega
          have hget : R.getD row 0 = (R ++ T₀)[row] := by
            rw [List.getElem_append_left (by omega), List.getD_eq_getElem _ _ (by omega)]
          have hc' : ∀ i : Fin 6, g.advice i (s + row + 1) = R.getD row 0 i := by
            intro i
            rw [hget, ← gcol row hj i, Run.col, eh]
          have d4 := hdom _ (List.getElem_mem hj)
          rw [← hget] at d4
          refine ⟨?_, ?_, ?_, ?_, ?_, ?_⟩
          · exact (hc' 0).trans (hreq row hi 0).symm
          · exact (hc' 1).trans (hreq row hi 1).symm
          · exact (hc' 2).trans (hreq row hi 2).symm
          · exact (hc' 3).trans (hreq row hi 3).symm
          · exact (hc' 4).trans d4
          · exact (hc' 5).trans (hreq row hi 4).symm
      · simp only [if_neg hi]
        refine ⟨s, by omega, ?_, fun i hi => ?_⟩
        · have := heng.2 s (by omega)
          rw [if_neg (by omega), eq] at this
          exact this
        · have := gzero ⟨i, hi⟩
          rw [Run.col, eh] at this
          exact this
    have hgt : x.configured.2.gates = bareGate x.qEnable x.hashTable :: x.newGates := by
      rw [Run.newGates, Run.configured_eq lw, eq, show x.hashTable = (fun i : Fin 6 => (i : ℕ)) from funext eh]
      simp [e0]
    have hlk : x.newLookups = x.configured.2.lookups := by rw [Run.newLookups, e0]; rfl
    have hnew : x.newOps L = L.ops := by rw [Run.newOps, eb]; rfl
    obtain ⟨P, p1, p2, p3⟩ := C89_grid hK hω (g := g) hgn (by rw [hgu, hKu.1]) hgf hgs
      ⟨fun p hp => by
        rw [hgt] at hp
        rcases List.mem_cons.mp hp with rfl | hp
        · exact (bareGate_holds hacc.laid.usable_le heng).mpr hbare
        · exact hacc.sat.gates p hp,
        fun l hl' => hacc.sat.lookups l (by rw [hlk]; exact hl')⟩
      (by simpa using hlook) (by
        intro a b ho
        rcases List.mem_append.mp ho with ho | ho
        · exact hacc.sat.copies a b (by rw [hnew]; exact ho)
        · exact absurd ho (hnocopy a b))
    refine ⟨P, p1, fun i hi j => ?_, ?_⟩
    · subst hR
      rw [p2 _ _ (by omega), hreq i (by omega) j, List.getD_eq_getElem _ _ hi]
    · rw [show Fintype.card Fr = Base.Bn256.r from ZMod.card Base.Bn256.r] at p3
      exact ⟨p3, enough hkk hlo p3⟩

/-- A message of 100 bytes in two rows, on `2^8` rows. -/
example {k : ChipKind} {ch : Chip Fr 3} (hch : bnChip k = .ok ch) (short short' legacy : Bool) (mode : LoadMode)
    {x : Run Fr} (hx : x = codeRun ch short legacy mode 62 .empty 4) :
    ∃ D, hashMsgFr short' legacy [1, 2, 3, 4] (some (100 * Base.domainSpec legacy)) = .ok D ∧
    ∃ L, x.load = .ok L ∧ ∃ K,
      keygenWith x.configured.2 [codeLookup] (L.ops ++ hostOps (q := 5) 2 0) (2 ^ 8) (omega 8) delta = .ok K ∧
      ∃ P : Prover Fr, P.Short (2 ^ 8) ∧ 58 * 2 ^ 8 * Base.Bn256.r ^ 4 < Nat.card {c // P.Convinces K c} := by
  obtain ⟨D, hD⟩ : ∃ D, hashMsgFr short' legacy [1, 2, 3, 4] (some (100 * Base.domainSpec legacy)) = .ok D :=
    ⟨_, (C04_C05_bn254 short' legacy).2 _ _ (by simp) (by simp)⟩
  obtain ⟨L, hL, K, hK, -, -, h⟩ := C95_code hch short short' legacy mode (STEP := 62) (calcs := 4) (m := 2) (kk := 8)
    (by norm_num) (by norm_num) (by norm_num) (by norm_num) (by norm_num) (by cases k <;> simp [ChipKind.rows]) hx
  obtain ⟨P, p1, -, -, p3⟩ := (h [(100, [(1, 2), (3, 4)], D)] (by
    intro m hm
    obtain rfl := List.mem_singleton.mp hm
    exact ⟨by norm_num, by norm_num, by norm_num⟩) (by rw [codeRows, (messages_bare _).2]; rfl)).2 (by
    intro m hm
    obtain rfl := List.mem_singleton.mp hm
    exact hD)
  exact ⟨D, hD, L, hL, K, hK, P, p1, p3⟩

end Props
